import Verif.Engine.Linear
import Verif.Graph.Trio

/-!
# C102: sources do not influence each other

The sound of several sources together is the sum of the sounds of each alone, if all nodes have the channel count mode
`explicit` (`Verif.Engine.Model`: graph, summing and nodes). With mode `max` it is false: `C102_negated_max`.
-/

namespace Verif.Engine

open Verif.Render

section
variable {K : Type} [Field K] [LinearOrder K] [IsStrictOrderedRing K]

/-- related processors -/
inductive Proc3 (N : Nat) (c : Cfg) : Proc K → Proc K → Proc K → Prop
  | destination : Proc3 N c .destination .destination .destination
  | source (p q r : Nat → Sig K × Bool) (k : Nat) (h : ∀ j, ∃ n, Sum3 N n (p j).1 (q j).1 (r j).1) :
    Proc3 N c (.source p k) (.source q k) (.source r k)
  | gain (v : Nat → List K) (k : Nat) : Proc3 N c (.gain v k) (.gain v k) (.gain v k)
  | iir (f g h : Filter.Iir K) (hi : Iir3 c.count f g h) : Proc3 N c (.iir f) (.iir g) (.iir h)
  | splitter (n : Nat) : Proc3 N c (.splitter n) (.splitter n) (.splitter n)
  | merger : Proc3 N c .merger .merger .merger

/-- mode `explicit`, at least one channel (`/repo/src/node/audio_node.rs` l.180 rejects zero) -/
def Explicit (c : Cfg) : Prop := 2 ≤ c.mode ∧ 0 < c.count

theorem process_three (e : Consts K) (c : Cfg) (hc : Explicit c) (p q r : Proc K) (ins outs : List (Sig K × Sig K × Sig K))
    (hp : Proc3 e.N c p q r) (hi : ∀ x ∈ ins, Sum3 e.N c.count x.1 x.2.1 x.2.2)
    (ho : ∀ x ∈ outs, ∃ n, Sum3 e.N n x.1 x.2.1 x.2.2) :
    (process e p (ins.map (·.1)) (outs.map (·.1)) = none ∧ process e q (ins.map (·.2.1)) (outs.map (·.2.1)) = none ∧
      process e r (ins.map (·.2.2)) (outs.map (·.2.2)) = none) ∨
    ∃ a b d, process e p (ins.map (·.1)) (outs.map (·.1)) = some a ∧
      process e q (ins.map (·.2.1)) (outs.map (·.2.1)) = some b ∧
      process e r (ins.map (·.2.2)) (outs.map (·.2.2)) = some d ∧
      Proc3 e.N c a.1 b.1 d.1 ∧ ∀ (k : Nat) x y z, a.2.1[k]? = some x → b.2.1[k]? = some y → d.2.1[k]? = some z →
        ∃ n, Sum3 e.N n x y z := by
  have htail : ∀ (os : List (Sig K × Sig K × Sig K)), (∀ x ∈ os, ∃ n, Sum3 e.N n x.1 x.2.1 x.2.2) →
      ∀ (u v w : Sig K), (∃ n, Sum3 e.N n u v w) → ∀ (k : Nat) x y z, (u :: os.map (·.1))[k]? = some x →
        (v :: os.map (·.2.1))[k]? = some y → (w :: os.map (·.2.2))[k]? = some z → ∃ n, Sum3 e.N n x y z := by
    intro os hos u v w huvw k x y z hx hy hz
    cases k with
    | zero =>
      simp only [List.getElem?_cons_zero, Option.some.injEq] at hx hy hz
      subst hx hy hz
      exact huvw
    | succ k =>
      simp only [List.getElem?_cons_succ, List.getElem?_map, Option.map_eq_some_iff] at hx hy hz
      obtain ⟨o, h1, rfl⟩ := hx
      obtain ⟨o', h2, rfl⟩ := hy
      obtain ⟨o'', h3, rfl⟩ := hz
      rw [h1] at h2 h3
      cases h2
      cases h3
      exact hos o (List.mem_of_getElem? h1)
  cases hp with
  | destination =>
    cases ins with
    | nil => exact .inl ⟨rfl, rfl, rfl⟩
    | cons i ins =>
      cases outs with
      | nil => exact .inl ⟨rfl, rfl, rfl⟩
      | cons o os =>
        refine .inr ⟨_, _, _, rfl, rfl, rfl, .destination, ?_⟩
        exact htail os (fun x hx => ho x (by simp [hx])) _ _ _ ⟨_, hi i (by simp)⟩
  | source p q r k h =>
    cases outs with
    | nil => exact .inl ⟨by cases ins <;> rfl, by cases ins <;> rfl, by cases ins <;> rfl⟩
    | cons o os =>
      refine .inr ⟨_, _, _, by cases ins <;> rfl, by cases ins <;> rfl, by cases ins <;> rfl, .source p q r (k + 1) h, ?_⟩
      exact htail os (fun x hx => ho x (by simp [hx])) _ _ _ (h k)
  | gain v k =>
    cases ins with
    | nil => exact .inl ⟨rfl, rfl, rfl⟩
    | cons i ins =>
      cases outs with
      | nil => exact .inl ⟨rfl, rfl, rfl⟩
      | cons o os =>
        refine .inr ⟨_, _, _, rfl, rfl, rfl, .gain v (k + 1), ?_⟩
        exact htail os (fun x hx => ho x (by simp [hx])) _ _ _ ⟨_, gain_sum3 e.thr (v k) (hi i (by simp))⟩
  | iir f g h hh =>
    cases ins with
    | nil => exact .inl ⟨rfl, rfl, rfl⟩
    | cons i ins =>
      cases outs with
      | nil => exact .inl ⟨rfl, rfl, rfl⟩
      | cons o os =>
        have hs := iir_sum3 hc.2 hh (hi i (by simp))
        refine .inr ⟨_, _, _, rfl, rfl, rfl, .iir _ _ _ hs.1, ?_⟩
        exact htail os (fun x hx => ho x (by simp [hx])) _ _ _ ⟨_, hs.2⟩
  | splitter n =>
    cases ins with
    | nil => exact .inl ⟨by cases outs <;> rfl, by cases outs <;> rfl, by cases outs <;> rfl⟩
    | cons i ins =>
      simp only [List.map_cons, process, Node.splitter, List.length_map]
      by_cases hn : n = outs.length
      · rw [if_pos hn, if_pos hn, if_pos hn]
        refine .inr ⟨_, _, _, rfl, rfl, rfl, .splitter n, ?_⟩
        intro k x y z hx hy hz
        simp only [List.getElem?_map, Option.map_eq_some_iff] at hx hy hz
        obtain ⟨j, h1, rfl⟩ := hx
        obtain ⟨j', h2, rfl⟩ := hy
        obtain ⟨j'', h3, rfl⟩ := hz
        rw [h1] at h2 h3
        cases h2
        cases h3
        exact ⟨1, split_sum3 (hi i (by simp)) j _ _ _⟩
      · rw [if_neg hn, if_neg hn, if_neg hn]
        exact .inl ⟨rfl, rfl, rfl⟩
  | merger =>
    cases outs with
    | nil => exact .inl ⟨rfl, rfl, rfl⟩
    | cons o os =>
      obtain ⟨a, a1, a2, a3, a4⟩ := merger_spec (N := e.N) (ins.map (·.1)) o.1 (by
        intro q hq
        obtain ⟨x, hx, rfl⟩ := List.mem_map.1 hq
        exact (hi x hx).fx)
      obtain ⟨b, b1, b2, b3, b4⟩ := merger_spec (N := e.N) (ins.map (·.2.1)) o.2.1 (by
        intro q hq
        obtain ⟨x, hx, rfl⟩ := List.mem_map.1 hq
        exact (hi x hx).fy)
      obtain ⟨d, d1, d2, d3, d4⟩ := merger_spec (N := e.N) (ins.map (·.2.2)) o.2.2 (by
        intro q hq
        obtain ⟨x, hx, rfl⟩ := List.mem_map.1 hq
        exact (hi x hx).fz)
      rw [List.length_map] at a3 b3 d3
      simp only [List.map_cons, process]
      rw [a1, b1, d1]
      refine .inr ⟨_, _, _, rfl, rfl, rfl, .merger, ?_⟩
      refine htail os (fun x hx => ho x (by simp [hx])) _ _ _ ⟨ins.length, ⟨a2, b2, d2, a3, b3, d3, fun k f hf => ?_⟩⟩
      rw [a4, b4, d4]
      simp only [List.getD, List.getElem?_map]
      cases hk : ins[k]? with
      | none => simp [Node.sample]
      | some x => exact (hi x (List.mem_of_getElem? hk)).adds 0 f hf

/-- The three renderings. -/
def superposed (e : Consts K) : Trio (sem e) where
  okP c p q r := Explicit c ∧ Proc3 e.N c p q r
  okI c x y z := Sum3 e.N c.count x y z
  okO x y z := ∃ n, Sum3 e.N n x y z
  okM m m' m'' := ∀ j, ∃ n, Sum3 e.N n (m j).1 (m' j).1 (m'' j).1
  okC := Explicit
  okP_okC _ _ _ _ h := h.1
  process c p q r ins outs _ hp hi ho := by
    rcases process_three e c hp.1 p q r ins outs hp.2 hi ho with h | ⟨a, b, d, h1, h2, h3, h4, h5⟩
    · exact .inl h
    · exact .inr ⟨a, b, d, h1, h2, h3, ⟨hp.1, h4⟩, h5⟩
  onmessage c p q r m m' m'' hp hm := by
    obtain ⟨hc, hp⟩ := hp
    cases hp with
    | source p q r k h => exact .inr ⟨_, _, _, rfl, rfl, rfl, hc, .source m m' m'' 0 hm⟩
    | destination => exact .inr ⟨_, _, _, rfl, rfl, rfl, hc, .destination⟩
    | gain v k => exact .inr ⟨_, _, _, rfl, rfl, rfl, hc, .gain v k⟩
    | iir f g h hi => exact .inr ⟨_, _, _, rfl, rfl, rfl, hc, .iir f g h hi⟩
    | splitter n => exact .inr ⟨_, _, _, rfl, rfl, rfl, hc, .splitter n⟩
    | merger => exact .inr ⟨_, _, _, rfl, rfl, rfl, hc, .merger⟩
  silence_okI c := silence_sum3 e.N c.count
  silence_okO := ⟨1, silence_sum3 e.N 1⟩
  add c x y z x' y' z' hc h h' := by
    obtain ⟨n, h'⟩ := h'
    exact addSig_sum3 e.N e.r c hc.1 hc.2 h h'

/-! ## C102 -/

/-- What two sources play, and their sum: quantum by quantum, all with the same number of channels or silent, all
samples present. -/
def PlaysSum (N : Nat) (p q r : Nat → Sig K × Bool) : Prop := ∀ j, ∃ n, Sum3 N n (p j).1 (q j).1 (r j).1

/-- Steps of three histories: the same nodes are created, the same connections are made and cut, the same quanta are
rendered. Only what sources play differs, the third time it is the sum of the other two. No handle is dropped, channel
configurations are not changed after creation and are `explicit`, filters are new. -/
inductive SameButSources (N : Nat) : Op (Proc K) (Nat → Sig K × Bool) → Op (Proc K) (Nat → Sig K × Bool) →
    Op (Proc K) (Nat → Sig K × Bool) → Prop
  | acquire : SameButSources N .acquire .acquire .acquire
  | recv : SameButSources N .recv .recv .recv
  | quantum : SameButSources N .quantum .quantum .quantum
  | breaker (x : Handle) : SameButSources N (.breaker x) (.breaker x) (.breaker x)
  | connect (a b : Handle) (o i : Nat) : SameButSources N (.connect a b o i) (.connect a b o i) (.connect a b o i)
  | disconnect (a : Handle) (o d i : Option Nat) :
    SameButSources N (.disconnect a o d i) (.disconnect a o d i) (.disconnect a o d i)
  | gain (id : Nat) (v : Nat → List K) (nin nout : Nat) (c : Cfg) (hc : Explicit c) :
    SameButSources N (.register id (.gain v 0) nin nout c) (.register id (.gain v 0) nin nout c)
      (.register id (.gain v 0) nin nout c)
  | iir (id : Nat) (b a : List K) (nin nout : Nat) (c : Cfg) (hc : Explicit c) :
    SameButSources N (.register id (.iir (Filter.Iir.new b a)) nin nout c)
      (.register id (.iir (Filter.Iir.new b a)) nin nout c) (.register id (.iir (Filter.Iir.new b a)) nin nout c)
  | splitter (id n nin nout : Nat) (c : Cfg) (hc : Explicit c) :
    SameButSources N (.register id (.splitter n) nin nout c) (.register id (.splitter n) nin nout c)
      (.register id (.splitter n) nin nout c)
  | merger (id nin nout : Nat) (c : Cfg) (hc : Explicit c) :
    SameButSources N (.register id .merger nin nout c) (.register id .merger nin nout c)
      (.register id .merger nin nout c)
  | source (id : Nat) (p q r : Nat → Sig K × Bool) (nin nout : Nat) (c : Cfg) (hc : Explicit c) (h : PlaysSum N p q r) :
    SameButSources N (.register id (.source p 0) nin nout c) (.register id (.source q 0) nin nout c)
      (.register id (.source r 0) nin nout c)
  | post (x : Handle) (p q r : Nat → Sig K × Bool) (h : PlaysSum N p q r) :
    SameButSources N (.post x p) (.post x q) (.post x r)

theorem new_iir3 (n : Nat) (b a : List K) :
    Iir3 n (Filter.Iir.new b a) (Filter.Iir.new b a) (Filter.Iir.new b a) := by
  have hlen : ∀ st ∈ (Filter.Iir.new b a).states, st.length = (Filter.Iir.new b a).coeffs.length := by
    intro st hst
    simp only [Filter.Iir.new, List.mem_cons, List.not_mem_nil, or_false, or_self] at hst
    rw [hst, List.length_replicate]
    rfl
  have he : (Filter.Iir.new b a).ended = true := by
    simp [Filter.Iir.ended, Filter.Iir.new]
  have hok : IirOk n (Filter.Iir.new b a) := ⟨hlen, .inr he⟩
  refine ⟨rfl, rfl, hok, hok, hok, fun k => ?_⟩
  rw [stAt_ended hlen he]
  simp [plus, zeros]

theorem same_ops (e : Consts K) {x y z : Op (Proc K) (Nat → Sig K × Bool)} (h : SameButSources e.N x y z) :
    (superposed e).Ops x y z := by
  cases h with
  | acquire => exact .acquire
  | recv => exact .recv
  | quantum => exact .quantum
  | breaker x => exact .breaker x
  | connect a b o i => exact .connect a b o i
  | disconnect a o d i => exact .disconnect a o d i
  | gain id v nin nout c hc => exact .register _ _ _ _ _ _ _ ⟨hc, .gain v 0⟩
  | iir id b a nin nout c hc => exact .register _ _ _ _ _ _ _ ⟨hc, .iir _ _ _ (new_iir3 _ b a)⟩
  | splitter id n nin nout c hc => exact .register _ _ _ _ _ _ _ ⟨hc, .splitter n⟩
  | merger id nin nout c hc => exact .register _ _ _ _ _ _ _ ⟨hc, .merger⟩
  | source id p q r nin nout c hc h => exact .register _ _ _ _ _ _ _ ⟨hc, .source p q r 0 h⟩
  | post x p q r h => exact .post x p q r h

/-- C102: if in three renderings of the same graph the sources play `p`, `q` and `p + q`, the sound of the third is the
sum of the sounds of the others: in every quantum, channel and frame. (And they have the same number of quanta and panic
together.) Two sources together thus sound as each of them alone, added: let `p` be silent for one and `q` for the other.
For all graphs of gain, IIR filter, splitter and merger nodes in mode `explicit`, with cycles, changing connections, and
sources that are given something else to play. -/
theorem C102_superposition_partial (e : Consts K) (cfg : Cfg) (hcfg : Explicit cfg)
    (l : List (Op (Proc K) (Nat → Sig K × Bool) × Op (Proc K) (Nat → Sig K × Bool) × Op (Proc K) (Nat → Sig K × Bool)))
    (h : ∀ x ∈ l, SameButSources e.N x.1 x.2.1 x.2.2) :
    (Sys.sound (sem e) (Sys.init (sem e) .destination cfg) (l.map (·.1)) = none ∧
      Sys.sound (sem e) (Sys.init (sem e) .destination cfg) (l.map (·.2.1)) = none ∧
      Sys.sound (sem e) (Sys.init (sem e) .destination cfg) (l.map (·.2.2)) = none) ∨
    ∃ a b d, Sys.sound (sem e) (Sys.init (sem e) .destination cfg) (l.map (·.1)) = some a ∧
      Sys.sound (sem e) (Sys.init (sem e) .destination cfg) (l.map (·.2.1)) = some b ∧
      Sys.sound (sem e) (Sys.init (sem e) .destination cfg) (l.map (·.2.2)) = some d ∧
      b.2.length = a.2.length ∧ d.2.length = a.2.length ∧
      ∀ (t : Nat) x y z, a.2[t]? = some x → b.2[t]? = some y → d.2[t]? = some z →
        ∀ k f, f < e.N → Node.sample z k f = Node.sample x k f + Node.sample y k f := by
  have hd : (superposed e).okP cfg .destination .destination .destination := ⟨hcfg, .destination⟩
  rcases (superposed e).sound hd l (fun x hx => same_ops e (h x hx)) with h | ⟨a, b, d, h1, h2, h3, h4, h5, h6⟩
  · exact .inl h
  · refine .inr ⟨a, b, d, h1, h2, h3, h4, h5, fun t x y z hx hy hz => ?_⟩
    obtain ⟨n, hn⟩ := h6 t x y z hx hy hz
    exact hn.adds

end

/-! ### A history that meets the hypotheses, and the mode `max` -/

/-- parameters of the example: quanta of two frames -/
def pairConsts : Consts ℚ := ⟨1 / 1000000, 2, 7 / 10⟩

/-- nothing -/
def silentPlay : Nat → Sig ℚ × Bool := fun _ => (Node.silence, true)

/-- a mono source -/
def early : Nat → Sig ℚ × Bool := fun _ => ([some [1, 1]], true)

/-- a stereo source that starts a quantum later -/
def late : Nat → Sig ℚ × Bool := fun k => (if k = 0 then Node.silence else [some [2, 2], some [3, 3]], true)

/-- two sources into an IIR filter (an integrator) of the given channel count mode -/
def pair (mode : Nat) (p q : Nat → Sig ℚ × Bool) : List (Op (Proc ℚ) (Nat → Sig ℚ × Bool)) :=
  [.acquire, .register 11 (.source p 0) 0 1 ⟨2, 2, 0⟩, .acquire, .register 12 (.source q 0) 0 1 ⟨2, 2, 0⟩,
   .acquire, .register 13 (.iir (Filter.Iir.new [1] [1, -1])) 1 1 ⟨2, mode, 0⟩,
   .connect ⟨11, 1, 0, 1⟩ ⟨13, 3, 1, 1⟩ 0 0, .connect ⟨12, 2, 0, 1⟩ ⟨13, 3, 1, 1⟩ 0 0,
   .connect ⟨13, 3, 1, 1⟩ ⟨0, 0, 1, 1⟩ 0 0, .recv, .recv, .recv, .recv, .recv, .recv, .quantum, .quantum, .quantum]

/-- what is heard -/
def heard (l : List (Op (Proc ℚ) (Nat → Sig ℚ × Bool))) : Option (List (Sig ℚ)) :=
  (Sys.sound (sem pairConsts) (Sys.init (sem pairConsts) .destination ⟨2, 2, 0⟩) l).map (·.2)

theorem plays_left (N n : Nat) (p : Nat → Sig ℚ × Bool) (h : ∀ j, Full N (p j).1) (hn : ∀ j, Shape n (p j).1) :
    PlaysSum N p silentPlay p := fun j =>
  ⟨n, h j, silence_full N, h j, hn j, silence_shape n, hn j, fun k f _ => by
    rw [show (silentPlay j).1 = Node.silence from rfl, Node.sample_silence, add_zero]⟩

theorem plays_right (N n : Nat) (p : Nat → Sig ℚ × Bool) (h : ∀ j, Full N (p j).1) (hn : ∀ j, Shape n (p j).1) :
    PlaysSum N silentPlay p p := fun j =>
  ⟨n, silence_full N, h j, h j, silence_shape n, hn j, hn j, fun k f _ => by
    rw [show (silentPlay j).1 = Node.silence from rfl, Node.sample_silence, zero_add]⟩

theorem early_ok : (∀ j, Full 2 (early j).1) ∧ ∀ j, Shape 1 (early j).1 :=
  ⟨fun _ => ⟨by simp [early], by simp [early]⟩, fun _ => .inl rfl⟩

theorem late_ok : (∀ j, Full 2 (late j).1) ∧ ∀ j, Shape 2 (late j).1 := by
  refine ⟨fun j => ?_, fun j => ?_⟩
  · unfold late
    by_cases h : j = 0
    · simp only [if_pos h]
      exact silence_full 2
    · simp only [if_neg h]
      exact ⟨by simp, by simp⟩
  · unfold late
    by_cases h : j = 0
    · simp only [if_pos h]
      exact silence_shape 2
    · simp only [if_neg h]
      exact .inl rfl

example : (∀ x ∈ (pair 2 early silentPlay).zip ((pair 2 silentPlay late).zip (pair 2 early late)),
      SameButSources pairConsts.N x.1 x.2.1 x.2.2) ∧
    heard (pair 2 early silentPlay) =
      some [[some [1, 2], some [1, 2]], [some [3, 4], some [3, 4]], [some [5, 6], some [5, 6]]] ∧
    heard (pair 2 silentPlay late) =
      some [[none, none], [some [2, 4], some [3, 6]], [some [6, 8], some [9, 12]]] ∧
    heard (pair 2 early late) =
      some [[some [1, 2], some [1, 2]], [some [5, 8], some [6, 10]], [some [11, 14], some [14, 18]]] := by
  refine ⟨?_, by decide +kernel, by decide +kernel, by decide +kernel⟩
  have he : ∀ n i, Explicit ⟨n + 1, 2, i⟩ := fun n i => ⟨le_rfl, Nat.succ_pos n⟩
  simp only [pair, List.zip_cons_cons, List.zip_nil_right, List.forall_mem_cons, List.not_mem_nil, false_imp_iff,
    implies_true, and_true]
  refine ⟨.acquire, .source _ _ _ _ _ _ _ (he 1 0) (plays_left 2 1 _ early_ok.1 early_ok.2), .acquire,
    .source _ _ _ _ _ _ _ (he 1 0) (plays_right 2 2 _ late_ok.1 late_ok.2), .acquire, .iir _ _ _ _ _ _ (he 1 0),
    .connect _ _ _ _, .connect _ _ _ _, .connect _ _ _ _, .recv, .recv, .recv, .recv, .recv, .recv, .quantum,
    .quantum, .quantum⟩

/-- C102, negated: with the default mode `max` of filters a source changes how another one is filtered. A mono source is
heard in both channels of the destination; when a stereo source joins it, the filter gets a second channel, whose memory
does not know the past of the mono source (iir_filter.rs l.363-370). In the second quantum the right channel is `4, 8`
instead of `3 + 3, 4 + 6`. -/
theorem C102_negated_max :
    heard (pair 0 early silentPlay) =
      some [[some [1, 2], some [1, 2]], [some [3, 4], some [3, 4]], [some [5, 6], some [5, 6]]] ∧
    heard (pair 0 silentPlay late) =
      some [[none, none], [some [2, 4], some [3, 6]], [some [6, 8], some [9, 12]]] ∧
    heard (pair 0 early late) =
      some [[some [1, 2], some [1, 2]], [some [5, 8], some [4, 8]], [some [11, 14], some [12, 16]]] := by
  refine ⟨by decide +kernel, by decide +kernel, by decide +kernel⟩

end Verif.Engine
