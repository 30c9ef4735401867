import Verif.Engine.Model
import Verif.Graph.Hom
import Mathlib.Tactic.IntervalCases

/-!
# C101: making all sources louder makes the sound louder

Whole histories of the graph with actual nodes and mixing (`Verif.Engine.Model`).
-/

namespace Verif.Engine

open Verif.Render

section
variable {K : Type} [Field K] [LinearOrder K] [IsStrictOrderedRing K]

/-! ## Specification -/

/-- a signal, `c` times as loud; silent channels stay silent -/
def loud (c : K) (s : Sig K) : Sig K := s.map fun x => x.map fun l => l.map (c * ·)

/-- a source that plays everything `c` times as loud -/
def loudPlay (c : K) (play : Nat → Sig K × Bool) : Nat → Sig K × Bool := fun k => (loud c (play k).1, (play k).2)

/-! ## Mixing -/

/-- a louder channel -/
def lc (c : K) (x : Mix.Chan K) : Mix.Chan K := ⟨x.ptr, fun i => c * x.data i⟩

theorem lc_zero (c : K) : lc c (Mix.zero : Mix.Chan K) = Mix.zero := by
  simp [lc, Mix.zero]

theorem chan_add_lc (c : K) (n : Nat) (a b : Mix.Chan K) :
    Mix.Chan.add n (lc c a) (lc c b) = (lc c (Mix.Chan.add n a b).1, (Mix.Chan.add n a b).2) := by
  unfold Mix.Chan.add
  rw [show (lc c a).isSilent = a.isSilent from rfl, show (lc c b).isSilent = b.isSilent from rfl]
  split
  · rfl
  · split
    · rfl
    · simp only [lc, Prod.mk.injEq, Mix.Chan.mk.injEq, true_and, and_true]
      funext i
      ring

theorem fill_lc (c : K) (cs : List (Mix.Chan K)) (m : Nat) : Mix.fill (cs.map (lc c)) m = (Mix.fill cs m).map (lc c) := by
  unfold Mix.fill
  simp [List.map_take, lc_zero]

theorem mixInner_lc (c r : K) (n : Nat) (cs : List (Mix.Chan K)) (m : Nat) (interp : Mix.Interp) :
    Mix.mixInner r n (cs.map (lc c)) m interp =
      ((Mix.mixInner r n cs m interp).1.map (lc c), (Mix.mixInner r n cs m interp).2) := by
  by_cases h : interp = .discrete ∨ cs.length > 6 ∨ m > 6
  · unfold Mix.mixInner
    rw [if_pos (by simpa using h), if_pos h, fill_lc]
  · have h' := h
    push Not at h'
    obtain ⟨h1, h2, h3⟩ := h'
    have hz := lc_zero c
    rcases cs with _ | ⟨a1, _ | ⟨a2, _ | ⟨a3, _ | ⟨a4, _ | ⟨a5, _ | ⟨a6, _ | ⟨a7, as⟩⟩⟩⟩⟩⟩⟩
    case cons.cons.cons.cons.cons.cons.cons => simp at h2; omega
    all_goals
      interval_cases m <;>
        simp [Mix.mixInner, h1, fill_lc, hz, Mix.fill] <;> simp [lc] <;> (try constructor) <;> funext i <;> ring

theorem mix_lc (c r : K) (n : Nat) (cs : List (Mix.Chan K)) (m : Nat) (interp : Mix.Interp) :
    Mix.mix r n (cs.map (lc c)) m interp = ((Mix.mix r n cs m interp).1.map (lc c), (Mix.mix r n cs m interp).2) := by
  unfold Mix.mix
  rw [List.length_map]
  split
  · rfl
  · exact mixInner_lc c r n cs m interp

theorem addChans_lc (c : K) (as : List (Mix.Chan K)) : ∀ (n : Nat) (bs : List (Mix.Chan K)),
    Mix.addChans n (as.map (lc c)) (bs.map (lc c)) = ((Mix.addChans n as bs).1.map (lc c), (Mix.addChans n as bs).2) := by
  induction as with
  | nil => intro n bs; cases bs <;> rfl
  | cons a as ih =>
    intro n bs
    cases bs with
    | nil => rfl
    | cons b bs =>
      simp only [List.map_cons, Mix.addChans, chan_add_lc, ih]

theorem identical_lc (c : K) (as : List (Mix.Chan K)) : Mix.identical (as.map (lc c)) = Mix.identical as := by
  cases as with
  | nil => rfl
  | cons a as => simp [Mix.identical, lc, Function.comp_def]

theorem getD_map_mul (c : K) (l : List K) (i : Nat) : (l.map (c * ·)).getD i 0 = c * l.getD i 0 := by
  rw [List.getD_eq_getElem?_getD, List.getD_eq_getElem?_getD, List.getElem?_map]
  cases l[i]? <;> simp

theorem place_loud (c : K) (off : Nat) (q : Sig K) : place off (loud c q) = (place off q).map (lc c) := by
  unfold place loud
  refine List.ext_getElem? fun k => ?_
  rw [List.getElem?_mapIdx, List.getElem?_map, List.getElem?_map, List.getElem?_mapIdx]
  cases q[k]? with
  | none => rfl
  | some x =>
    cases x with
    | none => simp [lc, Mix.zero]
    | some l =>
      simp only [Option.map_some, Option.some.injEq, lc, Mix.Chan.mk.injEq, true_and]
      funext i
      exact getD_map_mul c l i

theorem contents_loud (c : K) (N : Nat) (s : List (Mix.Chan K)) : contents N (s.map (lc c)) = loud c (contents N s) := by
  unfold contents loud
  rw [List.map_map, List.map_map]
  refine List.map_congr_left fun x _ => ?_
  by_cases h : x.ptr = 0 <;> simp [lc, h, Function.comp_def]

/-- Summing of louder signals. -/
theorem addSig_loud (N : Nat) (r c : K) (cfg : Cfg) (a b : Sig K) :
    addSig N r cfg (loud c a) (loud c b) = loud c (addSig N r cfg a b) := by
  unfold addSig
  rw [place_loud, place_loud, show (loud c a).length = a.length from List.length_map _,
    show (loud c b).length = b.length from List.length_map _, ← contents_loud]
  generalize a.length + b.length + 1 = n
  generalize place 0 a = a'
  generalize place a.length b = b'
  congr 1
  unfold Mix.add
  rw [identical_lc, identical_lc, List.length_map, List.length_map]
  generalize Mix.newCount _ _ _ _ = m
  simp only
  split
  · cases a' with
    | nil => rfl
    | cons a as =>
      cases b' with
      | nil => rfl
      | cons b bs =>
        simp only [List.map_cons, chan_add_lc]
        have := mix_lc c r (Mix.Chan.add n a b).2 [(Mix.Chan.add n a b).1] m (interpOf cfg.interp)
        rw [List.map_singleton] at this
        rw [this]
  · simp only [mix_lc, addChans_lc]

/-! ## Nodes -/

omit [LinearOrder K] [IsStrictOrderedRing K] in
theorem isSilent_loud (c : K) (q : Node.Quantum K) : Node.isSilent (loud c q) = Node.isSilent q := by
  unfold Node.isSilent loud
  rw [List.all_map]
  congr 1
  funext x
  cases x <;> rfl

omit [LinearOrder K] [IsStrictOrderedRing K] in
theorem data_map (c : K) (N : Nat) (x : Node.Chan K) :
    Node.Chan.data N (x.map fun l => l.map (c * ·)) = (Node.Chan.data N x).map (c * ·) := by
  cases x with
  | none => simp [Node.Chan.data]
  | some l => rfl

theorem gain_loud (c thr : K) (N : Nat) (gain : List K) (q : Node.Quantum K) :
    Node.gainProcess thr N gain (loud c q) = loud c (Node.gainProcess thr N gain q) := by
  have hfull : Node.gainFull N gain (loud c q) = loud c (Node.gainFull N gain q) := by
    unfold Node.gainFull loud
    rw [List.map_map, List.map_map]
    refine List.map_congr_left fun x _ => ?_
    simp only [Function.comp_apply, Node.scale, data_map, Option.map_some, List.map_map, Option.some.injEq]
    refine List.map_congr_left fun i _ => ?_
    simp only [Function.comp_apply]
    rw [getD_map_mul]
    ring
  unfold Node.gainProcess
  rw [isSilent_loud]
  split
  · rfl
  · split
    · split
      · rfl
      · split
        · rfl
        · exact hfull
    · exact hfull

/-! ### IIR filter -/

/-- the filter, its memory `c` times as large -/
def li (c : K) (f : Filter.Iir K) : Filter.Iir K := ⟨f.coeffs, f.states.map fun st => st.map (c * ·)⟩

omit [LinearOrder K] [IsStrictOrderedRing K] in
theorem shift_mul (c x y : K) (cs : List (K × K)) : ∀ st : List K,
    Filter.shift (c * x) (c * y) cs (st.map (c * ·)) = (Filter.shift x y cs st).map (c * ·) := by
  induction cs with
  | nil => intro st; rcases st with _ | ⟨a, _ | ⟨b, st⟩⟩ <;> rfl
  | cons p cs ih =>
    intro st
    rcases st with _ | ⟨a, _ | ⟨b, st⟩⟩
    · rfl
    · rfl
    · have := ih (b :: st)
      simp only [List.map_cons] at this
      simp only [List.map_cons, Filter.shift, this, List.cons.injEq, and_true]
      ring

omit [LinearOrder K] [IsStrictOrderedRing K] in
theorem iirRun_mul (c : K) (cs : List (K × K)) (xs : List K) : ∀ st : List K,
    Filter.iirRun cs (st.map (c * ·)) (xs.map (c * ·)) =
      ((Filter.iirRun cs st xs).1.map (c * ·), (Filter.iirRun cs st xs).2.map (c * ·)) := by
  induction xs with
  | nil => intro st; rfl
  | cons x xs ih =>
    intro st
    have hs : Filter.iirStep cs (st.map (c * ·)) (c * x) =
        ((Filter.iirStep cs st x).1.map (c * ·), c * (Filter.iirStep cs st x).2) := by
      unfold Filter.iirStep
      have hh : (st.map (c * ·)).headD 0 = c * st.headD 0 := by cases st <;> simp
      have hy : (cs.headD (0, 0)).1 * (c * x) + c * st.headD 0 = c * ((cs.headD (0, 0)).1 * x + st.headD 0) := by ring
      simp only [hh, hy, shift_mul]
    simp only [List.map_cons, Filter.iirRun, hs, ih]

omit [LinearOrder K] [IsStrictOrderedRing K] in
theorem headD_loud (c : K) (q : Node.Quantum K) : (loud c q).headD none = (q.headD none).map fun l => l.map (c * ·) := by
  cases q <;> rfl

omit [LinearOrder K] [IsStrictOrderedRing K] in
theorem getD_loud (c : K) (q : Node.Quantum K) (k : Nat) :
    (loud c q).getD k none = (q.getD k none).map fun l => l.map (c * ·) := by
  unfold loud
  rw [List.getD_eq_getElem?_getD, List.getD_eq_getElem?_getD, List.getElem?_map]
  cases q[k]? <;> rfl

theorem iir_loud {c : K} (hc : c ≠ 0) (N : Nat) (f : Filter.Iir K) (q : Node.Quantum K) :
    (li c f).process N (loud c q) = (li c (f.process N q).1, loud c (f.process N q).2.1, (f.process N q).2.2) := by
  have hend : (li c f).ended = f.ended := by
    unfold Filter.Iir.ended li
    simp [List.all_map, Function.comp_def, hc]
  have hres : ∀ n, (li c f).resize n = (f.resize n).map fun st => st.map (c * ·) := by
    intro n
    simp [Filter.Iir.resize, li, List.map_take]
  unfold Filter.Iir.process
  rw [isSilent_loud, hend]
  split
  · rfl
  · have hst : (if Node.isSilent q then (li c f).states else (li c f).resize (loud c q).length) =
        (if Node.isSilent q then f.states else f.resize q.length).map fun st => st.map (c * ·) := by
      split
      · rfl
      · rw [hres]; simp [loud]
    simp only [hst]
    generalize (if Node.isSilent q then f.states else f.resize q.length) = states
    have hrun : ∀ k, Filter.iirRun (li c f).coeffs ((states.map fun st => st.map (c * ·)).getD k [])
          ((if Node.isSilent q then (loud c q).headD none else (loud c q).getD k none).data N) =
        ((Filter.iirRun f.coeffs (states.getD k []) ((if Node.isSilent q then q.headD none else q.getD k none).data N)).1.map
            (c * ·),
          (Filter.iirRun f.coeffs (states.getD k []) ((if Node.isSilent q then q.headD none else q.getD k none).data N)).2.map
            (c * ·)) := by
      intro k
      have h1 : (states.map fun st => st.map (c * ·)).getD k [] = (states.getD k []).map (c * ·) := by
        rw [List.getD_eq_getElem?_getD, List.getD_eq_getElem?_getD, List.getElem?_map]
        cases states[k]? <;> rfl
      have h2 : (if Node.isSilent q then (loud c q).headD none else (loud c q).getD k none) =
          (if Node.isSilent q then q.headD none else q.getD k none).map fun l => l.map (c * ·) := by
        split
        · exact headD_loud c q
        · exact getD_loud c q k
      rw [h1, h2, data_map]
      exact iirRun_mul c f.coeffs _ _
    simp only [List.length_map, hrun]
    simp [li, loud, Function.comp_def]

/-! ### Splitter and merger -/

omit [LinearOrder K] [IsStrictOrderedRing K] in
theorem setChannels_loud (c : K) (q : Node.Quantum K) (n : Nat) : Node.setChannels (loud c q) n = loud c (Node.setChannels q n) := by
  unfold Node.setChannels
  rw [headD_loud]
  simp [loud, List.map_take]

omit [LinearOrder K] [IsStrictOrderedRing K] in
theorem splitOne_loud (c : K) (q : Node.Quantum K) (i : Nat) (out : Node.Quantum K) :
    Node.splitOne (loud c q) i (loud c out) = loud c (Node.splitOne q i out) := by
  unfold Node.splitOne
  rw [show (loud c q)[i]? = q[i]?.map fun x => x.map fun l => l.map (c * ·) from List.getElem?_map]
  cases q[i]? with
  | none => rfl
  | some x =>
    simp only [Option.map_some, setChannels_loud]
    simp [loud, List.map_set]

omit [LinearOrder K] [IsStrictOrderedRing K] in
theorem splitter_loud (c : K) (n : Nat) (q : Node.Quantum K) (outs : List (Node.Quantum K)) :
    Node.splitter n (loud c q) (outs.map (loud c)) = (Node.splitter n q outs).map fun o => o.map (loud c) := by
  unfold Node.splitter
  rw [List.length_map]
  split
  · simp only [Option.map_some, List.map_map, Option.some.injEq]
    refine List.map_congr_left fun i _ => ?_
    simp only [Function.comp_apply]
    rw [← splitOne_loud]
    congr 1
    rw [List.getD_eq_getElem?_getD, List.getD_eq_getElem?_getD, List.getElem?_map]
    cases outs[i]? <;> rfl
  · rfl

omit [LinearOrder K] [IsStrictOrderedRing K] in
theorem mergeLoop_loud (c : K) (qs : List (Node.Quantum K)) : ∀ (i : Nat) (out : Node.Quantum K),
    Node.mergeLoop i (qs.map (loud c)) (loud c out) = (Node.mergeLoop i qs out).map (loud c) := by
  induction qs with
  | nil => intro i out; rfl
  | cons q qs ih =>
    intro i out
    cases q with
    | nil => rfl
    | cons x q =>
      have hl : (loud c out).length = out.length := by simp [loud]
      have hset : (loud c out).set i (x.map fun l => l.map (c * ·)) = loud c (out.set i x) := by
        simp [loud, List.map_set]
      have hq : loud c (x :: q) = (x.map fun l => l.map (c * ·)) :: loud c q := rfl
      rw [List.map_cons, hq]
      simp only [Node.mergeLoop]
      by_cases h : i < out.length
      · rw [if_pos h, if_pos (by rw [hl]; exact h), hset]
        exact ih (i + 1) (out.set i x)
      · rw [if_neg h, if_neg (by rw [hl]; exact h)]
        rfl

omit [LinearOrder K] [IsStrictOrderedRing K] in
theorem merger_loud (c : K) (ins : List (Node.Quantum K)) (out : Node.Quantum K) :
    Node.merger (ins.map (loud c)) (loud c out) = (Node.merger ins out).map (loud c) := by
  unfold Node.merger
  have ha : (ins.map (loud c)).any (fun q => !Node.isSilent q) = ins.any fun q => !Node.isSilent q := by
    rw [List.any_map]
    congr 1
    funext q
    simp [isSilent_loud]
  rw [ha, List.length_map, setChannels_loud]
  split
  · exact mergeLoop_loud c ins 0 _
  · rfl

/-! ## The translation -/

/-- a processor in a system whose sources are `c` times as loud -/
def lp (c : K) : Proc K → Proc K
  | .source play k => .source (loudPlay c play) k
  | .iir f => .iir (li c f)
  | p => p

theorem process_loud (e : Consts K) {c : K} (hc : c ≠ 0) (p : Proc K) (ins outs : List (Sig K)) :
    process e (lp c p) (ins.map (loud c)) (outs.map (loud c)) =
      (process e p ins outs).map fun r => (lp c r.1, r.2.1.map (loud c), r.2.2) := by
  cases p with
  | destination => cases ins <;> cases outs <;> rfl
  | source play k => cases outs <;> rfl
  | gain values k =>
    cases ins with
    | nil => rfl
    | cons i ins =>
      cases outs with
      | nil => rfl
      | cons o os =>
        simp only [lp, List.map_cons, process, Option.map_some, gain_loud]
  | iir f =>
    cases ins with
    | nil => rfl
    | cons i ins =>
      cases outs with
      | nil => rfl
      | cons o os =>
        simp only [lp, List.map_cons, process, Option.map_some, iir_loud hc]
  | splitter n =>
    cases ins with
    | nil => cases outs <;> rfl
    | cons i ins =>
      simp only [lp, List.map_cons, process, splitter_loud]
      cases Node.splitter n i outs <;> rfl
  | merger =>
    cases outs with
    | nil => rfl
    | cons o os =>
      simp only [lp, List.map_cons, process, merger_loud]
      cases Node.merger ins o <;> rfl

/-- Making sources louder is a translation. -/
def louder (e : Consts K) {c : K} (hc : c ≠ 0) : Hom (sem e) (sem e) where
  fP := lp c
  fS := loud c
  fM := loudPlay c
  process p ins outs _ := process_loud e hc p ins outs
  onmessage p m := by cases p <;> rfl
  side p := by cases p <;> rfl
  silence := rfl
  add cfg a b := addSig_loud e.N e.r c cfg a b

/-! ## C101 -/

/-- The same history with all sources `c` times as loud: what they play from the start, and what they are given to play
later. Nothing else is changed: connections, gains, filters, channel settings, drops, and the interleaving with the
render thread are the same. -/
def louderOp (c : K) : Op (Proc K) (Nat → Sig K × Bool) → Op (Proc K) (Nat → Sig K × Bool)
  | .register id (.source play k) nin nout cfg => .register id (.source (loudPlay c play) k) nin nout cfg
  | .post h m => .post h (loudPlay c m)
  | op => op

/-- a filter that is created has no memory yet (`IirFilterRenderer::new`, iir_filter.rs l.282-320) -/
def NewFilter : Op (Proc K) (Nat → Sig K × Bool) → Prop
  | .register _ (.iir f) _ _ _ => ∀ st ∈ f.states, ∀ v ∈ st, v = 0
  | _ => True

theorem louder_op (e : Consts K) {c : K} (hc : c ≠ 0) (op : Op (Proc K) (Nat → Sig K × Bool)) (h : NewFilter op) :
    (louder e hc).op op = louderOp c op := by
  cases op with
  | register id p nin nout cfg =>
    cases p with
    | iir f =>
      have hf : li c f = f := by
        cases f with
        | mk cs sts =>
          simp only [li, Filter.Iir.mk.injEq, true_and]
          conv => rhs; rw [← List.map_id sts]
          refine List.map_congr_left fun st hst => ?_
          conv => rhs; rw [_root_.id, ← List.map_id st]
          refine List.map_congr_left fun v hv => ?_
          rw [h st hst v hv, mul_zero]
          rfl
      simp [Hom.op, louder, louderOp, lp, hf]
    | _ => rfl
  | _ => rfl

/-- C101: if all sources of a history are made `c` times as loud, the sound of the context is `c` times as loud, sample
by sample, in every quantum and channel; nothing else changes: the same nodes are freed in the same quanta, the same
channels are silent, the same histories make the render thread panic. For all graphs, with cycles or not, all channel
configurations, connections to several inputs, changes of the graph while it plays. -/
theorem C101_louder (e : Consts K) {c : K} (hc : c ≠ 0) (cfg : Cfg) (ops : List (Op (Proc K) (Nat → Sig K × Bool)))
    (hnew : ∀ op ∈ ops, NewFilter op) :
    (Sys.sound (sem e) (Sys.init (sem e) .destination cfg) (ops.map (louderOp c))).map
        (fun r => (r.2, r.1.g.reclaimed, r.1.g.ordered)) =
      (Sys.sound (sem e) (Sys.init (sem e) .destination cfg) ops).map
        (fun r => (r.2.map (loud c), r.1.g.reclaimed, r.1.g.ordered)) := by
  have h1 : ops.map (louderOp c) = ops.map (louder e hc).op :=
    List.map_congr_left fun op hop => (louder_op e hc op (hnew op hop)).symm
  have h2 : Sys.init (sem e) .destination cfg = (louder e hc).sys (Sys.init (sem e) .destination cfg) := by
    rw [Hom.sys_init]
    rfl
  rw [h1]
  conv => lhs; rw [h2]
  rw [Hom.sys_sound, Option.map_map]
  rfl

end

/-! ### A history that meets the hypotheses -/

/-- A stereo source into a filter, a mono source into a gain node, both into the destination; the mono source gets
something else to play after the first quantum, and its handle is dropped. -/
def demo : List (Op (Proc ℚ) (Nat → Sig ℚ × Bool)) :=
  [.acquire, .register 11 (.source (fun k => ([some [k, k + 1], some [3, 3]], true)) 0) 0 1 ⟨2, 0, 0⟩,
   .acquire, .register 12 (.iir (Filter.Iir.new [1, 1] [2, 1])) 1 1 ⟨2, 0, 0⟩,
   .acquire, .register 13 (.source (fun k => ([some [8, 8]], k < 2)) 0) 0 1 ⟨2, 0, 0⟩,
   .acquire, .register 14 (.gain (fun k => [1 / (k + 2)]) 0) 1 1 ⟨2, 0, 0⟩,
   .connect ⟨11, 1, 0, 1⟩ ⟨12, 2, 1, 1⟩ 0 0, .connect ⟨12, 2, 1, 1⟩ ⟨0, 0, 1, 1⟩ 0 0,
   .connect ⟨13, 3, 0, 1⟩ ⟨14, 4, 1, 1⟩ 0 0, .connect ⟨14, 4, 1, 1⟩ ⟨0, 0, 1, 1⟩ 0 0,
   .recv, .recv, .recv, .recv, .recv, .recv, .recv, .recv, .quantum,
   .post ⟨13, 3, 0, 1⟩ (fun _ => ([some [12, 12]], false)), .recv, .drop ⟨13, 3, 0, 1⟩, .recv, .quantum, .quantum]

/-- parameters of the example: quanta of two frames -/
def demoConsts : Consts ℚ := ⟨1 / 1000000, 2, 7 / 10⟩

example : (∀ op ∈ demo, NewFilter op) ∧
    (Sys.sound (sem demoConsts) (Sys.init (sem demoConsts) .destination ⟨2, 2, 0⟩) demo).map
      (fun r => (r.2, r.1.g.reclaimed)) =
      some ([[some [4, 9 / 2], some [11 / 2, 25 / 4]], [some [19 / 4, 41 / 8], some [47 / 8, 97 / 16]],
        [some [23 / 16, 57 / 32], some [63 / 32, 129 / 64]]], [13]) ∧
    (Sys.sound (sem demoConsts) (Sys.init (sem demoConsts) .destination ⟨2, 2, 0⟩) (demo.map (louderOp 10))).map
      (fun r => (r.2, r.1.g.reclaimed)) =
      some ([[some [40, 45], some [55, 125 / 2]], [some [95 / 2, 205 / 4], some [235 / 4, 485 / 8]],
        [some [115 / 8, 285 / 16], some [315 / 16, 645 / 32]]], [13]) := by
  refine ⟨?_, by decide +kernel, by decide +kernel⟩
  intro op hop
  simp only [demo, List.mem_cons, List.not_mem_nil, or_false] at hop
  rcases hop with rfl | rfl | rfl | rfl | rfl | rfl | rfl | rfl | rfl | rfl | rfl | rfl | rfl | rfl | rfl | rfl | rfl |
    rfl | rfl | rfl | rfl | rfl | rfl | rfl | rfl | rfl | rfl
  all_goals simp only [NewFilter]
  simp [Filter.Iir.new]

end Verif.Engine
