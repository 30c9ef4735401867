import Verif.Engine.Linear
import Verif.Graph.ParamFlow
import Verif.Param.OutputProps

/-!
# C107: modulation of a parameter

The graph (`Verif.Graph.RenderModel`) with parameters as nodes: sources, AudioParams (`AudioParamProcessor`,
`/repo/src/param.rs` l.686-797) and gain nodes that read a parameter (`/repo/src/node/gain.rs` l.144-199).

Simplifications: exact arithmetic. The automation values of a parameter (`compute_intrinsic_values`, the subject of
C24-C31) are given for every quantum. As in `Verif.Engine.Model` only silent channels share a buffer.
-/

namespace Verif.Engine

open Verif.Render Verif.Graph

section
variable {K : Type} [Field K] [LinearOrder K] [IsStrictOrderedRing K]

/-- `AudioRenderQuantum` with its flag `single_valued`, quantum.rs l.179-184; it has at least one channel and all
channels have the length of a quantum -/
structure MSig (K : Type) (N : Nat) where
  q : Sig K
  full : Full N q
  single : Bool

/-- addition of numbers, `+` of param.rs l.753, l.769, l.788 -/
def finAdd : Param.Fl K → Param.Fl K → Param.Fl K
  | .fin x, .fin y => .fin (x + y)
  | _, _ => .nan

/-- the number -/
def toK : Param.Fl K → K
  | .fin x => x
  | _ => 0

/-- what is fixed about a parameter: `AudioParamProcessor`, param.rs l.673-683, with the automation values of each quantum
(the field `buffer` after `compute_intrinsic_values`) -/
structure PSet (K : Type) where
  dflt : K
  mn : K
  mx : K
  aRate : Bool
  auto : Nat → List K

/-- Processors: `DestinationRenderer` (`/repo/src/node/destination.rs` l.140-163), a source, `AudioParamProcessor`
(`/repo/src/param.rs` l.686-702), `GainRenderer` with the id of its parameter (`/repo/src/node/gain.rs` l.135-142) -/
inductive MProc (K : Type) (N : Nat) where
  | destination
  | source (play : Nat → MSig K N × Bool) (k : Nat)
  | param (s : PSet K) (k : Nat)
  | gain (id : Nat)

/-- `AudioParamValues::get`, `/repo/src/render/processor.rs` l.186-200: the first value only when the quantum is single
valued -/
def seenVals {N : Nat} (s : MSig K N) : List K :=
  ((s.q.headD none).data N).take (if s.single then 1 else N)

/-- `AudioParamProcessor::process`, param.rs l.686-702, on the first channel of the input and of the output -/
def paramOut {N : Nat} (s : PSet K) (k : Nat) (i o : MSig K N) : Option (MSig K N) :=
  (Param.mixToOutput finAdd s.dflt s.mn s.mx s.aRate ((s.auto k).map .fin)
    ⟨((i.q.headD none).data N).map .fin, (i.q.headD none).isNone⟩ (((o.q.headD none).data N).map .fin)).bind fun out =>
  if h : out.data.length = N then
    some ⟨[some (out.data.map toK)], ⟨by simp, by simp [h]⟩, out.single⟩
  else none

/-- `AudioProcessor::process` of the processors; `none` is a panic. The gain node reads its parameter, l.158. -/
def mprocess (e : Consts K) : MProc K e.N → List (MSig K e.N) → List (MSig K e.N) → (Nat → Option (MSig K e.N)) →
    Option (MProc K e.N × List (MSig K e.N) × Bool)
  | .destination, i :: _, _ :: os, _ => some (.destination, i :: os, true)
  | .source play k, _, _ :: os, _ => some (.source play (k + 1), (play k).1 :: os, (play k).2)
  | .param s k, i :: _, o :: os, _ => (paramOut s k i o).map fun m => (.param s (k + 1), m :: os, true)
  | .gain p, i :: _, _ :: os, params => (params p).map fun s =>
    (.gain p, ⟨Node.gainProcess e.thr e.N (seenVals s) i.q, (gain_full_shape e.thr _ i.full (.inl rfl)).1, false⟩ :: os,
      false)
  | _, _, _, _ => none

/-- The graph with these processors. `add` (quantum.rs l.532-569) does not touch the flag of the sum; a channel count is
positive (`/repo/src/node/audio_node.rs` l.262-269). -/
def msem (e : Consts K) : Sem (MProc K e.N) (MSig K e.N) Unit where
  process := mprocess e
  process_len p ins outs params p' outs' t h := by
    unfold mprocess at h
    split at h
    any_goals
      simp only [Option.map_eq_some_iff, Option.some.injEq, Prod.mk.injEq] at h
    · rw [← h.2.1]; rfl
    · rw [← h.2.1]; rfl
    · obtain ⟨m, _, _, rfl, _⟩ := h; rfl
    · obtain ⟨m, _, _, rfl, _⟩ := h; rfl
    · cases h
  onmessage p _ := some p
  sideEffects p := match p with
    | .destination => true
    | _ => false
  silence := ⟨Node.silence, silence_full e.N, false⟩
  add c a b := if h : 0 < sumCount c a.q b.q then ⟨addSig e.N e.r c a.q b.q, addSig_full e.N e.r c a.full.1 b.full.1 h, a.single⟩
    else a

/-! ## specification -/

/-- the nominal range -/
def clampTo (mn mx x : K) : K := min (max x mn) mx

/-- one frame of a signal, mixed down to one channel -/
def monoAt (r : K) (q : Sig K) (f : Nat) : K := (Mix.mixF r .speakers 1 (fr q f)).getD 0 0

/-- The value of a parameter at frame `f` of quantum `k`: the automation value plus the sum of everything connected to the
parameter, in the nominal range. A k-rate parameter has the value of the first frame throughout the quantum. -/
def modulated (r : K) (s : PSet K) (k : Nat) (ins : List (Sig K)) (f : Nat) : K :=
  let f' := if s.aRate then f else 0
  clampTo s.mn s.mx (Node.gainAt (s.auto k) f' + (ins.map fun q => monoAt r q f').sum)

/-! ## proofs -/

omit [IsStrictOrderedRing K] in
theorem fix_fin (dflt mn mx x : K) : Param.fix dflt mn mx (.fin x) = .fin (clampTo mn mx x) := rfl

omit [IsStrictOrderedRing K] in
theorem seen_at (s : PSet K) (k : Nat) {N : Nat} (hN : 0 < N)
    (hb : (s.auto k).length = 1 ∨ (s.auto k).length = N) {data old : List K} (hd : data.length = N)
    (ho : old.length = N) (silent : Bool) (hs : silent = true → ∀ x ∈ data, x = 0) :
    ∃ o, Param.mixToOutput finAdd s.dflt s.mn s.mx s.aRate ((s.auto k).map .fin) ⟨data.map .fin, silent⟩
        (old.map .fin) = some o ∧ o.data.length = N ∧
      (((o.data.map toK).take (if o.single then 1 else N)).length = 1 ∨
        ((o.data.map toK).take (if o.single then 1 else N)).length = N) ∧
      ∀ f < N, Node.gainAt ((o.data.map toK).take (if o.single then 1 else N)) f =
        clampTo s.mn s.mx (Node.gainAt (s.auto k) (if s.aRate then f else 0) +
          data.getD (if s.aRate then f else 0) 0) := by
  obtain ⟨b0, bs, hbb⟩ : ∃ b0 bs, s.auto k = b0 :: bs := by
    cases h : s.auto k with
    | nil => rw [h] at hb; simp at hb; omega
    | cons a l => exact ⟨a, l, rfl⟩
  obtain ⟨d0, ds, hdd⟩ : ∃ d0 ds, data = d0 :: ds := by
    cases data with
    | nil => simp at hd; omega
    | cons a l => exact ⟨a, l, rfl⟩
  obtain ⟨o0, os, hoo⟩ : ∃ o0 os, old = o0 :: os := by
    cases old with
    | nil => simp at ho; omega
    | cons a l => exact ⟨a, l, rfl⟩
  have hg0 : Node.gainAt (s.auto k) 0 = b0 := by simp [Node.gainAt, hbb]
  unfold Param.mixToOutput
  by_cases hc : ((s.auto k).map Param.Fl.fin).length = 1 ∨ s.aRate = false
  · rw [if_pos hc]
    have h0 : ((s.auto k).map Param.Fl.fin)[0]? = some (.fin b0) := by rw [hbb]; rfl
    rw [h0]
    dsimp only
    by_cases hq : silent = true ∨ s.aRate = false
    · rw [if_pos hq]
      have h1 : (data.map Param.Fl.fin)[0]? = some (.fin d0) := by rw [hdd]; rfl
      rw [h1]
      refine ⟨_, rfl, by simpa using ho, .inl (by simp [hoo]), ?_⟩
      intro f hf
      have hv : Node.gainAt (List.take 1 (List.map toK ((old.map Param.Fl.fin).set 0
          (Param.fix s.dflt s.mn s.mx (finAdd (.fin b0) (.fin d0)))))) f = clampTo s.mn s.mx (b0 + d0) := by
        rw [hoo]; simp [Node.gainAt, toK, finAdd, fix_fin]
      simp only [if_true]
      rw [hv]
      cases ha : s.aRate with
      | false => simp [hg0, hdd]
      | true =>
        have hsil := hs (by simpa [ha] using hq)
        have hl1 : (s.auto k).length = 1 := by simpa [ha] using hc
        have hz : data.getD f 0 = 0 := by
          rw [List.getD]
          cases hx : data[f]? with
          | none => rfl
          | some x => exact hsil x (List.mem_of_getElem? hx)
        have hgf : Node.gainAt (s.auto k) f = b0 := by rw [Node.gainAt, if_pos hl1, hbb]; rfl
        simp only [if_true, hgf, hz]
        rw [hsil d0 (by simp [hdd])]
    · rw [if_neg hq]
      push Not at hq
      have ha : s.aRate = true := by simpa using hq.2
      have hl1 : (s.auto k).length = 1 := by simpa [ha] using hc
      refine ⟨_, rfl, by simpa using hd, .inr (by simp [hd]), ?_⟩
      intro f hf
      have hgf : Node.gainAt (s.auto k) f = b0 := by rw [Node.gainAt, if_pos hl1, hbb]; rfl
      simp only [Bool.false_eq_true, if_false, ha, if_true, hgf]
      have hlt : f < data.length := by omega
      have hval : ((List.map toK (List.map (fun o => Param.fix s.dflt s.mn s.mx (finAdd o (.fin b0)))
          (data.map Param.Fl.fin))).take N).getD f 0 = clampTo s.mn s.mx (b0 + data.getD f 0) := by
        rw [List.getD, List.getElem?_take_of_lt hf]
        simp [hlt, finAdd, fix_fin, toK, add_comm]
      unfold Node.gainAt
      split
      · rename_i h1
        have : f = 0 := by simp [hd] at h1; omega
        subst this
        exact hval
      · exact hval
  · rw [if_neg hc]
    push Not at hc
    have ha : s.aRate = true := by simpa using hc.2
    have hlN : (s.auto k).length = N := hb.resolve_left (by simpa using hc.1)
    refine ⟨_, rfl, by simp [hd, hlN], .inr (by simp [hd, hlN]), ?_⟩
    intro f hf
    have hN1 : N ≠ 1 := by rw [← hlN]; simpa using hc.1
    simp only [Bool.false_eq_true, if_false, ha, if_true]
    have hgf : Node.gainAt (s.auto k) f = (s.auto k).getD f 0 := by
      unfold Node.gainAt; rw [if_neg (by omega)]
    have hgo : ∀ l : List K, l.length = N → Node.gainAt l f = l.getD f 0 := by
      intro l hl; unfold Node.gainAt; rw [if_neg (by omega)]
    rw [hgo _ (by simp [hd, hlN]), hgf, List.getD, List.getElem?_take_of_lt hf]
    have h1 : f < data.length := by omega
    have h2 : f < (s.auto k).length := by omega
    rw [List.getElem?_map, List.getElem?_append_left (by simp [h1, h2])]
    simp [h1, h2, finAdd, fix_fin, toK, add_comm]

/-- the input of a parameter: one channel, the sum of what is connected to it -/
theorem param_input (e : Consts K) (c : Cfg) (hm : c.mode = 2) (hc : c.count = 1) (hi : c.interp = 0)
    (l : List (MSig K e.N)) (a : MSig K e.N) (ha : a.q.length = 1) :
    (l.foldl ((msem e).add c) a).q.length = 1 ∧ ∀ f < e.N, Node.sample (l.foldl ((msem e).add c) a).q 0 f =
      Node.sample a.q 0 f + (l.map fun s => monoAt e.r s.q f).sum := by
  induction l generalizing a with
  | nil => exact ⟨ha, fun f _ => by simp⟩
  | cons b l ih =>
    have hsc : sumCount c a.q b.q = 1 := by simp [sumCount, hm, modeOf, Mix.newCount, hc]
    have hadd : ((msem e).add c a b).q = addSig e.N e.r c a.q b.q := by
      simp only [msem]
      rw [dif_pos (by omega)]
    have hlen : ((msem e).add c a b).q.length = 1 := by
      rw [hadd, addSig_length _ _ _ a.full.1 b.full.1, hsc]
    obtain ⟨h1, h2⟩ := ih _ hlen
    refine ⟨h1, fun f hf => ?_⟩
    rw [List.foldl_cons, h2 f hf, List.map_cons, List.sum_cons, ← add_assoc]
    congr 1
    rw [hadd, sample_fr, addSig_fr _ _ _ a.full.1 b.full.1 hf, hsc, sample_fr]
    have hint : interpOf c.interp = .speakers := by rw [hi]; rfl
    rw [hint]
    have hfa : Mix.mixF e.r .speakers 1 (fr a.q f) = fr a.q f := by
      have := Mix.mixF_self e.r .speakers (fr a.q f)
      rwa [fr_length, ha] at this
    have hlb : (Mix.mixF e.r .speakers 1 (fr b.q f)).length = 1 := Mix.mixF_length _ _ _ _
    rw [hfa]
    unfold monoAt
    obtain ⟨x, hx⟩ := List.length_eq_one_iff.1 hlb
    obtain ⟨y, hy⟩ := List.length_eq_one_iff.1 ((fr_length a.q f).trans ha)
    rw [hx, hy]
    rfl

/-- C107 (modulation). Take a gain node `i` and its gain parameter `p` in any graph, in any quantum, both in the order and
`p` connected to `i`. Whatever is connected to the parameter, the output of the gain node at every frame of the
quantum is its input at this frame times the value of the parameter at this frame: the automation value plus the sum
of the signals connected to the parameter in this very quantum, limited to the nominal range (up to the threshold of
the shortcut for gains near 0 and 1). -/
theorem C107_modulation (e : Consts K) (hN : 0 < e.N) (h0 : 0 ≤ e.thr) {g : RGraph (MProc K e.N) (MSig K e.N)} (w : WF g) :
    ∃ g1, (if g.ordered = [] then g.order else some g) = some g1 ∧
    ∀ i ∈ g1.ordered, ∀ p ∈ g1.ordered, ∀ np1, g1.slot p = some np1 → (∃ d ∈ np1.edges, d.dst = i) →
    ∀ ni np, g.slot i = some ni → g.slot p = some np → ni.proc = .gain p →
    ∀ s k, np.proc = .param s k → (s.auto k).length = 1 ∨ (s.auto k).length = e.N →
    np.cfg.mode = 2 → np.cfg.count = 1 → np.cfg.interp = 0 →
    np.inputs = [(msem e).silence] → ni.inputs = [(msem e).silence] → np.outputs.length = 1 → ni.outputs.length = 1 →
    ∃ pre mid post gi nai x y, g1.ordered = pre ++ p :: (mid ++ i :: post) ∧
      RGraph.foldOpt (RGraph.renderNode (msem e)) (pre ++ p :: mid) g1 = some gi ∧ gi.slot i = some nai ∧
      nai.inputs = [x] ∧ x = (sent (msem e) (pre ++ p :: mid) g1 i 0).foldl ((msem e).add ni.cfg) (msem e).silence ∧
      (msem e).process nai.proc nai.inputs nai.outputs (gi.params i) = some (.gain p, [y], false) ∧
      ∀ c f, f < e.N → |Node.sample y.q c f - Node.sample x.q c f *
          modulated e.r s k ((sent (msem e) pre g1 p 0).map (·.q)) f| ≤ e.thr * |Node.sample x.q c f| := by
  obtain ⟨g1, h1, h2⟩ := C107_params_are_this_quantum (msem e) w
  refine ⟨g1, h1, ?_⟩
  intro i hi p hp np1 hnp1 hedge ni np hni hnp hgain s k hs hauto hmode hcount hint hpin hiin hpo hio
  obtain ⟨pre, mid, post, gp, gi, n, na, m, ma, a1, a2, a3, a4, a5, a6, a7, a8, a9, a10, a11, a12⟩ :=
    h2 i hi p hp np1 hnp1 hedge
  rw [hni] at a4; cases a4
  rw [hnp] at a9; cases a9
  have hna : na.inputs = [(sent (msem e) pre g1 p 0).foldl ((msem e).add np.cfg) (msem e).silence] := by
    refine List.ext_getElem? fun q => ?_
    rw [a11 q, hpin]
    cases q <;> simp
  have hma : ma.inputs = [(sent (msem e) (pre ++ p :: mid) g1 i 0).foldl ((msem e).add ni.cfg) (msem e).silence] := by
    refine List.ext_getElem? fun q => ?_
    rw [a8 q, hiin]
    cases q <;> simp
  obtain ⟨b1, b2⟩ := param_input e np.cfg hmode hcount hint (sent (msem e) pre g1 p 0) (msem e).silence rfl
  generalize (sent (msem e) pre g1 p 0).foldl ((msem e).add np.cfg) (msem e).silence = inp at hna b1 b2
  obtain ⟨o, ho⟩ := List.length_eq_one_iff.1 hpo
  obtain ⟨oi, hoi⟩ := List.length_eq_one_iff.1 hio
  obtain ⟨ch, hch⟩ := List.length_eq_one_iff.1 b1
  have hmp : (msem e).process = mprocess e := rfl
  have dlen : ∀ z : MSig K e.N, ((z.q.headD none).data e.N).length = e.N := by
    intro z
    cases hz : z.q with
    | nil => exact absurd hz z.full.1
    | cons c cs =>
      cases c with
      | none => simp [Node.Chan.data]
      | some l =>
        have := z.full.2 l (by rw [hz]; simp)
        simpa [Node.Chan.data] using this
  have hdat : ∀ f < e.N, ((inp.q.headD none).data e.N).getD f 0 = (((sent (msem e) pre g1 p 0).map (·.q)).map fun q => monoAt e.r q f).sum := by
    intro f hf
    have := b2 f hf
    rw [show Node.sample (msem e).silence.q 0 f = 0 from Node.sample_silence 0 f, zero_add] at this
    rw [List.map_map]
    refine Eq.trans ?_ this
    rw [hch, List.headD_cons, Node.data_getD]
    cases ch <;> rfl
  obtain ⟨out, c1, c2, c3, c4⟩ := seen_at s k hN hauto (dlen inp) (dlen o) (inp.q.headD none).isNone (by
    intro hsil x hx
    rw [Option.isNone_iff_eq_none] at hsil
    rw [hsil] at hx
    simp [Node.Chan.data] at hx
    exact hx.2)
  have hout : paramOut s k inp o = some ⟨[some (out.data.map toK)], ⟨by simp, by simp [c2]⟩, out.single⟩ := by
    unfold paramOut
    rw [c1, Option.bind_some, dif_pos c2]
  have hpar := a12 (.param s (k + 1)) [⟨[some (out.data.map toK)], ⟨by simp, by simp [c2]⟩, out.single⟩] (by
    rw [hna, ho, hs]
    rw [hmp]
    simp only [mprocess, hout, Option.map_some])
  refine ⟨pre, mid, post, gi, ma, _, ⟨Node.gainProcess e.thr e.N ((out.data.map toK).take (if out.single then 1 else e.N))
      ((sent (msem e) (pre ++ p :: mid) g1 i 0).foldl ((msem e).add ni.cfg) (msem e).silence).q,
    (gain_full_shape e.thr _ (MSig.full _) (.inl rfl)).1, false⟩, a1, a3, a5, hma, rfl, ?_, ?_⟩
  · rw [hma, a6, a7, hgain, hoi, hmp]
    simp only [mprocess, hpar, List.head?_cons, Option.map_some]
    rfl
  · intro c f hf
    have := Node.C40_gain h0 c3 ((sent (msem e) (pre ++ p :: mid) g1 i 0).foldl ((msem e).add ni.cfg) (msem e).silence).q c f hf
    rw [c4 f hf, hdat _ (by split <;> omega)] at this
    exact this

end

/-- constants of the example: quanta of two frames -/
def tremConsts : Consts ℚ := ⟨1 / 1000000, 2, 7 / 10⟩

/-- one channel with two frames -/
def two (x y : ℚ) : MSig ℚ 2 := ⟨[some [x, y]], ⟨by simp, by simp⟩, false⟩

/-- A tremolo: source 11 goes through gain node 12, whose parameter 13 (automation value 1/2, at most 2) is modulated
by sources 14 and 15. -/
def tremolo (aRate : Bool) : List (Op (MProc ℚ 2) Unit) :=
  [.acquire, .register 11 (.source (fun k => (two (k + 2) 4, true)) 0) 0 1 ⟨2, 0, 0⟩,
   .acquire, .register 12 (.gain 13) 1 1 ⟨2, 0, 0⟩,
   .acquire, .register 13 (.param ⟨1, -2, 2, aRate, fun _ => [1 / 2]⟩ 0) 1 1 ⟨1, 2, 0⟩,
   .connectHidden ⟨13, 3, 1, 1⟩ ⟨12, 2, 1, 1⟩ true,
   .acquire, .register 14 (.source (fun k => (two k 1, true)) 0) 0 1 ⟨2, 0, 0⟩,
   .acquire, .register 15 (.source (fun k => (two 0 (5 * k), true)) 0) 0 1 ⟨2, 0, 0⟩,
   .connect ⟨14, 4, 0, 1⟩ ⟨13, 3, 1, 1⟩ 0 0, .connect ⟨15, 5, 0, 1⟩ ⟨13, 3, 1, 1⟩ 0 0,
   .connect ⟨11, 1, 0, 1⟩ ⟨12, 2, 1, 1⟩ 0 0, .connect ⟨12, 2, 1, 1⟩ ⟨0, 0, 1, 1⟩ 0 0,
   .recv, .recv, .recv, .recv, .recv, .recv, .recv, .recv, .recv, .recv]

/-- what is heard in the next quantum -/
def nextQ (s : Option (Sys (MProc ℚ 2) (MSig ℚ 2) Unit)) : Option (Sig ℚ) :=
  s.bind fun s => (s.g.render (msem tremConsts)).map (·.2.q)

/-- The hypotheses are met by a reachable state. In the first quantum the gains are 1/2 and 3/2, in the second 3/2 and
2 (limited); a k-rate parameter has the first value. -/
example :
    let ops := tremolo true
    let s := (Sys.init (msem tremConsts) .destination ⟨2, 0, 0⟩).run (msem tremConsts) ops
    let s2 := (Sys.init (msem tremConsts) .destination ⟨2, 0, 0⟩).run (msem tremConsts) (ops ++ [.quantum])
    nextQ s = some [some [1, 6]] ∧ nextQ s2 = some [some [9 / 2, 8]] ∧
    nextQ ((Sys.init (msem tremConsts) .destination ⟨2, 0, 0⟩).run (msem tremConsts) (tremolo false ++ [.quantum])) =
      some [some [9 / 2, 6]] ∧
    (s2.map fun s => s.g.ordered) = some [15, 14, 13, 11, 12, 0] := by decide +kernel

end Verif.Engine
