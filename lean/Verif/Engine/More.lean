import Verif.Engine.Scale
import Verif.Filter.BiquadModel
import Verif.Node.StereoPanner
import Verif.Convolver.Model

/-!
# C101: more linear nodes

The engine of `Verif.Engine.Model` over the reals with biquad filters, stereo panners and convolvers as well.
-/

namespace Verif.Engine

open Verif.Render

/-- Processors: those of `Verif.Engine.Model`, and further ones. The coefficients of a biquad filter and the position of a
stereo panner are those that their parameters (and the type of the filter) will yield in each quantum. -/
inductive RProc where
  | base (p : Proc ℝ)
  /-- `BiquadFilterRenderer`, `/repo/src/node/biquad_filter.rs` l.741-899 -/
  | biquad (coefs : Nat → List Filter.Coefs) (k : Nat) (xy : List Filter.XY)
  /-- `StereoPannerRenderer`, `/repo/src/node/stereo_panner.rs` l.207-317 -/
  | stereo (pan : Nat → List ℝ) (k : Nat)
  /-- `ConvolverRenderer`, `/repo/src/node/convolver.rs` l.330-509 -/
  | conv (s : Convolver.Conv ℝ)

/-- Messages: something else to play for a source, another impulse response for a convolver. -/
inductive RMsg where
  | play (m : Nat → Sig ℝ × Bool)
  | buffer (ir : List (List ℝ)) (scale : ℝ)

/-- `AudioProcessor::process` of the processors; `none` is a panic. -/
noncomputable def rprocess (e : Consts ℝ) : RProc → List (Sig ℝ) → List (Sig ℝ) → Option (RProc × List (Sig ℝ) × Bool)
  | .base p, ins, outs => (process e p ins outs).map fun r => (.base r.1, r.2.1, r.2.2)
  | .biquad coefs k xy, i :: _, _ :: os =>
    let r := Filter.biquad e.N xy (coefs k) i
    some (.biquad coefs (k + 1) r.1, r.2.1 :: os, r.2.2)
  | .stereo pan k, i :: _, _ :: os => (Node.panner e.N (pan k) i).map fun q => (.stereo pan (k + 1), q :: os, false)
  | .conv s, i :: _, _ :: os => (s.step e.N i).map fun r => (.conv r.1, r.2.1 :: os, r.2.2)
  | _, _, _ => none

theorem rprocess_len (e : Consts ℝ) (p : RProc) (ins outs : List (Sig ℝ)) (p' : RProc) (outs' : List (Sig ℝ)) (t : Bool)
    (h : rprocess e p ins outs = some (p', outs', t)) : outs'.length = outs.length := by
  unfold rprocess at h
  split at h
  · simp only [Option.map_eq_some_iff, Prod.mk.injEq] at h
    obtain ⟨r, hr, _, rfl, _⟩ := h
    exact process_len e _ _ _ r.1 r.2.1 r.2.2 hr
  · simp only [Option.some.injEq, Prod.mk.injEq] at h
    rw [← h.2.1]; rfl
  · simp only [Option.map_eq_some_iff, Prod.mk.injEq] at h
    obtain ⟨r, hr, _, rfl, _⟩ := h
    rfl
  · simp only [Option.map_eq_some_iff, Prod.mk.injEq] at h
    obtain ⟨r, hr, _, rfl, _⟩ := h
    rfl
  · cases h

/-- `onmessage`: of sources as in `Verif.Engine.Model`; of the convolver l.492-509; others do not look at these. -/
noncomputable def ronmessage (e : Consts ℝ) : RProc → RMsg → Option RProc
  | .base p, .play m => ((sem e).onmessage p m).map .base
  | .conv s, .buffer ir scale => some (.conv (s.setBuffer ir scale))
  | p, _ => some p

/-- The graph with these processors. -/
noncomputable def rsem (e : Consts ℝ) : Sem RProc (Sig ℝ) RMsg where
  process p ins outs _ := rprocess e p ins outs
  process_len p ins outs _ p' outs' t h := rprocess_len e p ins outs p' outs' t h
  onmessage := ronmessage e
  sideEffects p := match p with
    | .base p => (sem e).sideEffects p
    | _ => false
  silence := Node.silence
  add := addSig e.N e.r

/-! ## the processors with louder signals -/

def lxy (c : ℝ) (s : Filter.XY) : Filter.XY := ⟨c * s.x1, c * s.x2, c * s.y1, c * s.y2⟩

theorem lxy_zero (c : ℝ) : lxy c Filter.XY.zero = Filter.XY.zero := by simp [lxy, Filter.XY.zero]

theorem lxy_eq_zero {c : ℝ} (hc : c ≠ 0) (s : Filter.XY) : lxy c s = Filter.XY.zero ↔ s = Filter.XY.zero := by
  cases s
  simp [lxy, Filter.XY.zero, hc]

theorem step_loud (c : ℝ) (s : Filter.XY) (k : Filter.Coefs) (x : ℝ) :
    (lxy c s).step k (c * x) = (lxy c (s.step k x).1, c * (s.step k x).2) := by
  have : k.b0 * (c * x) + k.b1 * (c * s.x1) + k.b2 * (c * s.x2) - k.a1 * (c * s.y1) - k.a2 * (c * s.y2) =
    c * (k.b0 * x + k.b1 * s.x1 + k.b2 * s.x2 - k.a1 * s.y1 - k.a2 * s.y2) := by ring
  simp only [Filter.XY.step, lxy, this]

theorem run_loud (c : ℝ) (ks : List Filter.Coefs) : ∀ (s : Filter.XY) (xs : List ℝ),
    (lxy c s).run ks (xs.map (c * ·)) = (lxy c (s.run ks xs).1, (s.run ks xs).2.map (c * ·)) := by
  induction ks with
  | nil => intro s xs; cases xs <;> rfl
  | cons k ks ih =>
    intro s xs
    cases xs with
    | nil => rfl
    | cons x xs =>
      simp only [List.map_cons, Filter.XY.run, step_loud, ih]

theorem getD_lxy (c : ℝ) (l : List Filter.XY) (k : Nat) :
    (l.map (lxy c)).getD k Filter.XY.zero = lxy c (l.getD k Filter.XY.zero) := by
  simp only [List.getD_eq_getElem?_getD, List.getElem?_map]
  cases l[k]? with
  | none => simp [lxy_zero]
  | some s => rfl

theorem biquad_loud {c : ℝ} (hc : c ≠ 0) (N : Nat) (xy : List Filter.XY) (ks : List Filter.Coefs) (q : Sig ℝ) :
    Filter.biquad N (xy.map (lxy c)) ks (loud c q) =
      ((Filter.biquad N xy ks q).1.map (lxy c), loud c (Filter.biquad N xy ks q).2.1, (Filter.biquad N xy ks q).2.2) := by
  unfold Filter.biquad
  have h1 : (∀ s ∈ xy.map (lxy c), s = Filter.XY.zero) ↔ ∀ s ∈ xy, s = Filter.XY.zero := by
    simp [lxy_eq_zero hc]
  by_cases h0 : Node.isSilent q = true ∧ ∀ s ∈ xy, s = Filter.XY.zero
  · rw [if_pos (show Node.isSilent (loud c q) = true ∧ _ from ⟨by rw [isSilent_loud]; exact h0.1, h1.2 h0.2⟩), if_pos h0]
    rfl
  · rw [if_neg (show ¬ (Node.isSilent (loud c q) = true ∧ _) from fun h => h0 ⟨by rw [← isSilent_loud c q]; exact h.1, h1.1 h.2⟩),
      if_neg h0]
    simp only [isSilent_loud]
    have h2 : (if Node.isSilent q = true then xy.map (lxy c)
        else (xy.map (lxy c)).take (loud c q).length ++ List.replicate ((loud c q).length - (xy.map (lxy c)).length) Filter.XY.zero) =
      (if Node.isSilent q = true then xy
        else xy.take q.length ++ List.replicate (q.length - xy.length) Filter.XY.zero).map (lxy c) := by
      split
      · rfl
      · simp [loud, List.map_take, lxy_zero]
    simp only [h2]
    generalize (if Node.isSilent q = true then xy
        else xy.take q.length ++ List.replicate (q.length - xy.length) Filter.XY.zero) = states
    have h3 : ∀ k, ((states.map (lxy c)).getD k Filter.XY.zero).run ks
        ((if Node.isSilent q = true then (loud c q).headD none else (loud c q).getD k none).data N) =
        (lxy c ((states.getD k Filter.XY.zero).run ks ((if Node.isSilent q = true then q.headD none else q.getD k none).data N)).1,
         ((states.getD k Filter.XY.zero).run ks ((if Node.isSilent q = true then q.headD none else q.getD k none).data N)).2.map (c * ·)) := by
      intro k
      rw [getD_lxy, ← run_loud]
      congr 1
      split
      · rw [headD_loud, data_map]
      · rw [getD_loud, data_map]
    simp only [h3, List.length_map, List.map_map]
    simp [loud, Function.comp_def]

theorem panner_loud (c : ℝ) (N : Nat) (pan : List ℝ) (q : Sig ℝ) :
    Node.panner N pan (loud c q) = (Node.panner N pan q).map (loud c) := by
  have hd : ∀ (m : Node.Chan ℝ) (f : Nat), (Node.Chan.data N (Option.map (fun l : List ℝ => l.map (c * ·)) m))[f]?.getD 0 = c * (m.data N)[f]?.getD 0 := by
    intro m f
    have := getD_map_mul c (m.data N) f
    rw [← data_map] at this
    simpa [List.getD_eq_getElem?_getD] using this
  have hm : ∀ p s : ℝ, Node.panMono p (c * s) = (c * (Node.panMono p s).1, c * (Node.panMono p s).2) := by
    intro p s; simp only [Node.panMono, mul_assoc]
  have hs : ∀ p l r : ℝ, Node.panStereo p (c * l) (c * r) = (c * (Node.panStereo p l r).1, c * (Node.panStereo p l r).2) := by
    intro p l r
    unfold Node.panStereo
    split <;> simp only [Prod.mk.injEq] <;> constructor <;> ring
  unfold Node.panner
  rw [isSilent_loud]
  split
  · rfl
  · match q with
    | [] => rfl
    | [m] => simp [loud, hd, hm, Function.comp_def]
    | [l, r] => simp [loud, hd, hs, Function.comp_def]
    | _ :: _ :: _ :: _ => rfl

/-! the convolver -/

def le (c : ℝ) (e : Convolver.Engine ℝ) : Convolver.Engine ℝ := ⟨e.ir, e.past.map (c * ·)⟩

theorem dot_loud (c : ℝ) (a : List ℝ) : ∀ b : List ℝ, (List.zipWith (· * ·) a (b.map (c * ·))).sum =
    c * (List.zipWith (· * ·) a b).sum := by
  induction a with
  | nil => intro b; simp
  | cons x a ih =>
    intro b
    cases b with
    | nil => simp
    | cons y b =>
      simp only [List.map_cons, List.zipWith_cons_cons, List.sum_cons, ih]
      ring

theorem feed_loud (c : ℝ) (xs : List ℝ) : ∀ e : Convolver.Engine ℝ,
    (le c e).feed (xs.map (c * ·)) = (le c (e.feed xs).1, (e.feed xs).2.map (c * ·)) := by
  induction xs with
  | nil => intro e; rfl
  | cons x xs ih =>
    intro e
    have h : (le c e).feed1 (c * x) = (le c (e.feed1 x).1, c * (e.feed1 x).2) := by
      simp only [Convolver.Engine.feed1, le, Prod.mk.injEq, List.map_cons, true_and]
      exact dot_loud c e.ir (x :: e.past)
    simp only [List.map_cons, Convolver.Engine.feed, h, ih]

/-- a convolver whose inputs were louder -/
def lcv (c : ℝ) (s : Convolver.Conv ℝ) : Convolver.Conv ℝ := { s with engines := s.engines.map (List.map (le c)) }

theorem chan_loud (c : ℝ) (N : Nat) (q : Sig ℝ) (k : Nat) :
    Convolver.chan N (loud c q) k = (Convolver.chan N q k).map (c * ·) := by
  unfold Convolver.chan
  rw [getD_loud, data_map]

theorem getD_map_list (c : ℝ) (l : List (List ℝ)) (k : Nat) :
    (l.map (List.map (c * ·))).getD k [] = (l.getD k []).map (c * ·) := by
  simp only [List.getD_eq_getElem?_getD, List.getElem?_map]
  cases l[k]? <;> rfl

theorem plus_loud (c : ℝ) (a : List ℝ) : ∀ b : List ℝ, List.zipWith (· + ·) (a.map (c * ·)) (b.map (c * ·)) =
    (List.zipWith (· + ·) a b).map (c * ·) := by
  induction a with
  | nil => intro b; simp
  | cons x a ih =>
    intro b
    cases b with
    | nil => simp
    | cons y b => simp only [List.map_cons, List.zipWith_cons_cons, ih, mul_add]

theorem mixDown_loud (c : ℝ) (n : Nat) (outs : List (List ℝ)) :
    Convolver.mixDown n (outs.map (List.map (c * ·))) = loud c (Convolver.mixDown n outs) := by
  unfold Convolver.mixDown
  split
  · simp only [getD_map_list, plus_loud]
    rfl
  · simp [loud, Function.comp_def]

theorem conv_loud (c : ℝ) (N : Nat) (s : Convolver.Conv ℝ) (q : Sig ℝ) :
    (lcv c s).step N (loud c q) = (s.step N q).map fun r => (lcv c r.1, loud c r.2.1, r.2.2) := by
  unfold Convolver.Conv.step
  have h1 : (loud c q).length = q.length := by simp [loud]
  rw [isSilent_loud, h1]
  have h2 : (lcv c s).len = s.len := rfl
  have h3 : (lcv c s).tail = s.tail := rfl
  have h4 : (lcv c s).chans = s.chans := rfl
  have h5 : (lcv c s).engines = s.engines.map (List.map (le c)) := rfl
  rw [h2, h3, h4, h5]
  split
  · rfl
  · cases hs : s.engines with
    | none => simp [lcv, hs]
    | some es =>
      simp only [Option.map_some]
      cases Convolver.plan q.length s.chans with
      | none => rfl
      | some pl =>
        simp only [List.length_map]
        split
        · rfl
        · have h6 : ∀ (es : List (Convolver.Engine ℝ)) (pl : List Nat),
              List.zipWith (fun e k => (e.feed (Convolver.chan N (loud c q) k)).1) (es.map (le c)) pl =
              (List.zipWith (fun e k => (e.feed (Convolver.chan N q k)).1) es pl).map (le c) := by
            intro es pl
            rw [List.zipWith_map_left, List.map_zipWith]
            simp only [chan_loud, feed_loud]
          have h7 : ∀ (es : List (Convolver.Engine ℝ)) (pl : List Nat),
              List.zipWith (fun e k => (e.feed (Convolver.chan N (loud c q) k)).2) (es.map (le c)) pl =
              (List.zipWith (fun e k => (e.feed (Convolver.chan N q k)).2) es pl).map (List.map (c * ·)) := by
            intro es pl
            rw [List.zipWith_map_left, List.map_zipWith]
            simp only [chan_loud, feed_loud]
          simp only [h6, h7, mixDown_loud, Option.map_some, lcv, List.map_append, List.map_drop]

/-! ## The translation -/

/-- a processor in a system whose sources are `c` times as loud -/
noncomputable def rlp (c : ℝ) : RProc → RProc
  | .base p => .base (lp c p)
  | .biquad coefs k xy => .biquad coefs k (xy.map (lxy c))
  | .stereo pan k => .stereo pan k
  | .conv s => .conv (lcv c s)

/-- louder things to play -/
noncomputable def rlm (c : ℝ) : RMsg → RMsg
  | .play m => .play (loudPlay c m)
  | .buffer ir scale => .buffer ir scale

theorem rprocess_loud (e : Consts ℝ) {c : ℝ} (hc : c ≠ 0) (p : RProc) (ins outs : List (Sig ℝ)) :
    rprocess e (rlp c p) (ins.map (loud c)) (outs.map (loud c)) =
      (rprocess e p ins outs).map fun r => (rlp c r.1, r.2.1.map (loud c), r.2.2) := by
  cases p with
  | base p =>
    simp only [rlp, rprocess, process_loud e hc]
    cases process e p ins outs <;> rfl
  | biquad coefs k xy =>
    cases ins with
    | nil => rfl
    | cons i ins =>
      cases outs with
      | nil => rfl
      | cons o os => simp only [rlp, List.map_cons, rprocess, Option.map_some, biquad_loud hc]
  | stereo pan k =>
    cases ins with
    | nil => rfl
    | cons i ins =>
      cases outs with
      | nil => rfl
      | cons o os =>
        simp only [rlp, List.map_cons, rprocess, panner_loud]
        cases Node.panner e.N (pan k) i <;> rfl
  | conv s =>
    cases ins with
    | nil => rfl
    | cons i ins =>
      cases outs with
      | nil => rfl
      | cons o os =>
        simp only [rlp, List.map_cons, rprocess, conv_loud]
        cases s.step e.N i <;> rfl

/-- Making sources louder is a translation. -/
noncomputable def rlouder (e : Consts ℝ) {c : ℝ} (hc : c ≠ 0) : Hom (rsem e) (rsem e) where
  fP := rlp c
  fS := loud c
  fM := rlm c
  process p ins outs _ := rprocess_loud e hc p ins outs
  onmessage p m := by
    cases p with
    | base p =>
      cases m with
      | play m =>
        show ((sem e).onmessage (lp c p) (loudPlay c m)).map RProc.base = (((sem e).onmessage p m).map RProc.base).map (rlp c)
        rw [show (sem e).onmessage (lp c p) (loudPlay c m) = _ from (louder e hc).onmessage p m]
        cases (sem e).onmessage p m <;> rfl
      | buffer ir scale => rfl
    | biquad coefs k xy => cases m <;> rfl
    | stereo pan k => cases m <;> rfl
    | conv s =>
      cases m with
      | play m => rfl
      | buffer ir scale =>
        show some (RProc.conv ((lcv c s).setBuffer ir scale)) = some (RProc.conv (lcv c (s.setBuffer ir scale)))
        simp [Convolver.Conv.setBuffer, lcv, Convolver.makeEngines, le]
  side p := by
    cases p with
    | base p => exact (louder e hc).side p
    | _ => rfl
  silence := rfl
  add cfg a b := addSig_loud e.N e.r c cfg a b

/-! ## C101 -/

/-- The same history with all sources `c` times as loud. -/
noncomputable def rlouderOp (c : ℝ) : Op RProc RMsg → Op RProc RMsg
  | .register id (.base (.source play k)) nin nout cfg => .register id (.base (.source (loudPlay c play) k)) nin nout cfg
  | .post h (.play m) => .post h (.play (loudPlay c m))
  | op => op

/-- filters and convolvers that are created have no memory yet -/
def RNew : Op RProc RMsg → Prop
  | .register _ (.base (.iir f)) _ _ _ => ∀ st ∈ f.states, ∀ v ∈ st, v = 0
  | .register _ (.biquad _ _ xy) _ _ _ => ∀ s ∈ xy, s = Filter.XY.zero
  | .register _ (.conv s) _ _ _ => s.engines = none
  | _ => True

theorem rlouder_op (e : Consts ℝ) {c : ℝ} (hc : c ≠ 0) (op : Op RProc RMsg) (h : RNew op) :
    (rlouder e hc).op op = rlouderOp c op := by
  cases op with
  | register id p nin nout cfg =>
    cases p with
    | base p =>
      have hb : NewFilter (.register id p nin nout cfg : Op (Proc ℝ) (Nat → Sig ℝ × Bool)) := by
        cases p with
        | iir f => exact h
        | _ => trivial
      have := louder_op e hc _ hb
      cases p with
      | iir f =>
        simp only [Hom.op, louder, louderOp, Op.register.injEq, and_true, true_and] at this
        simp only [Hom.op, rlouder, rlp, rlouderOp, this]
      | _ => rfl
    | biquad coefs k xy =>
      have : xy.map (lxy c) = xy := by
        conv => rhs; rw [← List.map_id xy]
        refine List.map_congr_left fun s hs => ?_
        rw [h s hs, lxy_zero]; rfl
      simp [Hom.op, rlouder, rlp, rlouderOp, this]
    | stereo pan k => rfl
    | conv s =>
      have : lcv c s = s := by
        cases s with
        | mk es l ch t =>
          have : es = none := h
          subst this
          rfl
      simp [Hom.op, rlouder, rlp, rlouderOp, this]
  | post x m => cases m <;> rfl
  | _ => rfl

/-- C101 for graphs of sources, gains, IIR and biquad filters, stereo panners, convolvers, splitters and mergers: if all
sources of a history are made `c` times as loud, the sound is `c` times as loud, sample by sample; the same nodes are freed
in the same quanta, the same histories panic. -/
theorem C101_louder_more (e : Consts ℝ) {c : ℝ} (hc : c ≠ 0) (cfg : Cfg) (ops : List (Op RProc RMsg))
    (hnew : ∀ op ∈ ops, RNew op) :
    (Sys.sound (rsem e) (Sys.init (rsem e) (.base .destination) cfg) (ops.map (rlouderOp c))).map
        (fun r => (r.2, r.1.g.reclaimed, r.1.g.ordered)) =
      (Sys.sound (rsem e) (Sys.init (rsem e) (.base .destination) cfg) ops).map
        (fun r => (r.2.map (loud c), r.1.g.reclaimed, r.1.g.ordered)) := by
  have h1 : ops.map (rlouderOp c) = ops.map (rlouder e hc).op :=
    List.map_congr_left fun op hop => (rlouder_op e hc op (hnew op hop)).symm
  have h2 : Sys.init (rsem e) (.base .destination) cfg = (rlouder e hc).sys (Sys.init (rsem e) (.base .destination) cfg) := by
    rw [Hom.sys_init]
    rfl
  rw [h1]
  conv => lhs; rw [h2]
  rw [Hom.sys_sound, Option.map_map]
  rfl

end Verif.Engine
