import Verif.Engine.DelaySum
import Verif.Panner.Props

/-!
# C101, C102: graphs with panner nodes

An engine of nodes (`Verif.Engine.Model`, `Verif.Engine.More`) and the panner node (`/repo/src/node/panner.rs` l.667-904,
`Verif.Panner.Process`), with and without delay nodes and feedback.

The parameters of a panner and of the listener are those that they will have in each quantum. Panner nodes have settings for which the gain is
not NaN (`Tame`). Simplifications: the panning model is not changed while the node exists; for the panning model `HRTF` the convolution of the
crate `hrtf` is an arbitrary machine `H`, which is assumed to be homogeneous (`Homog`).
-/

namespace Verif.Engine

open Verif.Render Verif.Panner

set_option linter.unusedSectionVars false

variable {B M σ : Type}

/-- Processors: those of another engine and `PannerRenderer`, panner.rs l.667-683 -/
inductive PProc (B σ : Type) where
  | base (p : B)
  | panner (r : Renderer σ) (pars : Nat → Pars) (k : Nat)

/-- samples that are not NaN -/
def reals (q : Node.Quantum (Option ℝ)) : Sig ℝ := q.map fun c => c.map fun l => l.map fun x => x.getD 0

/-- The settings for which no gain is NaN: those that the API accepts, with a `refDistance` that is not 0 nor, for the linear model,
`maxDistance`. -/
def Tame (s : Settings) : Prop := s.Valid ∧ 0 < s.ref ∧ (s.model = .linear → s.ref ≠ s.max)

/-- `PannerRenderer::process`, panner.rs l.686-904 -/
noncomputable def panned (H : Hrtf σ) (N : Nat) (r : Renderer σ) (p : Pars) (q : Sig ℝ) : Option (Renderer σ × Sig ℝ × Bool) :=
  (Panner.process H N r p q).map fun o => (o.1, reals o.2.1, o.2.2)

/-- `AudioProcessor::process` of the processors -/
noncomputable def pprocess (b : Sem B (Sig ℝ) M) (H : Hrtf σ) (N : Nat) (ps : Nat → Option (Sig ℝ)) :
    PProc B σ → List (Sig ℝ) → List (Sig ℝ) → Option (PProc B σ × List (Sig ℝ) × Bool)
  | .base p, ins, outs => (b.process p ins outs ps).map fun r => (.base r.1, r.2)
  | .panner s pars k, i :: _, _ :: os => (panned H N s (pars k) i).map fun r => (.panner r.1 pars (k + 1), r.2.1 :: os, r.2.2)
  | _, _, _ => none

/-- The graph with these processors. -/
noncomputable def psem (b : Sem B (Sig ℝ) M) (H : Hrtf σ) (N : Nat) : Sem (PProc B σ) (Sig ℝ) M where
  process p ins outs ps := pprocess b H N ps p ins outs
  process_len p ins outs ps p' outs' t h := by
    unfold pprocess at h
    split at h
    · simp only [Option.map_eq_some_iff, Prod.mk.injEq] at h
      obtain ⟨r, hr, _, h⟩ := h
      have := b.process_len _ _ _ _ r.1 r.2.1 r.2.2 hr
      rwa [h] at this
    · simp only [Option.map_eq_some_iff, Prod.mk.injEq] at h
      obtain ⟨r, hr, _, rfl, _⟩ := h
      rfl
    · cases h
  onmessage
    | .base p, m => (b.onmessage p m).map .base
    | p, _ => some p
  sideEffects
    | .base p => b.sideEffects p
    | _ => false
  silence := b.silence
  add := b.add

/-! ## What a panner does -/

/-- the gains of frame `f` for one channel: what the output `k` gets -/
noncomputable def monoGain (p : Spatial) (k : Nat) (x : ℝ) : ℝ :=
  match k with
  | 0 => (monoToStereo p x).1.getD 0
  | 1 => (monoToStereo p x).2.getD 0
  | _ => 0

/-- the same for two channels -/
noncomputable def stereoGain (p : Spatial) (k : Nat) (x y : ℝ) : ℝ :=
  match k with
  | 0 => (stereoToStereo p x y).1.getD 0
  | 1 => (stereoToStereo p x y).2.getD 0
  | _ => 0

theorem monoGain_lin (p : Spatial) (k : Nat) (a b x y : ℝ) :
    monoGain p k (a * x + b * y) = a * monoGain p k x + b * monoGain p k y := by
  unfold monoGain monoToStereo
  match k with
  | 0 => cases p.dist <;> simp <;> ring
  | 1 => cases p.dist <;> simp <;> ring
  | k + 2 => simp

theorem stereoGain_lin (p : Spatial) (k : Nat) (a b x y x' y' : ℝ) :
    stereoGain p k (a * x + b * x') (a * y + b * y') = a * stereoGain p k x y + b * stereoGain p k x' y' := by
  unfold stereoGain stereoToStereo
  by_cases h : wrapAzimuth p.az ≤ 0
  · simp only [if_pos h]
    match k with
    | 0 => cases p.dist <;> simp <;> ring
    | 1 => cases p.dist <;> simp <;> ring
    | k + 2 => simp
  · simp only [if_neg h]
    match k with
    | 0 => cases p.dist <;> simp <;> ring
    | 1 => cases p.dist <;> simp <;> ring
    | k + 2 => simp

/-- output `k` in frame `f` for `n` channels -/
noncomputable def gainOut (n : Nat) (p : Spatial) (k : Nat) (x y : ℝ) : ℝ := if n = 1 then monoGain p k x else stereoGain p k x y

theorem gainOut_lin (n : Nat) (p : Spatial) (k : Nat) (a b x y x' y' : ℝ) :
    gainOut n p k (a * x + b * x') (a * y + b * y') = a * gainOut n p k x y + b * gainOut n p k x' y' := by
  unfold gainOut
  split
  · exact monoGain_lin p k a b x x'
  · exact stereoGain_lin p k a b x y x' y'

theorem gainOut_zero (n : Nat) (p : Spatial) (k : Nat) : gainOut n p k 0 0 = 0 := by
  have := gainOut_lin n p k 0 0 0 0 0 0
  simpa using this

theorem gainOut_add (n : Nat) (p : Spatial) (k : Nat) (x y x' y' : ℝ) :
    gainOut n p k (x + x') (y + y') = gainOut n p k x y + gainOut n p k x' y' := by
  have := gainOut_lin n p k 1 1 x y x' y'
  simpa using this

theorem panned_silent (H : Hrtf σ) {N : Nat} {r : Renderer σ} (hr : r.hrtf = none) (p : Pars) {q : Sig ℝ} (h : Node.isSilent q = true) :
    panned H N r p q = some (r, Node.silence, false) := by
  unfold panned Panner.process
  simp only [h, hr, Bool.not_false, Bool.and_true, if_true, Option.map_some]
  rfl

theorem panned_equal (H : Hrtf σ) {N : Nat} {r : Renderer σ} (hr : r.hrtf = none) (p : Pars) {q : Sig ℝ} (h : Node.isSilent q = false) :
    panned H N r p q = (equalPower N r.set p q).map fun o => (r, reals o, false) := by
  unfold panned Panner.process
  simp only [h, hr, Bool.false_and, Bool.false_eq_true, if_false]
  cases equalPower N r.set p q <;> rfl

/-- what the panner does, sample by sample -/
theorem panned_spec (H : Hrtf σ) {N n : Nat} (hn : n = 1 ∨ n = 2) {s : Renderer σ} (hr : s.hrtf = none) (p : Pars) {q : Sig ℝ} (hs : Shape n q) :
    ∃ r, panned H N s p q = some (s, r, false) ∧ Full N r ∧ Shape 2 r ∧
      ∀ k f, f < N → Node.sample r k f = gainOut n (spatialAt s.set p (itemOf p f)) k (Node.sample q 0 f) (Node.sample q 1 f) := by
  by_cases h0 : Node.isSilent q = true
  · refine ⟨_, panned_silent H hr p h0, silence_full N, silence_shape 2, fun k f _ => ?_⟩
    rw [Node.sample_silence, Node.sample_of_isSilent h0, Node.sample_of_isSilent h0, gainOut_zero]
  · have hl : q.length = n := hs.resolve_right h0
    rw [panned_equal H hr p (by simpa using h0)]
    have hd : ∀ (m : Node.Chan ℝ) (f : Nat), (m.data N)[f]?.getD 0 = at' m f := by
      intro m f
      have := Node.data_getD N m f
      rw [List.getD_eq_getElem?_getD] at this
      rw [this]
      cases m <;> rfl
    rcases hn with rfl | rfl
    · match q, hl with
      | [m], _ =>
        refine ⟨_, rfl, ⟨by simp [reals], by simp [reals]⟩, .inl rfl, fun k f hf => ?_⟩
        have e0 : Node.sample [m] 0 f = at' m f := by rw [sample_getD]; rfl
        rw [e0]
        match k with
        | 0 => simp [Node.sample, reals, gainOut, monoGain, hf, hd]
        | 1 => simp [Node.sample, reals, gainOut, monoGain, hf, hd]
        | k + 2 => simp [Node.sample, reals, gainOut, monoGain]
    · match q, hl with
      | [l, r], _ =>
        refine ⟨_, rfl, ⟨by simp [reals], by simp [reals]⟩, .inl rfl, fun k f hf => ?_⟩
        have e0 : Node.sample [l, r] 0 f = at' l f := by rw [sample_getD]; rfl
        have e1 : Node.sample [l, r] 1 f = at' r f := by rw [sample_getD]; rfl
        rw [e0, e1]
        match k with
        | 0 => simp [Node.sample, reals, gainOut, stereoGain, hf, hd]
        | 1 => simp [Node.sample, reals, gainOut, stereoGain, hf, hd]
        | k + 2 => simp [Node.sample, reals, gainOut, stereoGain]

/-- The totalisation in `reals` plays no role for tame settings: the gains are not NaN. -/
theorem tame_dist {s : Settings} (h : Tame s) (p : Pars) (i : Nat) : ∃ d, (spatialAt s p i).dist = some d :=
  ⟨_, C63_formula_partial s h.1 h.2.1 h.2.2 _ (Real.sqrt_nonneg _)⟩

/-- a panner (`equalpower`) is linear -/
theorem panned_sum3 (H : Hrtf σ) {N n : Nat} (hn : n = 1 ∨ n = 2) {s : Renderer σ} (hr : s.hrtf = none) (p : Pars) {x y z : Sig ℝ}
    (hs : Sum3 N n x y z) :
    ∃ a b d, panned H N s p x = some (s, a, false) ∧ panned H N s p y = some (s, b, false) ∧ panned H N s p z = some (s, d, false) ∧
      Sum3 N 2 a b d := by
  obtain ⟨a, a1, a2, a3, a4⟩ := panned_spec (N := N) H hn hr p hs.sx
  obtain ⟨b, b1, b2, b3, b4⟩ := panned_spec (N := N) H hn hr p hs.sy
  obtain ⟨d, d1, d2, d3, d4⟩ := panned_spec (N := N) H hn hr p hs.sz
  refine ⟨a, b, d, a1, b1, d1, a2, b2, d2, a3, b3, d3, fun k f hf => ?_⟩
  rw [a4 k f hf, b4 k f hf, d4 k f hf, hs.adds 0 f hf, hs.adds 1 f hf, gainOut_add]

theorem data_loud_getD (N : Nat) (c : ℝ) (m : Node.Chan ℝ) (f : Nat) :
    (Node.Chan.data N (m.map fun l => l.map (c * ·))).getD f 0 = c * (m.data N).getD f 0 := by
  rw [Node.data_getD, Node.data_getD]
  cases m with
  | none => simp
  | some l =>
    simp only [Option.map_some, List.getD_eq_getElem?_getD, List.getElem?_map]
    cases l[f]? <;> simp

theorem mono_loud (p : Spatial) (c x : ℝ) : monoToStereo p (c * x) =
    ((monoToStereo p x).1.map (c * ·), (monoToStereo p x).2.map (c * ·)) := by
  unfold monoToStereo
  cases p.dist <;> simp [mul_assoc]

theorem stereo_loud (p : Spatial) (c x y : ℝ) : stereoToStereo p (c * x) (c * y) =
    ((stereoToStereo p x y).1.map (c * ·), (stereoToStereo p x y).2.map (c * ·)) := by
  unfold stereoToStereo
  by_cases h : wrapAzimuth p.az ≤ 0
  · simp only [if_pos h]
    cases p.dist <;> simp <;> constructor <;> ring
  · simp only [if_neg h]
    cases p.dist <;> simp <;> constructor <;> ring

theorem getD_louder (o : Option ℝ) (c : ℝ) : (o.map (c * ·)).getD 0 = c * o.getD 0 := by cases o <;> simp

/-- Assumption on the HRTF convolution: it is homogeneous. Louder samples give louder frames, if the samples in its memory were as much louder. -/
structure Homog (H : Hrtf σ) (c : ℝ) where
  act : σ → σ
  step : ∀ st src g d, H.step (act st) (src.map (c * ·)) g d =
    (act (H.step st src g d).1, (H.step st src g d).2.map fun o => (o.1.map (c * ·), o.2.map (c * ·)))

/-- a renderer whose memory is louder -/
def Homog.ren {H : Hrtf σ} {c : ℝ} (h : Homog H c) (r : Renderer σ) : Renderer σ := { r with hrtf := r.hrtf.map fun x => (x.1, h.act x.2) }

theorem reals_corr (out : List (Option ℝ × Option ℝ)) (c k : ℝ) (f : Option ℝ × Option ℝ → Option ℝ) :
    ((out.map fun o => ((f o).map (c * ·)).map (k * ·)).map fun x => x.getD 0) =
      ((out.map fun o => (f o).map (k * ·)).map fun x => x.getD 0).map (c * ·) := by
  rw [List.map_map, List.map_map, List.map_map]
  refine List.map_congr_left fun o _ => ?_
  simp only [Function.comp_apply]
  cases f o with
  | none => simp
  | some v => simp only [Option.map_some, Option.getD_some]; ring

theorem branch_loud {H : Hrtf σ} {c : ℝ} (h : Homog H c) (N : Nat) (s : Settings) (p : Pars) (st : σ) (q : Sig ℝ) :
    (hrtfBranch H N s p (h.act st) (loud c q)).1 = h.act (hrtfBranch H N s p st q).1 ∧
    reals (hrtfBranch H N s p (h.act st) (loud c q)).2 = loud c (reals (hrtfBranch H N s p st q).2) := by
  have hh : ∀ m : Node.Chan ℝ, Node.Chan.data N (m.map fun l => l.map (c * ·)) = (m.data N).map (c * ·) := by
    intro m
    cases m with
    | none => simp [Node.Chan.data]
    | some l => rfl
  have key : ∀ (src : List ℝ) (k : ℝ) g d,
      (H.step (h.act st) (src.map (c * ·)) g d).1 = h.act (H.step st src g d).1 ∧
      reals [some ((H.step (h.act st) (src.map (c * ·)) g d).2.map fun o => o.1.map (k * ·)),
        some ((H.step (h.act st) (src.map (c * ·)) g d).2.map fun o => o.2.map (k * ·))] =
      loud c (reals [some ((H.step st src g d).2.map fun o => o.1.map (k * ·)), some ((H.step st src g d).2.map fun o => o.2.map (k * ·))]) := by
    intro src k g d
    rw [h.step]
    refine ⟨rfl, ?_⟩
    have e1 := reals_corr (H.step st src g d).2 c k (·.1)
    have e2 := reals_corr (H.step st src g d).2 c k (·.2)
    simp only [reals, loud, List.map_cons, List.map_nil, Option.map_some, List.map_map, Function.comp_def] at e1 e2 ⊢
    rw [e1, e2]
  match q with
  | [] =>
    have := key (Node.Chan.data N none) 1
    simp only [Node.Chan.data, List.map_replicate, mul_zero] at this
    exact this _ _
  | [m] =>
    have := key (Node.Chan.data N m) 1
    rw [← hh] at this
    exact this _ _
  | [l, r] =>
    have e : ((List.range N).map fun f => (1 / 2) * ((Node.Chan.data N (l.map fun l => l.map (c * ·))).getD f 0 +
        (Node.Chan.data N (r.map fun l => l.map (c * ·))).getD f 0)) =
        ((List.range N).map fun f => (1 / 2) * ((Node.Chan.data N l).getD f 0 + (Node.Chan.data N r).getD f 0)).map (c * ·) := by
      rw [List.map_map]
      refine List.map_congr_left fun f _ => ?_
      simp only [Function.comp_apply, data_loud_getD]
      ring
    have := key ((List.range N).map fun f => (1 / 2) * ((Node.Chan.data N l).getD f 0 + (Node.Chan.data N r).getD f 0)) 2
    rw [← e] at this
    exact this _ _
  | m :: _ :: _ :: _ =>
    have := key (Node.Chan.data N m) 1
    rw [← hh] at this
    exact this _ _

theorem panned_loud {H : Hrtf σ} {c : ℝ} (h : Homog H c) (N : Nat) (s : Renderer σ) (p : Pars) (q : Sig ℝ) :
    panned H N (h.ren s) p (loud c q) = (panned H N s p q).map fun r => (h.ren r.1, loud c r.2.1, r.2.2) := by
  obtain ⟨set, hrtf, counter⟩ := s
  cases hrtf with
  | none =>
    have hs : h.ren ⟨set, none, counter⟩ = ⟨set, none, counter⟩ := rfl
    rw [hs]
    cases h0 : Node.isSilent q with
    | true => rw [panned_silent H rfl p h0, panned_silent H rfl p (by rw [isSilent_loud]; exact h0)]; rfl
    | false =>
      rw [panned_equal H rfl p h0, panned_equal H rfl p (by rw [isSilent_loud]; exact h0)]
      match q with
      | [] => rfl
      | [m] =>
        simp only [loud, List.map_cons, List.map_nil, equalPower, Option.map_some, reals, data_loud_getD, mono_loud, List.map_map,
          Function.comp_def, getD_louder, hs]
      | [l, r] =>
        simp only [loud, List.map_cons, List.map_nil, equalPower, Option.map_some, reals, data_loud_getD, stereo_loud, List.map_map,
          Function.comp_def, getD_louder, hs]
      | _ :: _ :: _ :: _ => rfl
  | some x =>
    obtain ⟨len, st⟩ := x
    have hb := branch_loud h N set p st q
    unfold panned Panner.process
    simp only [Homog.ren, Option.map_some, isSilent_loud]
    by_cases h1 : len > counter
    · cases h0 : Node.isSilent q <;> simp [h1, hb.1, hb.2]
    · cases h0 : Node.isSilent q
      · simp [h1, hb.1, hb.2]
      · simp [h1, reals, loud]

/-! ## Louder sources -/

/-- a processor in a system whose sources are louder -/
def plp (f : B → B) (g : Renderer σ → Renderer σ) : PProc B σ → PProc B σ
  | .base p => .base (f p)
  | .panner r pars k => .panner (g r) pars k

/-- Making sources louder is a translation. -/
noncomputable def plouder (b : Sem B (Sig ℝ) M) (h : Hom b b) {H : Hrtf σ} (N : Nat) {c : ℝ} (hH : Homog H c) (hS : h.fS = loud c) :
    Hom (psem b H N) (psem b H N) where
  fP := plp h.fP hH.ren
  fS := h.fS
  fM := h.fM
  process p ins outs ps := by
    cases p with
    | base p =>
      simp only [psem, plp, pprocess, h.process]
      cases b.process p ins outs ps <;> rfl
    | panner s pars k =>
      cases ins with
      | nil => rfl
      | cons i ins =>
        cases outs with
        | nil => rfl
        | cons o os =>
          simp only [psem, plp, List.map_cons, pprocess, hS, panned_loud hH]
          cases panned H N s (pars k) i <;> rfl
  onmessage p m := by
    cases p with
    | base p =>
      show (b.onmessage (h.fP p) (h.fM m)).map PProc.base = ((b.onmessage p m).map PProc.base).map (plp h.fP hH.ren)
      rw [h.onmessage]
      cases b.onmessage p m <;> rfl
    | panner s pars k => rfl
  side p := by
    cases p with
    | base p => exact h.side p
    | panner s pars k => rfl
  silence := h.silence
  add := h.add

/-- The same history with all sources `c` times as loud. -/
noncomputable def plouderOp (c : ℝ) : Op (DProc (PProc RProc σ) ℝ) RMsg → Op (DProc (PProc RProc σ) ℝ) RMsg
  | .register id (.base (.base (.base (.source play k)))) nin nout cfg =>
    .register id (.base (.base (.base (.source (loudPlay c play) k)))) nin nout cfg
  | .post h (.play m) => .post h (.play (loudPlay c m))
  | op => op

/-- filters and convolvers that are created have no memory yet, panners have settings without NaN and no sound in the memory of their HRTF (its
scaling by `act` makes no difference) -/
def PNew (act : σ → σ) : Op (DProc (PProc RProc σ) ℝ) RMsg → Prop
  | .register id (.base (.base p)) nin nout cfg => RNew (.register id p nin nout cfg)
  | .register _ (.base (.panner r _ _)) _ _ _ => Tame r.set ∧ ∀ x ∈ r.hrtf, act x.2 = x.2
  | _ => True

/-- **C101 with panners.** If all sources of a history are made `c` times as loud, the sound is `c` times as loud, sample by sample; the same
nodes are freed in the same quanta, the same histories panic. The graph may contain sources, gains, IIR and biquad filters, stereo panners,
panners (`equalpower` and `HRTF`) that move in any way, convolvers, splitters, mergers, and delay nodes of any size, also in cycles. -/
theorem C101_louder_panner (H : Hrtf σ) (e : Consts ℝ) (sr : ℝ) {c : ℝ} (hc : c ≠ 0) (hH : Homog H c) (cfg : Cfg) (cap : Nat → Nat)
    (ops : List (Op (DProc (PProc RProc σ) ℝ) RMsg)) (hnew : ∀ op ∈ ops, PNew hH.act op) :
    let b := psem (rsem e) H e.N
    let s0 := (Sys.init ((dsem b e sr).base (Mem.new cap)) (.base (.base (.base .destination))) cfg, Mem.new cap)
    (Sys.soundS (dsem b e sr) s0 (ops.map (plouderOp c))).map (fun r => (r.2, r.1.1.g.reclaimed, r.1.1.g.ordered)) =
      (Sys.soundS (dsem b e sr) s0 ops).map (fun r => (r.2.map (loud c), r.1.1.g.reclaimed, r.1.1.g.ordered)) := by
  refine sound_delays (psem (rsem e) H e.N) (plouder (rsem e) (rlouder e hc) e.N hH rfl) e sr hc rfl (.base (.base .destination)) rfl cfg cap ops _
    (List.map_congr_left fun op hop => ?_)
  have h := hnew op hop
  cases op with
  | register id p nin nout cfg =>
    cases p with
    | base p =>
      cases p with
      | base p =>
        have := rlouder_op e hc (.register id p nin nout cfg) h
        simp only [Hom.op, rlouder] at this
        show _ = Op.register id (DProc.base (PProc.base (rlp c p))) nin nout cfg
        cases p with
        | base p =>
          cases p with
          | source play k => rfl
          | _ =>
            simp only [rlouderOp, Op.register.injEq, and_true, true_and] at this
            simp only [this, plouderOp]
        | _ =>
          simp only [rlouderOp, Op.register.injEq, and_true, true_and] at this
          simp only [this, plouderOp]
      | panner r pars k =>
        obtain ⟨set, hrtf, counter⟩ := r
        have : hH.ren ⟨set, hrtf, counter⟩ = ⟨set, hrtf, counter⟩ := by
          cases hrtf with
          | none => rfl
          | some x => simp only [Homog.ren, Option.map_some, h.2 x rfl]
        show _ = Op.register id (DProc.base (PProc.panner (hH.ren ⟨set, hrtf, counter⟩) pars k)) nin nout cfg
        rw [this]
        rfl
    | _ => rfl
  | post x m => cases m <;> rfl
  | _ => rfl

/-! ## Superposition -/

/-- three processors of a node -/
inductive PProc3 (okP : Cfg → B → B → B → Prop) (c : Cfg) : PProc B σ → PProc B σ → PProc B σ → Prop
  | base (p q r : B) (h : okP c p q r) : PProc3 okP c (.base p) (.base q) (.base r)
  | panner (s : Renderer σ) (hs : s.hrtf = none) (pars : Nat → Pars) (k : Nat) (hc : c.count ≤ 2) :
    PProc3 okP c (.panner s pars k) (.panner s pars k) (.panner s pars k)

/-- The three renderings, with panners. -/
noncomputable def psuperposed {b : Sem B (Sig ℝ) M} (t : Trio b) (H : Hrtf σ) (N : Nat) (hO : t.okO = fun x y z => ∃ n, Sum3 N n x y z)
    (hI : ∀ c x y z, t.okI c x y z → Sum3 N c.count x y z) (hC : t.okC = Explicit) : Trio (psem b H N) where
  okP c p q r := Explicit c ∧ PProc3 t.okP c p q r
  okI := t.okI
  okO := t.okO
  okM := t.okM
  okC := Explicit
  okP_okC _ _ _ _ h := h.1
  process c p q r ins outs ps hp hi ho := by
    obtain ⟨hc, hp⟩ := hp
    cases hp with
    | base p q r h =>
      rcases t.process c p q r ins outs ps h hi ho with ⟨h1, h2, h3⟩ | ⟨a, b, d, h1, h2, h3, h4, h5⟩
      · left
        simp only [psem, pprocess, h1, h2, h3]
        exact ⟨rfl, rfl, rfl⟩
      · right
        simp only [psem, pprocess, h1, h2, h3]
        exact ⟨_, _, _, rfl, rfl, rfl, ⟨hc, .base _ _ _ h4⟩, h5⟩
    | panner s hr pars k h2 =>
      cases ins with
      | nil => exact .inl ⟨rfl, rfl, rfl⟩
      | cons i ins =>
        cases outs with
        | nil => exact .inl ⟨rfl, rfl, rfl⟩
        | cons o os =>
          obtain ⟨a, b, d, a1, b1, d1, hs⟩ := panned_sum3 H (N := N) (by have := hc.2; omega) hr (pars k) (hI c _ _ _ (hi i (by simp)))
          right
          simp only [psem, pprocess, List.map_cons, a1, b1, d1, Option.map_some]
          refine ⟨_, _, _, rfl, rfl, rfl, ⟨hc, .panner s hr pars (k + 1) h2⟩, ?_⟩
          refine tail3 os (fun x hx => ho x (by simp [hx])) _ _ _ ?_
          rw [hO]
          exact ⟨_, hs⟩
  onmessage c p q r m m' m'' hp hm := by
    obtain ⟨hc, hp⟩ := hp
    cases hp with
    | base p q r h =>
      rcases t.onmessage c p q r m m' m'' h hm with ⟨h1, h2, h3⟩ | ⟨a, d, f, h1, h2, h3, h4⟩
      · left
        simp only [psem, h1, h2, h3]
        exact ⟨rfl, rfl, rfl⟩
      · right
        simp only [psem, h1, h2, h3]
        exact ⟨_, _, _, rfl, rfl, rfl, hc, .base _ _ _ h4⟩
    | panner s hr pars k h => exact .inr ⟨_, _, _, rfl, rfl, rfl, hc, .panner s hr pars k h⟩
  silence_okI := t.silence_okI
  silence_okO := t.silence_okO
  add c x y z x' y' z' hc h h' := t.add c x y z x' y' z' (by rw [hC]; exact hc) h h'

/-- a step of a history of a graph without panners, as one of a graph that may have them -/
def panOp : Op B M → Op (PProc B σ) M
  | .acquire => .acquire
  | .register id proc nin nout cfg => .register id (.base proc) nin nout cfg
  | .failCreate id => .failCreate id
  | .connect a b out inp => .connect a b out inp
  | .connectHidden a b admin => .connectHidden a b admin
  | .disconnect a out dst inp => .disconnect a out dst inp
  | .post x m => .post x m
  | .setCfg x c => .setCfg x c
  | .breaker x => .breaker x
  | .drop x => .drop x
  | .dropSend x => .dropSend x
  | .dropClear id => .dropClear id
  | .recv => .recv
  | .quantum => .quantum

/-- Steps of three histories as `R` allows them, or the creation of the same panner (`equalpower`): in mode `explicit` with at most two channels (the API
rejects more), which may move in any way, with settings for which no gain is NaN. -/
inductive OrPanner (R : Op B M → Op B M → Op B M → Prop) : Op (PProc B σ) M → Op (PProc B σ) M → Op (PProc B σ) M → Prop
  | other (x y z : Op B M) (h : R x y z) : OrPanner R (panOp x) (panOp y) (panOp z)
  | panner (id : Nat) (s : Settings) (hs : Tame s) (pars : Nat → Pars) (nin nout : Nat) (c : Cfg) (hc : Explicit c) (h : c.count ≤ 2) :
    OrPanner R (.register id (.panner ⟨s, none, 0⟩ pars 0) nin nout c) (.register id (.panner ⟨s, none, 0⟩ pars 0) nin nout c)
      (.register id (.panner ⟨s, none, 0⟩ pars 0) nin nout c)

theorem pan_ops {b : Sem B (Sig ℝ) M} (t : Trio b) (H : Hrtf σ) (N : Nat) (hO : t.okO = fun x y z => ∃ n, Sum3 N n x y z)
    (hI : ∀ c x y z, t.okI c x y z → Sum3 N c.count x y z) (hC : t.okC = Explicit)
    {R : Op B M → Op B M → Op B M → Prop} (hR : ∀ x y z, R x y z → t.Ops x y z) {x y z : Op (PProc B σ) M} (h : OrPanner R x y z) :
    (psuperposed t H N hO hI hC).Ops x y z := by
  cases h with
  | panner id s hs pars nin nout c hc h => exact .register _ _ _ _ _ _ _ ⟨hc, .panner ⟨s, none, 0⟩ rfl pars 0 h⟩
  | other x y z h =>
    have h' := hR x y z h
    clear h
    cases h' with
    | acquire => exact .acquire
    | recv => exact .recv
    | quantum => exact .quantum
    | breaker a => exact .breaker a
    | connect a b o i => exact .connect a b o i
    | connectHidden a b adm => exact .connectHidden a b adm
    | disconnect a o d i => exact .disconnect a o d i
    | register id p q r nin nout c h =>
      refine .register _ _ _ _ _ _ _ ⟨?_, .base p q r h⟩
      have := t.okP_okC c p q r h
      rwa [hC] at this
    | post a m m' m'' h => exact .post a m m' m'' h

/-- **C102 with panners.** As `C102_superposition_delays_more_partial` (gain, IIR and biquad filters, stereo panners, convolvers, splitters,
mergers, delay nodes of any size, also in cycles), and with panners (`equalpower`) that move in any way. -/
theorem C102_superposition_panner_partial (H : Hrtf σ) (e : Consts ℝ) (sr : ℝ) (cap : Nat → Nat) {M : Nat} (hM : M ≤ 2) (cfg : Cfg) (hcfg : Explicit cfg)
    (l : List (Op (DProc (PProc RProc σ) ℝ) RMsg × Op (DProc (PProc RProc σ) ℝ) RMsg × Op (DProc (PProc RProc σ) ℝ) RMsg))
    (h : ∀ x ∈ l, OrDelay (OrPanner (SameButSources' e.N M)) e.N x.1 x.2.1 x.2.2) :
    let b := psem (rsem e) H e.N
    let sound := fun ops => Sys.soundS (dsem b e sr)
      (Sys.init ((dsem b e sr).base (Mem.new cap)) (.base (.base (.base .destination))) cfg, Mem.new cap) ops
    (sound (l.map (·.1)) = none ∧ sound (l.map (·.2.1)) = none ∧ sound (l.map (·.2.2)) = none) ∨
    ∃ a b d, sound (l.map (·.1)) = some a ∧ sound (l.map (·.2.1)) = some b ∧ sound (l.map (·.2.2)) = some d ∧
      b.2.length = a.2.length ∧ d.2.length = a.2.length ∧
      ∀ (t : Nat) x y z, a.2[t]? = some x → b.2[t]? = some y → d.2[t]? = some z →
        ∀ k f, f < e.N → Node.sample z k f = Node.sample x k f + Node.sample y k f := by
  intro b sound
  let t := psuperposed (rsuperposed e M hM) H e.N rfl (fun _ _ _ _ h => h.sum) rfl
  have hd : (dsuperposed t e sr rfl (fun _ _ _ _ h => h.sum) rfl rfl).okP cfg (.base (.base (.base .destination)))
      (.base (.base (.base .destination))) (.base (.base (.base .destination))) :=
    ⟨hcfg, .base _ _ _ ⟨hcfg, .base _ _ _ ⟨hcfg, .base _ _ _ .destination⟩⟩⟩
  rcases (dsuperposed t e sr rfl (fun _ _ _ _ h => h.sum) rfl rfl).sound (new_mem3 cap) hd l
    (fun x hx => lift_ops t e sr rfl (fun _ _ _ _ h => h.sum) rfl rfl
      (fun _ _ _ h => pan_ops (rsuperposed e M hM) H e.N rfl (fun _ _ _ _ h => h.sum) rfl (fun _ _ _ h => same_ops' e hM h) h) (h x hx)) with
    h | ⟨a, b, d, h1, h2, h3, h4, h5, h6⟩
  · exact .inl h
  · refine .inr ⟨a, b, d, h1, h2, h3, h4, h5, fun t x y z hx hy hz => ?_⟩
    obtain ⟨n, hn⟩ := h6 t x y z hx hy hz
    exact hn.adds

/-! ### A history that meets the hypotheses -/

/-- a panner at the place of the listener -/
noncomputable def herePars : Pars where
  src := ⟨[0], [0], [0]⟩
  ori := ⟨[1], [0], [0]⟩
  lis := ⟨[0], [0], [0]⟩
  fwd := ⟨[0], [0], [-1]⟩
  up := ⟨[0], [1], [0]⟩

theorem default_tame : Tame defaultSettings := ⟨default_valid, by norm_num [defaultSettings], by simp [defaultSettings]⟩

/-- a source into a panner that moves, and from there through a delay of one frame to the destination -/
noncomputable def flight (p : Nat → Sig ℝ × Bool) : List (Op (DProc (PProc RProc ℝ) ℝ) RMsg) :=
  [.acquire, .register 11 (.base (.base (.base (.source p 0)))) 0 1 ⟨2, 2, 0⟩,
   .acquire, .register 12 (.base (.panner ⟨defaultSettings, none, 0⟩ (fun k => if k = 0 then herePars else movingPars) 0)) 1 1 ⟨2, 2, 0⟩,
   .acquire, .acquire, .register 14 (.reader 0 (fun _ => [1 / 100]) 0) 1 1 ⟨2, 2, 0⟩, .register 13 (.writer 0) 1 1 ⟨2, 2, 0⟩,
   .breaker ⟨13, 4, 1, 1⟩, .connect ⟨13, 4, 1, 1⟩ ⟨14, 3, 1, 1⟩ 0 0,
   .connect ⟨11, 1, 0, 1⟩ ⟨12, 2, 1, 1⟩ 0 0, .connect ⟨12, 2, 1, 1⟩ ⟨13, 4, 1, 1⟩ 0 0, .connect ⟨14, 3, 1, 1⟩ ⟨0, 0, 1, 1⟩ 0 0,
   .recv, .recv, .recv, .recv, .recv, .recv, .recv, .recv, .recv, .quantum, .quantum, .quantum]

example : (∀ x ∈ (flight (melody 1)).zip ((flight (melody 2)).zip (flight (melody (1 + 2)))),
      OrDelay (OrPanner (SameButSources' quadConsts.N 2)) quadConsts.N x.1 x.2.1 x.2.2) ∧
    (∀ op ∈ flight (melody 1), PNew (fun s => 3 * s) op) := by
  have he : Explicit ⟨2, 2, 0⟩ := ⟨le_rfl, by decide⟩
  refine ⟨?_, ?_⟩
  · simp only [flight, List.zip_cons_cons, List.zip_nil_right, List.forall_mem_cons, List.not_mem_nil, false_imp_iff,
      implies_true, and_true]
    refine ⟨?_, ?_, ?_, ?_, ?_, ?_, ?_, ?_, ?_, ?_, ?_, ?_, ?_, ?_, ?_, ?_, ?_, ?_, ?_, ?_, ?_, ?_, ?_, ?_, ?_⟩
    all_goals first
      | exact .other (panOp .acquire) (panOp .acquire) (panOp .acquire) (.other _ _ _ .acquire)
      | exact .other (panOp .recv) (panOp .recv) (panOp .recv) (.other _ _ _ .recv)
      | exact .other (panOp .quantum) (panOp .quantum) (panOp .quantum) (.other _ _ _ .quantum)
      | exact .other (panOp (.breaker _)) (panOp (.breaker _)) (panOp (.breaker _)) (.other _ _ _ (.breaker _))
      | exact .other (panOp (.connect _ _ _ _)) (panOp (.connect _ _ _ _)) (panOp (.connect _ _ _ _)) (.other _ _ _ (.connect _ _ _ _))
      | exact .writer _ _ _ _ _ he
      | exact .reader _ _ _ _ _ _ he (fun _ => .inl rfl)
      | exact OrDelay.other (Op.register 12 (PProc.panner ⟨defaultSettings, none, 0⟩ _ 0) 1 1 ⟨2, 2, 0⟩) (Op.register 12 (PProc.panner ⟨defaultSettings, none, 0⟩ _ 0) 1 1 ⟨2, 2, 0⟩)
          (Op.register 12 (PProc.panner ⟨defaultSettings, none, 0⟩ _ 0) 1 1 ⟨2, 2, 0⟩) (OrPanner.panner 12 defaultSettings default_tame _ 1 1 _ he le_rfl)
      | exact OrDelay.other (panOp (B := RProc) (M := RMsg) (σ := ℝ) (.register 11 (RProc.base (Proc.source (melody 1) 0)) 0 1 ⟨2, 2, 0⟩))
          (panOp (B := RProc) (M := RMsg) (σ := ℝ) (.register 11 (RProc.base (Proc.source (melody 2) 0)) 0 1 ⟨2, 2, 0⟩))
          (panOp (B := RProc) (M := RMsg) (σ := ℝ) (.register 11 (RProc.base (Proc.source (melody (1 + 2)) 0)) 0 1 ⟨2, 2, 0⟩))
          (OrPanner.other _ _ _ (SameButSources'.source _ _ _ _ _ _ _ he (melody_sum 1 2)))
  · simp [flight, PNew, RNew, default_tame]

theorem here_spatial : spatialAt defaultSettings herePars (itemOf herePars 0) = ⟨some 1, 1, 0, 0⟩ := by
  have a1 : herePars.src.at 0 = ⟨0, 0, 0⟩ := by simp [P3.at, herePars, cyc]
  have a2 : herePars.lis.at 0 = ⟨0, 0, 0⟩ := by simp [P3.at, herePars, cyc]
  have hi : itemOf herePars 0 = 0 := rfl
  unfold spatialAt
  rw [hi]
  simp only [a1, a2]
  rw [C65_degenerate _ _ _ _ (.inl (by simp [V3.sq, V3.sub, minPositive])), C64_omni _ (by norm_num [defaultSettings]) (by norm_num [defaultSettings])]
  have : distance ⟨0, 0, 0⟩ ⟨0, 0, 0⟩ = 0 := by simp [distance, V3.len, V3.sq, V3.sub]
  rw [this]
  simp [distGain, defaultSettings]

/-- C102 does not hold for a panner in mode `clamped-max`, the default. A panner at the place of the listener gets a sound of one channel and is
heard with `√2 / 2` of its level on either side. If a source of two channels joins in that plays only zeros (and is not heard alone), the sound
is mixed up to two channels and heard with its full level: panner.rs pans one channel and two channels by different rules (l.845-897). -/
theorem C102_negated_panner_clamped (H : Hrtf σ) : ∃ a b d,
    panned H 1 ⟨defaultSettings, none, 0⟩ herePars [some [1]] = some (⟨defaultSettings, none, 0⟩, a, false) ∧
    panned H 1 ⟨defaultSettings, none, 0⟩ herePars [some [0], some [0]] = some (⟨defaultSettings, none, 0⟩, b, false) ∧
    panned H 1 ⟨defaultSettings, none, 0⟩ herePars (addSig 1 (1 / 2) ⟨2, 1, 0⟩ [some [1]] [some [0], some [0]]) = some (⟨defaultSettings, none, 0⟩, d, false) ∧
    Node.sample a 0 0 = √2 / 2 ∧ Node.sample b 0 0 = 0 ∧ Node.sample d 0 0 = 1 := by
  have hadd : addSig 1 (1 / 2 : ℝ) ⟨2, 1, 0⟩ [some [1]] [some [0], some [0]] = [some [1], some [1]] := by
    have : addSig 1 (1 / 2 : ℝ) ⟨2, 1, 0⟩ [some [1]] [some [0], some [0]] = [some [1 + 0], some [1 + 0]] := rfl
    rw [this]; simp
  have hw : wrapAzimuth 0 = 0 := by norm_num [wrapAzimuth]
  rw [hadd]
  obtain ⟨a, a1, _, _, a4⟩ := panned_spec H (N := 1) (n := 1) (.inl rfl) (s := ⟨defaultSettings, none, 0⟩) rfl herePars (q := [some [1]]) (.inl rfl)
  obtain ⟨b, b1, _, _, b4⟩ := panned_spec H (N := 1) (n := 2) (.inr rfl) (s := ⟨defaultSettings, none, 0⟩) rfl herePars (q := [some [0], some [0]]) (.inl rfl)
  obtain ⟨d, d1, _, _, d4⟩ := panned_spec H (N := 1) (n := 2) (.inr rfl) (s := ⟨defaultSettings, none, 0⟩) rfl herePars (q := [some [1], some [1]]) (.inl rfl)
  refine ⟨a, b, d, a1, b1, d1, ?_, ?_, ?_⟩
  · rw [a4 0 0 Nat.one_pos, here_spatial]
    have : (90 : ℝ) / 180 * Real.pi / 2 = Real.pi / 4 := by ring
    simp [gainOut, monoGain, monoToStereo, hw, Node.sample]
    rw [this, Real.cos_pi_div_four]
  · rw [b4 0 0 Nat.one_pos, here_spatial]
    simp [gainOut, stereoGain, stereoToStereo, hw, Node.sample]
  · rw [d4 0 0 Nat.one_pos, here_spatial]
    simp [gainOut, stereoGain, stereoToStereo, hw, Node.sample]

/-! ### HRTF -/

/-- a convolution for examples: the samples of the quantum, one frame later, on both sides -/
noncomputable def lag : Hrtf ℝ :=
  ⟨fun st src g _ => (src.getLastD st, ((st :: src).take src.length).map fun x => (g.map (· * x), g.map (· * x)))⟩

/-- it is homogeneous -/
noncomputable def lag_homog (c : ℝ) : Homog lag c where
  act st := c * st
  step st src g d := by
    have h1 : (src.map (c * ·)).getLastD (c * st) = c * src.getLastD st := by
      rw [List.getLastD_eq_getLast?, List.getLastD_eq_getLast?, List.getLast?_map]
      cases src.getLast? <;> rfl
    simp only [lag, h1, List.length_map, Prod.mk.injEq, true_and]
    rw [← List.map_cons (f := (c * ·)), ← List.map_take, List.map_map, List.map_map]
    refine List.map_congr_left fun x _ => ?_
    cases g with
    | none => rfl
    | some g => simp [mul_left_comm]

/-- a source into a panner with HRTF, and to the destination -/
noncomputable def headphones (p : Nat → Sig ℝ × Bool) : List (Op (DProc (PProc RProc ℝ) ℝ) RMsg) :=
  [.acquire, .register 11 (.base (.base (.base (.source p 0)))) 0 1 ⟨2, 2, 0⟩,
   .acquire, .register 12 (.base (.panner ⟨defaultSettings, some (1, 0), 0⟩ (fun k => if k = 0 then herePars else movingPars) 0)) 1 1 ⟨2, 2, 0⟩,
   .connect ⟨11, 1, 0, 1⟩ ⟨12, 2, 1, 1⟩ 0 0, .connect ⟨12, 2, 1, 1⟩ ⟨0, 0, 1, 1⟩ 0 0,
   .recv, .recv, .recv, .recv, .quantum, .quantum, .quantum]

example : ∀ op ∈ headphones (melody 1), PNew (lag_homog 3).act op := by
  simp [headphones, PNew, RNew, default_tame, lag_homog]

/-- the outputs of a panner in successive quanta -/
noncomputable def pannedRun (H : Hrtf σ) (N : Nat) (p : Pars) : Renderer σ → List (Sig ℝ) → Option (List (Sig ℝ))
  | _, [] => some []
  | r, q :: qs => (panned H N r p q).bind fun o => (pannedRun H N p o.1 qs).map (o.2.1 :: ·)

/-- C102 does not hold with HRTF, even if the convolution is linear. The panner counts the quanta of silence over its whole life
(panner.rs l.696-710); once it has counted as many frames as the impulse responses have, the tail of a sound is cut off when the input becomes
silent. A source that plays zeros (and is not heard alone) makes the tail of the other one audible again. -/
theorem C102_negated_hrtf :
    pannedRun lag 1 herePars ⟨defaultSettings, some (1, 0), 0⟩ [[none], [some [1]], [none]] =
      some [[some [0], some [0]], [some [0], some [0]], [none]] ∧
    pannedRun lag 1 herePars ⟨defaultSettings, some (1, 0), 0⟩ [[none], [none], [some [0]]] =
      some [[some [0], some [0]], [none], [some [0], some [0]]] ∧
    pannedRun lag 1 herePars ⟨defaultSettings, some (1, 0), 0⟩ [[none], [some [1]], [some [0]]] =
      some [[some [0], some [0]], [some [0], some [0]], [some [1], some [1]]] := by
  have hsp : spatialAt defaultSettings herePars 0 = ⟨some 1, 1, 0, 0⟩ := here_spatial
  refine ⟨?_, ?_, ?_⟩ <;>
    simp [pannedRun, panned, Panner.process, hrtfBranch, hsp, lag, reals, Node.isSilent, Node.Chan.data]

end Verif.Engine
