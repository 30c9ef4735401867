import Verif.Panner.Gain
import Verif.Node.Quantum
import Verif.Node.StereoPanner

/-!
# C65, C66, C67: the rendering of the panner

Models `PannerRenderer::process` with `apply_mono_to_stereo_gain` and `apply_stereo_to_stereo_gain`
(`/repo/src/node/panner.rs` l.686-904, l.988-1060) over the reals; a sample that is NaN is `none`. The HRTF convolution
of the crate `hrtf` is an arbitrary state machine `Hrtf`. `N` is the number of frames, 128 in the code. Every parameter
has one value for the quantum or one per frame (`cycle`, l.728-744).
-/

namespace Verif.Panner

open Real Verif.Node

/-- `SpatialParams`, l.659-665 -/
structure Spatial where
  dist : Option ℝ
  cone : ℝ
  az : ℝ
  el : ℝ

/-- clamp and wrap of the azimuth, l.996-1004 and l.1030-1038 -/
noncomputable def wrapAzimuth (az : ℝ) : ℝ :=
  let a := Max.max (-180) (min az 180)
  if a < -90 then -180 - a else if a > 90 then 180 - a else a

/-- `apply_mono_to_stereo_gain`, l.988-1014; NaN in the gain makes both samples NaN -/
noncomputable def monoToStereo (p : Spatial) (x : ℝ) : Option ℝ × Option ℝ :=
  let a := wrapAzimuth p.az
  let t := (a + 90) / 180
  let gl := cos (t * π / 2)
  let gr := sin (t * π / 2)
  (p.dist.map fun d => x * (gl * d * p.cone), p.dist.map fun d => x * (gr * d * p.cone))

/-- `apply_stereo_to_stereo_gain`, l.1016-1060 -/
noncomputable def stereoToStereo (p : Spatial) (il ir : ℝ) : Option ℝ × Option ℝ :=
  let a := wrapAzimuth p.az
  let t := if a ≤ 0 then (a + 90) / 90 else a / 90
  let gl := cos (t * π / 2)
  let gr := sin (t * π / 2)
  if a ≤ 0 then
    (p.dist.map fun d => (il + ir * gl) * d * p.cone, p.dist.map fun d => ir * gr * d * p.cone)
  else
    (p.dist.map fun d => il * gl * d * p.cone, p.dist.map fun d => (ir + il * gr) * d * p.cone)

/-- Three parameters -/
structure P3 where
  x : List ℝ
  y : List ℝ
  z : List ℝ

/-- item `i` of `values.iter().cycle()` -/
noncomputable def cyc (l : List ℝ) (i : Nat) : ℝ := l.getD (i % l.length) 0

/-- the vector of frame `i` -/
noncomputable def P3.at (p : P3) (i : Nat) : V3 := ⟨cyc p.x i, cyc p.y i, cyc p.z i⟩

/-- `len() == 1` for the three parameters -/
def P3.single (p : P3) : Bool := p.x.length == 1 && p.y.length == 1 && p.z.length == 1

/-- The parameters of the panner and of the listener, l.717-727. -/
structure Pars where
  src : P3
  ori : P3
  lis : P3
  fwd : P3
  up : P3

/-- item `i` of `a_rate_params`, l.728-779 -/
noncomputable def spatialAt (s : Settings) (p : Pars) (i : Nat) : Spatial :=
  let src := p.src.at i
  let lis := p.lis.at i
  let (az, el) := azimuthElevation src lis (p.fwd.at i) (p.up.at i)
  ⟨distGain s (distance src lis), coneGain s src (p.ori.at i) lis, az, el⟩

/-- `single_valued`, l.833-842: only the listener is looked at -/
def singleValued (p : Pars) : Bool := p.lis.single && p.fwd.single && p.up.single

/-- The index into `a_rate_params` that frame `f` uses, l.844-897. -/
def itemOf (p : Pars) (f : Nat) : Nat := if singleValued p then 0 else f

/-- `HrtfState::process`, l.239-271: the state, the samples, the gain and the direction give a state and the frames. -/
structure Hrtf (σ : Type) where
  step : σ → List ℝ → Option ℝ → V3 → σ × List (Option ℝ × Option ℝ)

/-- `PannerRenderer`, l.667-683; the HRTF state with the length of its impulse responses -/
structure Renderer (σ : Type) where
  set : Settings
  hrtf : Option (Nat × σ)
  counter : Nat

/-- the direction given to the HRTF, l.792-803 -/
noncomputable def direction (p : Spatial) : V3 :=
  let a := p.az * π / 180
  let e := p.el * π / 180
  let v : V3 := ⟨sin a * cos e, sin e, cos a * cos e⟩
  if |v.x| ≤ 1 / 10 ^ 6 ∧ |v.y| ≤ 1 / 10 ^ 6 ∧ |v.z| ≤ 1 / 10 ^ 6 then ⟨0, 0, 1⟩ else v

/-- the EqualPower branch, l.830-898; `none` is the panic of the other channel counts -/
noncomputable def equalPower (N : Nat) (s : Settings) (p : Pars) (input : Quantum ℝ) :
    Option (Quantum (Option ℝ)) :=
  match input with
  | [m] =>
    let o := fun f : Nat => monoToStereo (spatialAt s p (itemOf p f)) ((m.data N).getD f 0)
    some [some ((List.range N).map fun f => (o f).1), some ((List.range N).map fun f => (o f).2)]
  | [l, r] =>
    let o := fun f : Nat =>
      stereoToStereo (spatialAt s p (itemOf p f)) ((l.data N).getD f 0) ((r.data N).getD f 0)
    some [some ((List.range N).map fun f => (o f).1), some ((List.range N).map fun f => (o f).2)]
  | _ => none

/-- the HRTF branch, l.781-829: a stereo input is mixed to mono and doubled -/
noncomputable def hrtfBranch {σ : Type} (H : Hrtf σ) (N : Nat) (s : Settings) (p : Pars) (st : σ)
    (input : Quantum ℝ) : σ × Quantum (Option ℝ) :=
  let v := spatialAt s p 0
  let gain := v.dist.map fun d => v.cone * d
  let (source, corr) : List ℝ × ℝ := match input with
    | [l, r] => ((List.range N).map fun f => (1 / 2) * ((l.data N).getD f 0 + (r.data N).getD f 0), 2)
    | i => ((i.headD none).data N, 1)
  let (st', out) := H.step st source gain (direction v)
  (st', [some (out.map fun o => o.1.map (corr * ·)), some (out.map fun o => o.2.map (corr * ·))])

/-- `process`, l.686-904: the renderer, the output and whether the node is to be kept; `none` is a panic -/
noncomputable def process {σ : Type} (H : Hrtf σ) (N : Nat) (r : Renderer σ) (p : Pars) (input : Quantum ℝ) :
    Option (Renderer σ × Quantum (Option ℝ) × Bool) :=
  let tail := match r.hrtf with
    | none => false
    | some (len, _) => decide (len > r.counter)
  if isSilent input && !tail then some (r, [none], false)
  else
    let r := if isSilent input then { r with counter := r.counter + N } else r
    match r.hrtf with
    | some (len, st) =>
      let (st', out) := hrtfBranch H N r.set p st input
      some ({ r with hrtf := some (len, st') }, out, true)
    | none =>
      match equalPower N r.set p input with
      | none => none
      | some out => some (r, out, false)

/-! ## Panning -/

/-- Specification: `s` says how far the source is to the right (1) or to the left (-1) of the listener: the sine of its
direction in the horizontal plane of the listener. It is 0 without a direction. -/
inductive Lateral (src lis fwd up : V3) : ℝ → Prop
  | degenerate : (src.sub lis).sq ≤ minPositive ∨ (fwd.cross up).sq = 0 → Lateral src lis fwd up 0
  | pole (R F U : V3) : minPositive < (src.sub lis).sq → IsFrame fwd up R F U →
      (src.sub lis).dot R = 0 → (src.sub lis).dot F = 0 → Lateral src lis fwd up 0
  | side (R F U : V3) : minPositive < (src.sub lis).sq → IsFrame fwd up R F U →
      0 < (src.sub lis).dot R ^ 2 + (src.sub lis).dot F ^ 2 →
      Lateral src lis fwd up
        ((src.sub lis).dot R / √((src.sub lis).dot R ^ 2 + (src.sub lis).dot F ^ 2))

theorem Lateral.sin_az {src lis fwd up : V3} {s : ℝ} (h : Lateral src lis fwd up s) :
    sin (rad (azimuthElevation src lis fwd up).1) = s ∧
    -180 ≤ (azimuthElevation src lis fwd up).1 ∧ (azimuthElevation src lis fwd up).1 ≤ 180 := by
  cases h with
  | degenerate h => rw [C65_degenerate _ _ _ _ h]; simp [rad]
  | pole R F U hd hf h1 h2 =>
    have S := C65_spherical hf hd
    rw [S.pole h1 h2]; simp [rad]
  | side R F U hd hf hpos =>
    have S := C65_spherical hf hd
    generalize azimuthElevation src lis fwd up = q at S ⊢
    generalize src.sub lis = v at *
    refine ⟨?_, S.az_range⟩
    have hl : 0 ≤ v.len := Real.sqrt_nonneg _
    have hc : 0 ≤ cos (rad q.2) := by
      apply cos_nonneg_of_mem_Icc
      have hp := pi_pos
      have := S.el_range
      unfold rad
      constructor <;> nlinarith
    have e : √(v.dot R ^ 2 + v.dot F ^ 2) = v.len * cos (rad q.2) := by
      rw [S.right, S.front]
      rw [show (v.len * (cos (rad q.2) * sin (rad q.1))) ^ 2 + (v.len * (cos (rad q.2) * cos (rad q.1))) ^ 2
        = (v.len * cos (rad q.2)) ^ 2 * (sin (rad q.1) ^ 2 + cos (rad q.1) ^ 2) by ring, sin_sq_add_cos_sq, mul_one]
      exact sqrt_sq (by positivity)
    have hne : v.len * cos (rad q.2) ≠ 0 := by rw [← e]; exact (Real.sqrt_pos.mpr hpos).ne'
    rw [e, S.right, ← mul_assoc, mul_div_cancel_left₀ _ hne]

theorem wrap_spec {az : ℝ} (h1 : -180 ≤ az) (h2 : az ≤ 180) :
    sin (rad (wrapAzimuth az)) = sin (rad az) ∧ -90 ≤ wrapAzimuth az ∧ wrapAzimuth az ≤ 90 := by
  unfold wrapAzimuth
  simp only
  rw [min_eq_left h2, max_eq_right h1]
  split
  · refine ⟨?_, by linarith, by linarith⟩
    rw [show rad (-180 - az) = -(π + rad az) by unfold rad; ring, sin_neg, sin_add]
    simp
  · split
    · refine ⟨?_, by linarith, by linarith⟩
      rw [show rad (180 - az) = π - rad az by unfold rad; ring, sin_pi_sub]
    · exact ⟨rfl, by linarith, by linarith⟩

/-- the gains of a mono source: half angle formulas -/
theorem mono_gains {a : ℝ} (h1 : -90 ≤ a) (h2 : a ≤ 90) :
    cos ((a + 90) / 180 * π / 2) = √((1 - sin (rad a)) / 2) ∧
    sin ((a + 90) / 180 * π / 2) = √((1 + sin (rad a)) / 2) := by
  have hp := pi_pos
  have e : rad a = 2 * ((a + 90) / 180 * π / 2) - π / 2 := by unfold rad; ring
  have t0 : 0 ≤ (a + 90) / 180 * π / 2 := by
    have : 0 ≤ a + 90 := by linarith
    positivity
  have t1 : (a + 90) / 180 * π / 2 ≤ π / 2 := by
    have : (a + 90) / 180 ≤ 1 := by linarith
    nlinarith
  rw [e, sin_sub_pi_div_two, cos_two_mul]
  generalize (a + 90) / 180 * π / 2 = t at *
  constructor
  · rw [show (1 - -(2 * cos t ^ 2 - 1)) / 2 = cos t ^ 2 by ring, sqrt_sq]
    exact cos_nonneg_of_mem_Icc ⟨by linarith, t1⟩
  · rw [show (1 + -(2 * cos t ^ 2 - 1)) / 2 = 1 - cos t ^ 2 by ring, ← sin_sq, sqrt_sq]
    exact sin_nonneg_of_nonneg_of_le_pi t0 (by linarith)

/-- Specification: frame of a mono source at the lateral position `s` with the overall gain `g` -/
noncomputable def specMono (s g x : ℝ) : ℝ × ℝ := (x * √((1 - s) / 2) * g, x * √((1 + s) / 2) * g)

/-- Specification: frame of a stereo source; the far channel is moved over to the near side -/
noncomputable def specStereo (s g l r : ℝ) : ℝ × ℝ :=
  if s ≤ 0 then ((l + r * |s|) * g, r * √(1 - s ^ 2) * g)
  else (l * √(1 - s ^ 2) * g, (r + l * |s|) * g)

theorem monoToStereo_spec {src lis fwd up : V3} {s : ℝ} (h : Lateral src lis fwd up s) (d c el x : ℝ) :
    monoToStereo ⟨some d, c, (azimuthElevation src lis fwd up).1, el⟩ x
      = (some (specMono s (d * c) x).1, some (specMono s (d * c) x).2) := by
  obtain ⟨h0, h1, h2⟩ := h.sin_az
  obtain ⟨w0, w1, w2⟩ := wrap_spec h1 h2
  obtain ⟨g1, g2⟩ := mono_gains w1 w2
  unfold monoToStereo specMono
  simp only [g1, g2, w0, h0, Option.map_some]
  congr 2 <;> ring

theorem stereoToStereo_spec {src lis fwd up : V3} {s : ℝ} (h : Lateral src lis fwd up s) (d c el l r : ℝ) :
    stereoToStereo ⟨some d, c, (azimuthElevation src lis fwd up).1, el⟩ l r
      = (some (specStereo s (d * c) l r).1, some (specStereo s (d * c) l r).2) := by
  obtain ⟨h0, h1, h2⟩ := h.sin_az
  obtain ⟨w0, w1, w2⟩ := wrap_spec h1 h2
  rw [h0] at w0
  unfold stereoToStereo
  simp only [Option.map_some]
  generalize wrapAzimuth (azimuthElevation src lis fwd up).1 = a at *
  have hp := pi_pos
  have hcos : cos (rad a) = √(1 - s ^ 2) := by
    rw [← w0]
    refine (abs_of_nonneg ?_).symm.trans (abs_cos_eq_sqrt_one_sub_sin_sq _)
    apply cos_nonneg_of_mem_Icc
    unfold rad
    constructor <;> nlinarith
  unfold specStereo
  by_cases ha : a ≤ 0
  · have hs : s ≤ 0 := by
      rw [← w0]
      apply sin_nonpos_of_nonpos_of_neg_pi_le
      · unfold rad; nlinarith
      · unfold rad; nlinarith
    rw [if_pos ha, if_pos ha, if_pos hs]
    have e : (a + 90) / 90 * π / 2 = rad a + π / 2 := by unfold rad; ring
    rw [e, cos_add_pi_div_two, sin_add_pi_div_two, w0, hcos, abs_of_nonpos hs]
    simp only
    congr 2 <;> ring
  · have hs : ¬ s ≤ 0 := by
      rw [← w0, not_le]
      push Not at ha
      apply sin_pos_of_pos_of_lt_pi
      · unfold rad; positivity
      · unfold rad; nlinarith
    rw [if_neg ha, if_neg ha, if_neg hs]
    have e : a / 90 * π / 2 = rad a := by unfold rad; ring
    rw [e, w0, hcos, abs_of_pos (not_le.mp hs)]
    simp only
    congr 2 <;> ring

end Verif.Panner
