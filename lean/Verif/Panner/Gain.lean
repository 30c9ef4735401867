import Verif.Panner.Geometry
import Mathlib.Analysis.SpecialFunctions.Pow.Real

/-!
# C63, C64: distance gain and cone gain of the panner

Models `PannerRenderer::dist_gain` and `cone_gain` (`/repo/src/node/panner.rs` l.926-986) over the reals. NaN, which
arises from 0/0, is `none`; infinite distances and rounding are not modelled.
-/

namespace Verif.Panner

open Real

/-- `DistanceModelType`, l.88-97 -/
inductive DistanceModel
  | linear
  | inverse
  | exponential
  deriving DecidableEq

/-- The attributes of the renderer, l.667-681 -/
structure Settings where
  model : DistanceModel
  ref : ℝ
  max : ℝ
  rolloff : ℝ
  inner : ℝ
  outer : ℝ
  outerGain : ℝ

/-- What the constructor and the setters accept, l.414-426, l.555-636. -/
structure Settings.Valid (s : Settings) : Prop where
  ref : 0 ≤ s.ref
  max : 0 < s.max
  rolloff : 0 ≤ s.rolloff
  outerGain : 0 ≤ s.outerGain ∧ s.outerGain ≤ 1

/-- `dist_gain`, l.955-985, at the distance `d` -/
noncomputable def distGain (s : Settings) (d : ℝ) : Option ℝ :=
  match s.model with
  | .linear =>
    let f := Max.max 0 (min s.rolloff 1)
    let d2ref := min s.ref s.max
    let d2max := Max.max s.ref s.max
    let dc := Max.max d2ref (min d d2max)
    -- the numerator is 0 as well
    if d2max - d2ref = 0 then none else some (1 - f * (dc - d2ref) / (d2max - d2ref))
  | .inverse =>
    let f := Max.max s.rolloff 0
    if d > 0 then
      let den := s.ref + f * (Max.max s.ref d - s.ref)
      -- the numerator is 0 as well
      if den = 0 then none else some (s.ref / den)
    else some 1
  | .exponential =>
    let f := Max.max s.rolloff 0
    if s.ref = 0 then
      -- `powf` of NaN or infinity
      if f = 0 then some 1 else if d = 0 then none else some 0
    else some ((Max.max d s.ref / s.ref) ^ (-f))

/-- `cone_gain`, l.927-953 -/
noncomputable def coneGain (s : Settings) (src ori lis : V3) : ℝ :=
  let inner := |s.inner| / 2
  let outer := |s.outer| / 2
  if inner ≥ 180 ∧ outer ≥ 180 then 1
  else
    let a := angle src ori lis
    if a < inner then 1
    else if a ≥ outer then s.outerGain
    else
      let x := (a - inner) / (outer - inner)
      (1 - x) + s.outerGain * x

/-! ## Distance -/

/-- Specification: the formulas of the Web Audio API for `distanceModel`. -/
noncomputable def w3cDistance (model : DistanceModel) (ref max rolloff d : ℝ) : ℝ :=
  match model with
  | .linear =>
    let f := if rolloff < 0 then 0 else if rolloff > 1 then 1 else rolloff
    let lo := if ref ≤ max then ref else max
    let hi := if ref ≤ max then max else ref
    if lo = hi then 1 - f
    else if d ≤ lo then 1
    else if d ≥ hi then 1 - f
    else 1 - f * ((d - lo) / (hi - lo))
  | .inverse =>
    if ref = 0 then 0 else if d ≤ ref then 1 else ref / (ref + rolloff * (d - ref))
  | .exponential =>
    if ref = 0 then 0 else if d ≤ ref then 1 else (ref / d) ^ rolloff

/-- C63: the gain is the one of the Web Audio API, except where `refDistance` is 0 or, for the linear model, equal to
`maxDistance`. -/
theorem C63_formula_partial (s : Settings) (hs : s.Valid) (hr : 0 < s.ref)
    (hl : s.model = .linear → s.ref ≠ s.max) (d : ℝ) (hd : 0 ≤ d) :
    distGain s d = some (w3cDistance s.model s.ref s.max s.rolloff d) := by
  have hf := hs.rolloff
  unfold distGain w3cDistance
  cases hm : s.model with
  | linear =>
    have hne := hl hm
    simp only
    have e1 : (if s.rolloff < 0 then 0 else if s.rolloff > 1 then 1 else s.rolloff) = Max.max 0 (min s.rolloff 1) := by
      rw [if_neg (not_lt.mpr hf), max_eq_right (le_min hf zero_le_one)]
      split
      · rename_i h; exact (min_eq_right h.le).symm
      · rename_i h; exact (min_eq_left (not_lt.mp h)).symm
    rw [e1]
    generalize Max.max 0 (min s.rolloff 1) = f
    have e2 : (if s.ref ≤ s.max then s.ref else s.max) = min s.ref s.max := (min_def _ _).symm
    have e3 : (if s.ref ≤ s.max then s.max else s.ref) = Max.max s.ref s.max := (max_def _ _).symm
    rw [e2, e3]
    have hlt : min s.ref s.max < Max.max s.ref s.max := by
      rcases lt_or_gt_of_ne hne with h | h
      · rw [min_eq_left h.le, max_eq_right h.le]; exact h
      · rw [min_eq_right h.le, max_eq_left h.le]; exact h
    generalize min s.ref s.max = lo at *
    generalize Max.max s.ref s.max = hi at *
    have hsub : hi - lo ≠ 0 := by linarith [hlt] |> fun h : 0 < hi - lo => h.ne'
    rw [if_neg hsub, if_neg hlt.ne]
    by_cases h1 : d ≤ lo
    · rw [if_pos h1, max_eq_left (le_trans (min_le_left _ _) h1)]
      simp
    · rw [if_neg h1]
      push Not at h1
      by_cases h2 : d ≥ hi
      · rw [if_pos h2, min_eq_right h2, max_eq_right hlt.le, mul_div_assoc, div_self hsub, mul_one]
      · rw [if_neg h2]
        push Not at h2
        rw [min_eq_left h2.le, max_eq_right h1.le, mul_div_assoc]
  | inverse =>
    simp only
    rw [if_neg hr.ne', max_eq_left hf]
    by_cases h0 : d > 0
    · rw [if_pos h0]
      by_cases h1 : d ≤ s.ref
      · rw [if_pos h1, max_eq_left h1]
        simp [hr.ne']
      · rw [if_neg h1]
        push Not at h1
        rw [max_eq_right h1.le]
        have : 0 < s.ref + s.rolloff * (d - s.ref) := by
          have := mul_nonneg hf (sub_nonneg.mpr h1.le)
          linarith
        rw [if_neg this.ne']
    · rw [if_neg h0, if_pos (le_trans (not_lt.mp h0) hr.le)]
  | exponential =>
    simp only
    rw [if_neg hr.ne', if_neg hr.ne', max_eq_left hf]
    by_cases h1 : d ≤ s.ref
    · rw [if_pos h1, max_eq_right h1, div_self hr.ne', one_rpow]
    · rw [if_neg h1]
      push Not at h1
      rw [max_eq_left h1.le, rpow_neg (by positivity), ← inv_rpow (by positivity), inv_div]

/-- The formulas of the specification give a gain between 0 and 1. -/
theorem w3cDistance_range (m : DistanceModel) {ref max rolloff d : ℝ} (hr : 0 ≤ ref) (hf : 0 ≤ rolloff) :
    0 ≤ w3cDistance m ref max rolloff d ∧ w3cDistance m ref max rolloff d ≤ 1 := by
  unfold w3cDistance
  cases m with
  | linear =>
    simp only
    have hfr : 0 ≤ (if rolloff < 0 then (0 : ℝ) else if rolloff > 1 then 1 else rolloff) ∧
        (if rolloff < 0 then (0 : ℝ) else if rolloff > 1 then 1 else rolloff) ≤ 1 := by
      rw [if_neg (not_lt.mpr hf)]
      split
      · norm_num
      · rename_i h; exact ⟨hf, not_lt.mp h⟩
    generalize (if rolloff < 0 then (0 : ℝ) else if rolloff > 1 then 1 else rolloff) = f at *
    generalize (if ref ≤ max then ref else max) = lo
    generalize (if ref ≤ max then max else ref) = hi
    split
    · constructor <;> linarith
    · split
      · norm_num
      · split
        · constructor <;> linarith
        · rename_i h1 h2 h3
          push Not at h2 h3
          have a : 0 ≤ (d - lo) / (hi - lo) := div_nonneg (by linarith) (by linarith)
          have b : (d - lo) / (hi - lo) ≤ 1 := by rw [div_le_one (by linarith)]; linarith
          constructor <;> nlinarith
  | inverse =>
    simp only
    split
    · norm_num
    · rename_i h0
      have hr : 0 < ref := lt_of_le_of_ne hr (Ne.symm h0)
      split
      · norm_num
      · rename_i h1
        push Not at h1
        have := mul_nonneg hf (sub_nonneg.mpr h1.le)
        exact ⟨by positivity, by rw [div_le_one (by linarith)]; linarith⟩
  | exponential =>
    simp only
    split
    · norm_num
    · rename_i h0
      have hr : 0 < ref := lt_of_le_of_ne hr (Ne.symm h0)
      split
      · norm_num
      · rename_i h1
        push Not at h1
        have hd : 0 < d := hr.trans h1
        refine ⟨by positivity, rpow_le_one (by positivity) ?_ hf⟩
        rw [div_le_one hd]; exact h1.le

/-- C63: the gain is between 0 and 1, whenever it is a number. -/
theorem C63_range (s : Settings) (hs : s.Valid) (d : ℝ) (hd : 0 ≤ d) (g : ℝ) (h : distGain s d = some g) :
    0 ≤ g ∧ g ≤ 1 := by
  have hf := hs.rolloff
  have hm := hs.max
  by_cases hr : s.ref = 0
  · unfold distGain at h
    cases hmo : s.model with
    | linear =>
      -- the reference is not needed
      have hl : s.model = .linear → s.ref ≠ s.max := fun _ => by rw [hr]; exact hm.ne
      simp only [hmo, hr] at h
      rw [min_eq_left hm.le, max_eq_right hm.le] at h
      have : ¬ s.max - 0 = 0 := by rw [sub_zero]; exact hm.ne'
      rw [if_neg this] at h
      injection h with h
      subst h
      have b0 : 0 ≤ Max.max 0 (min d s.max) := le_max_left _ _
      have b1 : Max.max 0 (min d s.max) ≤ s.max := max_le hm.le (min_le_right _ _)
      have f0 : 0 ≤ Max.max 0 (min s.rolloff 1) := le_max_left _ _
      have f1 : Max.max 0 (min s.rolloff 1) ≤ 1 := max_le zero_le_one (min_le_right _ _)
      rw [mul_div_assoc, sub_zero, sub_zero]
      have a : 0 ≤ Max.max 0 (min d s.max) / s.max := div_nonneg b0 hm.le
      have b : Max.max 0 (min d s.max) / s.max ≤ 1 := by rw [div_le_one hm]; exact b1
      constructor <;> nlinarith
    | inverse =>
      simp only [hmo, hr] at h
      split at h
      · split at h
        · cases h
        · injection h with h
          subst h
          simp
      · injection h with h
        subst h; norm_num
    | exponential =>
      simp only [hmo, hr, if_true] at h
      split at h
      · injection h with h; subst h; norm_num
      · split at h
        · cases h
        · injection h with h; subst h; norm_num
  · have hr' : 0 < s.ref := lt_of_le_of_ne hs.ref (Ne.symm hr)
    by_cases hl : s.model = .linear ∧ s.ref = s.max
    · unfold distGain at h
      simp only [hl.1, hl.2, min_self, max_self, sub_self, if_true] at h
      cases h
    · have := C63_formula_partial s hs hr' (fun h1 h2 => hl ⟨h1, h2⟩) d hd
      rw [this] at h
      injection h with h
      subst h
      exact w3cDistance_range _ hs.ref hf

/-- C63: a source does not get louder with distance. -/
theorem C63_antitone_partial (s : Settings) (hs : s.Valid) (hr : 0 < s.ref)
    (hl : s.model = .linear → s.ref ≠ s.max) (d e : ℝ) (hd : 0 ≤ d) (hde : d ≤ e) (g g' : ℝ)
    (h : distGain s d = some g) (h' : distGain s e = some g') : g' ≤ g := by
  rw [C63_formula_partial s hs hr hl d hd] at h
  rw [C63_formula_partial s hs hr hl e (hd.trans hde)] at h'
  injection h with h
  injection h' with h'
  have hf := hs.rolloff
  have rd := w3cDistance_range s.model (ref := s.ref) (max := s.max) (rolloff := s.rolloff) (d := d) hs.ref hf
  have re := w3cDistance_range s.model (ref := s.ref) (max := s.max) (rolloff := s.rolloff) (d := e) hs.ref hf
  subst h h'
  unfold w3cDistance at *
  cases hm : s.model with
  | linear =>
    simp only [hm] at *
    have hne := hl trivial
    have hfr : 0 ≤ (if s.rolloff < 0 then (0 : ℝ) else if s.rolloff > 1 then 1 else s.rolloff) := by
      rw [if_neg (not_lt.mpr hf)]
      split
      · norm_num
      · exact hf
    generalize (if s.rolloff < 0 then (0 : ℝ) else if s.rolloff > 1 then 1 else s.rolloff) = f at *
    generalize (if s.ref ≤ s.max then s.ref else s.max) = lo at *
    generalize (if s.ref ≤ s.max then s.max else s.ref) = hi at *
    by_cases hlh : lo = hi
    · simp [hlh]
    · rw [if_neg hlh, if_neg hlh] at *
      by_cases h1 : d ≤ lo
      · rw [if_pos h1]; exact re.2
      · rw [if_neg h1, if_neg (by linarith : ¬ e ≤ lo)] at *
        by_cases h2 : e ≥ hi
        · rw [if_pos h2] at *
          by_cases h3 : d ≥ hi
          · rw [if_pos h3]
          · rw [if_neg h3]
            push Not at h1 h3
            have b : (d - lo) / (hi - lo) ≤ 1 := by rw [div_le_one (by linarith)]; linarith
            nlinarith
        · rw [if_neg h2, if_neg (by linarith : ¬ d ≥ hi)]
          push Not at h1 h2
          have : (d - lo) / (hi - lo) ≤ (e - lo) / (hi - lo) := by
            apply div_le_div_of_nonneg_right <;> linarith
          nlinarith
  | inverse =>
    simp only [hm] at *
    rw [if_neg hr.ne', if_neg hr.ne'] at *
    by_cases h1 : d ≤ s.ref
    · rw [if_pos h1]; exact re.2
    · rw [if_neg h1, if_neg (by linarith : ¬ e ≤ s.ref)]
      push Not at h1
      have a := mul_nonneg hf (sub_nonneg.mpr h1.le)
      have b : s.rolloff * (d - s.ref) ≤ s.rolloff * (e - s.ref) := mul_le_mul_of_nonneg_left (by linarith) hf
      apply div_le_div_of_nonneg_left hr.le <;> linarith
  | exponential =>
    simp only [hm] at *
    rw [if_neg hr.ne', if_neg hr.ne'] at *
    by_cases h1 : d ≤ s.ref
    · rw [if_pos h1]; exact re.2
    · rw [if_neg h1, if_neg (by linarith : ¬ e ≤ s.ref)]
      push Not at h1
      have hd : 0 < d := hr.trans h1
      have he : 0 < e := hd.trans_le hde
      apply rpow_le_rpow (by positivity) _ hf
      apply div_le_div_of_nonneg_left hr.le hd hde

/-- C63: up to the reference distance the source has its full level. -/
theorem C63_full_partial (s : Settings) (hs : s.Valid) (hr : 0 < s.ref)
    (hl : s.model = .linear → s.ref ≠ s.max) (d : ℝ) (hd : 0 ≤ d) (h1 : d ≤ s.ref) (h2 : d ≤ s.max) :
    distGain s d = some 1 := by
  rw [C63_formula_partial s hs hr hl d hd]
  congr 1
  unfold w3cDistance
  cases hm : s.model with
  | linear =>
    simp only
    have hne := hl hm
    have hlo : d ≤ (if s.ref ≤ s.max then s.ref else s.max) := by split <;> assumption
    have : (if s.ref ≤ s.max then s.ref else s.max) ≠ (if s.ref ≤ s.max then s.max else s.ref) := by
      split
      · exact hne
      · exact hne.symm
    rw [if_neg this, if_pos hlo]
  | inverse => simp only; rw [if_neg hr.ne', if_pos h1]
  | exponential => simp only; rw [if_neg hr.ne', if_pos h1]

/-- C63 fails at the edges that the setters accept: the gain is NaN for a linear model with equal distances, for an
inverse model without reference and rolloff, and for an exponential model without reference at the listener. -/
theorem C63_negated_nan :
    (∃ s : Settings, s.Valid ∧ ∀ d, distGain s d = none) ∧
    (∃ s : Settings, s.Valid ∧ s.model = .inverse ∧ ∀ d > 0, distGain s d = none) ∧
    (∃ s : Settings, s.Valid ∧ s.model = .exponential ∧ distGain s 0 = none) := by
  refine ⟨⟨⟨.linear, 1, 1, 1, 360, 360, 0⟩, ⟨by norm_num, by norm_num, by norm_num, by norm_num⟩, ?_⟩,
    ⟨⟨.inverse, 0, 1, 0, 360, 360, 0⟩, ⟨by norm_num, by norm_num, by norm_num, by norm_num⟩, rfl, ?_⟩,
    ⟨⟨.exponential, 0, 1, 1, 360, 360, 0⟩, ⟨by norm_num, by norm_num, by norm_num, by norm_num⟩, rfl, ?_⟩⟩
  · intro d; simp [distGain]
  · intro d hd; simp only [distGain]; rw [if_pos hd]; simp
  · simp [distGain]

/-- C63: without reference distance a source at the place of the listener has full level in the inverse model, where
the specification has 0. -/
theorem C63_negated_ref :
    ∃ s : Settings, s.Valid ∧ distGain s 0 ≠ some (w3cDistance s.model s.ref s.max s.rolloff 0) := by
  refine ⟨⟨.inverse, 0, 10000, 1, 360, 360, 0⟩, ⟨by norm_num, by norm_num, by norm_num, by norm_num⟩, ?_⟩
  simp [distGain, w3cDistance]

/-- The default settings at distance 4: a quarter. -/
example : distGain ⟨.inverse, 1, 10000, 1, 360, 360, 0⟩ 4 = some (1 / 4) := by
  rw [C63_formula_partial _ ⟨by norm_num, by norm_num, by norm_num, by norm_num⟩ (by norm_num) (by simp) _ (by norm_num)]
  norm_num [w3cDistance]

/-! ## Cone -/

/-- Specification: the angle, in degrees, between the orientation of the source and the direction to the listener -/
noncomputable def offAxis (src ori lis : V3) : ℝ :=
  arccos ((lis.sub src).dot ori / ((lis.sub src).len * ori.len)) * 180 / π

/-- Specification: gain for an angle `a` off the axis; full in the inner cone, `outerGain` outside the outer cone, and
linear in between. -/
noncomputable def w3cCone (inner outer outerGain a : ℝ) : ℝ :=
  if 360 ≤ |inner| ∧ 360 ≤ |outer| then 1
  else if 2 * a < |inner| then 1
  else if |outer| ≤ 2 * a then outerGain
  else 1 + (outerGain - 1) * ((2 * a - |inner|) / (|outer| - |inner|))

theorem coneGain_eq (s : Settings) (src ori lis : V3) :
    coneGain s src ori lis = w3cCone s.inner s.outer s.outerGain (angle src ori lis) := by
  unfold coneGain w3cCone
  simp only
  generalize angle src ori lis = a
  by_cases h : |s.inner| / 2 ≥ 180 ∧ |s.outer| / 2 ≥ 180
  · rw [if_pos h, if_pos ⟨by linarith [h.1], by linarith [h.2]⟩]
  · have h' : ¬ (360 ≤ |s.inner| ∧ 360 ≤ |s.outer|) := fun hc => h ⟨by linarith [hc.1], by linarith [hc.2]⟩
    rw [if_neg h, if_neg h']
    by_cases h1 : a < |s.inner| / 2
    · rw [if_pos h1, if_pos (show 2 * a < |s.inner| by linarith)]
    · rw [if_neg h1, if_neg (show ¬ 2 * a < |s.inner| by linarith)]
      by_cases h2 : a ≥ |s.outer| / 2
      · rw [if_pos h2, if_pos (show |s.outer| ≤ 2 * a by linarith)]
      · rw [if_neg h2, if_neg (show ¬ |s.outer| ≤ 2 * a by linarith)]
        have : (a - |s.inner| / 2) / (|s.outer| / 2 - |s.inner| / 2) = (2 * a - |s.inner|) / (|s.outer| - |s.inner|) := by
          rw [show a - |s.inner| / 2 = (2 * a - |s.inner|) / 2 by ring,
            show |s.outer| / 2 - |s.inner| / 2 = (|s.outer| - |s.inner|) / 2 by ring]
          exact div_div_div_cancel_right₀ (by norm_num) _ _
        rw [this]; ring

/-- C64 with the wrong sign: the gain of the panner is the specified one for a source with the opposite orientation. -/
theorem C64_reversed_partial (s : Settings) (src ori lis : V3) (ho : ori.sq ≠ 0)
    (hd : minPositive < (src.sub lis).sq) :
    coneGain s src ori lis = w3cCone s.inner s.outer s.outerGain (offAxis src (ori.scale (-1)) lis) := by
  rw [coneGain_eq]
  congr 1
  unfold angle offAxis
  rw [if_neg ho]
  simp only
  rw [if_neg (not_le.mpr hd)]
  have e1 : (lis.sub src).len = (src.sub lis).len := by
    unfold V3.len; congr 1; simp only [V3.sq, V3.sub]; ring
  have e2 : (ori.scale (-1)).len = ori.len := by
    unfold V3.len; congr 1; simp only [V3.sq, V3.scale]; ring
  have e3 : (lis.sub src).dot (ori.scale (-1)) = (src.sub lis).dot ori := by
    simp only [V3.dot, V3.sub, V3.scale]; ring
  have e4 : (src.sub lis).normalized.dot ori.normalized = (src.sub lis).dot ori / ((src.sub lis).len * ori.len) := by
    simp only [V3.normalized, V3.dot, V3.scale]
    ring
  rw [e1, e2, e3, e4, abs_of_nonneg (by have := arccos_nonneg ((src.sub lis).dot ori / ((src.sub lis).len * ori.len)); positivity)]
  ring

/-- C64: the cone never amplifies and never attenuates below the outer gain. -/
theorem C64_range (s : Settings) (hs : s.Valid) (src ori lis : V3) :
    s.outerGain ≤ coneGain s src ori lis ∧ coneGain s src ori lis ≤ 1 := by
  rw [coneGain_eq]
  obtain ⟨h0, h1⟩ := hs.outerGain
  unfold w3cCone
  split
  · exact ⟨h1, le_refl _⟩
  · split
    · exact ⟨h1, le_refl _⟩
    · split
      · exact ⟨le_refl _, h1⟩
      · rename_i _ h2 h3
        push Not at h2 h3
        have a : 0 ≤ (2 * angle src ori lis - |s.inner|) / (|s.outer| - |s.inner|) := div_nonneg (by linarith) (by linarith)
        have b : (2 * angle src ori lis - |s.inner|) / (|s.outer| - |s.inner|) ≤ 1 := by
          rw [div_le_one (by linarith)]; linarith
        constructor <;> nlinarith

/-- C64: full angles, the default, switch the cone off whatever the orientation. -/
theorem C64_omni (s : Settings) (h1 : 360 ≤ |s.inner|) (h2 : 360 ≤ |s.outer|) (src ori lis : V3) :
    coneGain s src ori lis = 1 := by
  rw [coneGain_eq]; exact if_pos ⟨h1, h2⟩

/-- C64 fails: a source that points exactly at the listener is silent, and one that points exactly away has its full
level. The specification has it the other way round. -/
theorem C64_negated :
    ∃ (s : Settings) (src ori lis : V3), s.Valid ∧ offAxis src ori lis = 0 ∧
      w3cCone s.inner s.outer s.outerGain (offAxis src ori lis) = 1 ∧ coneGain s src ori lis = 0 ∧
      offAxis src (ori.scale (-1)) lis = 180 ∧ coneGain s src (ori.scale (-1)) lis = 1 := by
  have hp := pi_pos
  have l1 : (⟨1, 0, 0⟩ : V3).len = 1 := by simp [V3.len, V3.sq]
  have l2 : (⟨-1, 0, 0⟩ : V3).len = 1 := by simp [V3.len, V3.sq]
  have e1 : (⟨0, 0, 0⟩ : V3).sub ⟨-1, 0, 0⟩ = ⟨1, 0, 0⟩ := by ext <;> simp [V3.sub]
  have e2 : (⟨1, 0, 0⟩ : V3).scale (-1) = ⟨-1, 0, 0⟩ := by ext <;> simp [V3.scale]
  have e3 : (⟨-1, 0, 0⟩ : V3).scale (-1) = ⟨1, 0, 0⟩ := by ext <;> simp [V3.scale]
  have o1 : offAxis ⟨-1, 0, 0⟩ ⟨1, 0, 0⟩ ⟨0, 0, 0⟩ = 0 := by
    unfold offAxis; rw [e1, l1]; simp [V3.dot]
  have o2 : offAxis ⟨-1, 0, 0⟩ ⟨-1, 0, 0⟩ ⟨0, 0, 0⟩ = 180 := by
    unfold offAxis; rw [e1, l1, l2]; simp [V3.dot]
  have hd : minPositive < ((⟨-1, 0, 0⟩ : V3).sub ⟨0, 0, 0⟩).sq := by norm_num [V3.sq, V3.sub, minPositive]
  refine ⟨⟨.inverse, 1, 10000, 1, 60, 120, 0⟩, ⟨-1, 0, 0⟩, ⟨1, 0, 0⟩, ⟨0, 0, 0⟩,
    ⟨by norm_num, by norm_num, by norm_num, by norm_num⟩, o1, ?_, ?_, ?_, ?_⟩
  · rw [o1]; norm_num [w3cCone]
  · rw [C64_reversed_partial _ _ _ _ (by norm_num [V3.sq]) hd, e2, o2]; norm_num [w3cCone]
  · rw [e2, o2]
  · rw [e2, C64_reversed_partial _ _ _ _ (by norm_num [V3.sq]) hd, e3, o1]; norm_num [w3cCone]

/-- C64 fails without an orientation: a source that points nowhere has no cone, but with two angles 0 it is attenuated. -/
theorem C64_negated_no_orientation :
    ∃ (s : Settings) (src lis : V3), s.Valid ∧ coneGain s src ⟨0, 0, 0⟩ lis ≠ 1 := by
  refine ⟨⟨.inverse, 1, 10000, 1, 0, 0, 0⟩, ⟨1, 0, 0⟩, ⟨0, 0, 0⟩,
    ⟨by norm_num, by norm_num, by norm_num, by norm_num⟩, ?_⟩
  rw [coneGain_eq]
  norm_num [w3cCone, angle, V3.sq]

/-- C64: without an orientation there is no attenuation, if the inner angle is not 0. -/
theorem C64_no_orientation_partial (s : Settings) (h : s.inner ≠ 0) (src lis : V3) :
    coneGain s src ⟨0, 0, 0⟩ lis = 1 := by
  rw [coneGain_eq]
  have : angle src ⟨0, 0, 0⟩ lis = 0 := by simp [angle, V3.sq]
  rw [this]
  unfold w3cCone
  split
  · rfl
  · rw [if_pos (by rw [mul_zero]; exact abs_pos.mpr h)]

/-- Halfway between the cones the gain is halfway between 1 and the outer gain. -/
example : w3cCone 60 120 (1 / 2) 45 = 3 / 4 := by norm_num [w3cCone]

end Verif.Panner
