import Verif.Filter.BiquadModel
import Mathlib.Tactic.Linarith
import Mathlib.Tactic.FieldSimp
import Mathlib.Tactic.LinearCombination

/-!
# C43: stability and landmarks of the biquad coefficients
-/

namespace Verif.Filter

open Real

/-- Specification: both poles, the roots of `z^2 + a1 * z + a2`, are inside of the unit circle. -/
def PolesInside (k : Coefs) : Prop := ∀ z : ℂ, z ^ 2 + k.a1 * z + k.a2 = 0 → ‖z‖ < 1

/-- the stability triangle -/
def Stable (k : Coefs) : Prop := |k.a2| < 1 ∧ |k.a1| < 1 + k.a2

theorem Stable.poles {k : Coefs} (h : Stable k) : PolesInside k := by
  obtain ⟨h1, h2⟩ := h
  obtain ⟨h1a, h1b⟩ := abs_lt.1 h1
  obtain ⟨h2a, h2b⟩ := abs_lt.1 h2
  intro z hz
  have hre := congrArg Complex.re hz
  have him := congrArg Complex.im hz
  simp only [pow_two, Complex.add_re, Complex.mul_re, Complex.ofReal_re, Complex.ofReal_im, Complex.zero_re,
    Complex.add_im, Complex.mul_im, Complex.zero_im, zero_mul, sub_zero, add_zero] at hre him
  have hn : ‖z‖ ^ 2 = z.re * z.re + z.im * z.im := by
    rw [← Complex.normSq_eq_norm_sq]; rfl
  generalize z.re = x at *
  generalize z.im = y at *
  have hlt : x * x + y * y < 1 := by
    have hy : y * (2 * x + k.a1) = 0 := by linarith
    rcases mul_eq_zero.1 hy with hy | hx
    · -- a real pole
      subst hy
      simp only [mul_zero, sub_zero, add_zero] at hre ⊢
      by_contra hc
      have hc := not_lt.1 hc
      rcases le_or_gt 0 x with hx0 | hx0
      · have hx1 : 1 ≤ x := by nlinarith
        nlinarith [mul_nonneg (sub_nonneg.2 hx1) (sub_nonneg.2 hx1)]
      · have hx1 : x ≤ -1 := by nlinarith
        nlinarith
    · -- two conjugate poles: their product is `a2`
      have : x * x + y * y = k.a2 := by
        have : k.a1 = -2 * x := by linarith
        rw [this] at hre
        nlinarith
      rw [this]; exact h1b
  have : ‖z‖ ^ 2 < 1 := by rw [hn]; exact hlt
  have h0 := norm_nonneg z
  nlinarith

theorem normalize_stable {b0 b1 b2 a0 a1 a2 : ℝ} (h0 : 0 < a0) (h1 : |a2| < a0) (h2 : |a1| < a0 + a2) :
    Stable (normalize b0 b1 b2 a0 a1 a2) := by
  unfold normalize Stable
  have hi : 0 < 1 / a0 := by positivity
  constructor
  · simp only [abs_mul, abs_of_pos hi]
    rw [mul_one_div, div_lt_one h0]
    exact h1
  · simp only [abs_mul, abs_of_pos hi]
    rw [mul_one_div, mul_one_div, div_lt_iff₀ h0, add_mul, div_mul_cancel₀ _ (ne_of_gt h0), one_mul]
    exact h2

section
variable {freq : ℝ}

theorem sin_w0 (h0 : 0 < freq) (h1 : freq < 1) : 0 < sin (π * freq) := by
  have := pi_pos
  exact sin_pos_of_pos_of_lt_pi (by positivity) (by nlinarith)

theorem cos_w0 (h0 : 0 < freq) (h1 : freq < 1) : |cos (π * freq)| < 1 := by
  have hs := sin_w0 h0 h1
  have := sin_sq_add_cos_sq (π * freq)
  rw [abs_lt]
  constructor <;> nlinarith

theorem stable_q {b0 b1 b2 alpha c : ℝ} (ha : 0 < alpha) (hc : |c| < 1) :
    Stable (normalize b0 b1 b2 (1 + alpha) (-2 * c) (1 - alpha)) := by
  refine normalize_stable (by linarith) ?_ ?_
  · rw [abs_lt]; constructor <;> linarith
  · rw [abs_mul, abs_neg, abs_two]; linarith

theorem zero_stable (b0 : ℝ) : Stable ⟨b0, 0, 0, 0, 0⟩ := by simp [Stable]

theorem shelf_stable {b0 b1 b2 a0 a1 a2 A c t : ℝ} (hA : 0 < A) (hc : |c| < 1) (ht : 0 < t)
    (h0 : a0 = (A + 1) + (A - 1) * c + t) (h1 : |a1| = |2 * ((A - 1) + (A + 1) * c)|)
    (h2 : a2 = (A + 1) + (A - 1) * c - t) : Stable (normalize b0 b1 b2 a0 a1 a2) := by
  obtain ⟨c1, c2⟩ := abs_lt.1 hc
  have hu : 0 < A * (1 + c) := mul_pos hA (by linarith)
  have hv : 0 < 1 - c := by linarith
  have hp : (A + 1) + (A - 1) * c = A * (1 + c) + (1 - c) := by ring
  have hm : (A - 1) + (A + 1) * c = A * (1 + c) - (1 - c) := by ring
  rw [hp] at h0 h2
  rw [hm] at h1
  generalize A * (1 + c) = u at *
  generalize 1 - c = v at *
  refine normalize_stable (by linarith) ?_ ?_
  · rw [abs_lt]; constructor <;> linarith
  · rw [h1, abs_lt]; constructor <;> linarith

/-- C43: strictly between 0 and the Nyquist frequency all filter types are stable, for every quality factor and
gain. -/
theorem C43_stable (ty : FilterType) (sampleRate f0 gain q : ℝ) (h0 : 0 < f0 / (sampleRate / 2))
    (h1 : f0 / (sampleRate / 2) < 1) : Stable (calculateCoefs ty sampleRate f0 gain q) := by
  unfold calculateCoefs
  simp only
  rw [min_eq_right (le_of_lt h1), max_eq_right (le_of_lt h0)]
  generalize f0 / (sampleRate / 2) = freq at *
  have hs := sin_w0 h0 h1
  have hc := cos_w0 h0 h1
  have hne1 : ¬ freq = 1 := ne_of_lt h1
  have hne0 : ¬ freq = 0 := ne_of_gt h0
  have hA : (0 : ℝ) < 10 ^ (gain / 40) := by positivity
  have hQ : (0 : ℝ) < 10 ^ (q / 20) := by positivity
  have ht : 0 < 2 * (sin (π * freq) / 2 * √2) * √((10 : ℝ) ^ (gain / 40)) := by positivity
  cases ty with
  | lowpass =>
    simp only [lowpass, if_neg hne1]
    exact stable_q (by positivity) hc
  | highpass =>
    simp only [highpass, if_neg hne1, if_neg hne0]
    exact stable_q (by positivity) hc
  | bandpass =>
    simp only [bandpass, if_pos (And.intro h0 h1)]
    split
    · exact stable_q (by positivity) hc
    · exact zero_stable _
  | notch =>
    simp only [notch, if_pos (And.intro h0 h1)]
    split
    · exact stable_q (by positivity) hc
    · exact zero_stable _
  | allpass =>
    simp only [allpass, if_pos (And.intro h0 h1)]
    split
    · exact stable_q (by positivity) hc
    · exact zero_stable _
  | peaking =>
    simp only [peaking, if_pos (And.intro h0 h1)]
    split
    · exact stable_q (by positivity) hc
    · exact zero_stable _
  | lowshelf =>
    simp only [lowshelf, if_neg hne1, if_neg hne0]
    exact shelf_stable hA hc ht rfl (by rw [neg_mul, abs_neg]) rfl
  | highshelf =>
    simp only [highshelf, if_neg hne1, if_pos h0]
    refine shelf_stable hA (c := -cos (π * freq)) (by rwa [abs_neg]) ht (by ring) ?_ (by ring)
    congr 1
    ring

/-- C43: the same, in terms of the poles. -/
theorem C43_poles (ty : FilterType) (sampleRate f0 gain q : ℝ) (h0 : 0 < f0 / (sampleRate / 2))
    (h1 : f0 / (sampleRate / 2) < 1) : PolesInside (calculateCoefs ty sampleRate f0 gain q) :=
  (C43_stable ty sampleRate f0 gain q h0 h1).poles

example : PolesInside (calculateCoefs .lowshelf 48000 440 (-12) 1) :=
  C43_poles _ _ _ _ _ (by norm_num) (by norm_num)

/-- At the ends all filters but the lowpass at zero have no poles: they are constant gains. -/
theorem C43_ends (ty : FilterType) (sampleRate f0 gain q : ℝ)
    (h : (f0 / (sampleRate / 2) ≤ 0 ∧ ty ≠ .lowpass) ∨ 1 ≤ f0 / (sampleRate / 2)) :
    ∃ b0, calculateCoefs ty sampleRate f0 gain q = ⟨b0, 0, 0, 0, 0⟩ := by
  unfold calculateCoefs
  simp only
  rcases h with ⟨h, hty⟩ | h
  · have e : max 0 (min 1 (f0 / (sampleRate / 2))) = 0 := max_eq_left (le_trans (min_le_right _ _) h)
    rw [e]
    cases ty with
    | lowpass => exact absurd rfl hty
    | highpass => exact ⟨1, by simp [highpass]⟩
    | bandpass => exact ⟨0, by simp [bandpass]⟩
    | notch => exact ⟨1, by simp [notch]⟩
    | allpass => exact ⟨1, by simp [allpass]⟩
    | peaking => exact ⟨1, by simp [peaking]⟩
    | lowshelf => exact ⟨1, by simp [lowshelf]⟩
    | highshelf => exact ⟨10 ^ (gain / 40) * 10 ^ (gain / 40), by simp [highshelf]⟩
  · have e : max 0 (min 1 (f0 / (sampleRate / 2))) = 1 := by
      rw [min_eq_left h]; exact max_eq_right (by norm_num)
    rw [e]
    cases ty with
    | lowpass => exact ⟨1, by simp [lowpass]⟩
    | highpass => exact ⟨0, by simp [highpass]⟩
    | bandpass => exact ⟨0, by simp [bandpass]⟩
    | notch => exact ⟨1, by simp [notch]⟩
    | allpass => exact ⟨1, by simp [allpass]⟩
    | peaking => exact ⟨1, by simp [peaking]⟩
    | lowshelf => exact ⟨10 ^ (gain / 40) * 10 ^ (gain / 40), by simp [lowshelf]⟩
    | highshelf => exact ⟨1, by simp [highshelf]⟩

/-- C43 is false for the lowpass at frequency 0: it has a double pole on the unit circle, for every quality factor
and sample rate. -/
theorem C43_negated_lowpass_zero (sampleRate gain q : ℝ) :
    calculateCoefs .lowpass sampleRate 0 gain q = ⟨0, 0, 0, -2, 1⟩ ∧
    ¬ PolesInside (calculateCoefs .lowpass sampleRate 0 gain q) := by
  have e : calculateCoefs .lowpass sampleRate 0 gain q = ⟨0, 0, 0, -2, 1⟩ := by
    unfold calculateCoefs
    simp [lowpass, normalize]
  refine ⟨e, fun h => ?_⟩
  rw [e] at h
  have := h 1 (by norm_num)
  norm_num at this

end

/-! ### landmarks of the frequency response -/

section
variable {freq : ℝ}

/-- the point on the unit circle -/
noncomputable def zc (w : ℝ) : ℂ := Complex.exp (-(w : ℂ) * Complex.I)

theorem zc_zero : zc 0 = 1 := by simp [zc]

theorem zc_pi : zc π = -1 := by
  unfold zc
  rw [neg_mul, Complex.exp_neg, Complex.exp_pi_mul_I]
  norm_num

theorem zc_re_im (w : ℝ) : zc w = cos w - sin w * Complex.I := by
  unfold zc
  rw [Complex.exp_mul_I, Complex.cos_neg, Complex.sin_neg, Complex.ofReal_cos, Complex.ofReal_sin]
  ring

theorem zc_quad (w : ℝ) : zc w ^ 2 - 2 * cos w * zc w + 1 = 0 := by
  have h : (cos w : ℂ) ^ 2 + (sin w : ℂ) ^ 2 = 1 := by
    have := cos_sq_add_sin_sq w
    exact_mod_cast this
  rw [zc_re_im]
  have hi := Complex.I_sq
  linear_combination (sin w : ℂ) ^ 2 * hi - h

theorem zc_ne (w : ℝ) : zc w ≠ 0 := Complex.exp_ne_zero _

theorem zc_norm (w : ℝ) : ‖zc w‖ = 1 := by
  unfold zc
  have : -(w : ℂ) = ((-w : ℝ) : ℂ) := by push_cast; rfl
  rw [this]
  exact Complex.norm_exp_ofReal_mul_I _

theorem zc_one_sub (w : ℝ) : 1 - zc w ^ 2 = 2 * sin w * Complex.I * zc w := by
  have h := zc_quad w
  have hzr := zc_re_im w
  -- `1 - z^2 = 2 * (cos w - z) * z` and `cos w - z = sin w * I`
  have e : (sin w : ℂ) * Complex.I = cos w - zc w := by rw [hzr]; ring
  linear_combination h - 2 * zc w * e

theorem zc_sq_ne {w : ℝ} (h : sin w ≠ 0) : 1 - zc w ^ 2 ≠ 0 := by
  rw [zc_one_sub]
  have : (sin w : ℂ) ≠ 0 := by exact_mod_cast h
  exact mul_ne_zero (mul_ne_zero (mul_ne_zero two_ne_zero this) Complex.I_ne_zero) (zc_ne w)

theorem response_norm (b0 b1 b2 a0 a1 a2 w : ℝ) (h0 : a0 ≠ 0) :
    response (normalize b0 b1 b2 a0 a1 a2) w =
      (b0 + b1 * zc w + b2 * zc w ^ 2) / (a0 + a1 * zc w + a2 * zc w ^ 2) := by
  have hc : (a0 : ℂ) ≠ 0 := by exact_mod_cast h0
  unfold response normalize
  simp only
  change ((((b0 * (1 / a0) : ℝ) : ℂ)) + (((b1 * (1 / a0) : ℝ) : ℂ) + ((b2 * (1 / a0) : ℝ) : ℂ) * zc w) * zc w) /
    (1 + (((a1 * (1 / a0) : ℝ) : ℂ) + ((a2 * (1 / a0) : ℝ) : ℂ) * zc w) * zc w) = _
  push_cast
  have hn : ((b0 : ℂ) * (1 / a0) + (b1 * (1 / a0) + b2 * (1 / a0) * zc w) * zc w) =
      (1 / a0) * (b0 + b1 * zc w + b2 * zc w ^ 2) := by ring
  have hd : ((1 : ℂ) + (a1 * (1 / a0) + a2 * (1 / a0) * zc w) * zc w) =
      (1 / a0) * (a0 + a1 * zc w + a2 * zc w ^ 2) := by
    field_simp
    ring
  rw [hn, hd, mul_div_mul_left _ _ (by simpa using hc)]

theorem response_const (b0 w : ℝ) : response ⟨b0, 0, 0, 0, 0⟩ w = b0 := by simp [response]

/-- what is known of the point at the cutoff frequency -/
theorem ratio_norm {s c α : ℝ} {z n d : ℂ} (hz : ‖z‖ = 1) (hs : 0 < s) (hα : 0 < α) (hsc : s ^ 2 + c ^ 2 = 1)
    (hn : n = (1 - c) * (1 + c) * z ∨ n = -((1 - c) * (1 + c) * z)) (hd : d = α * (2 * s * Complex.I * z)) : ‖n / d‖ = s / (2 * α) := by
  have e : ((1 : ℂ) - c) * (1 + c) = ((s ^ 2 : ℝ) : ℂ) := by
    rw [← sub_eq_zero]
    push_cast
    have : (s : ℂ) ^ 2 + (c : ℂ) ^ 2 = 1 := by exact_mod_cast hsc
    linear_combination -this
  have hn' : ‖n‖ = ‖((1 : ℂ) - c) * (1 + c) * z‖ := by
    rcases hn with hn | hn
    · rw [hn]
    · rw [hn, norm_neg]
  rw [norm_div, hn', hd, e, norm_mul, norm_mul, norm_mul, norm_mul, norm_mul, hz, Complex.norm_I, Complex.norm_real,
    Complex.norm_real, Complex.norm_real, Complex.norm_two, Real.norm_of_nonneg (by positivity),
    Real.norm_of_nonneg (le_of_lt hs), Real.norm_of_nonneg (le_of_lt hα)]
  field_simp

/-- C43, lowpass: gain 1 at zero, 0 at the Nyquist frequency, and the quality factor in dB is the gain at the cutoff
frequency. -/
theorem C43_lowpass (q : ℝ) (h0 : 0 < freq) (h1 : freq < 1) :
    response (lowpass freq q) 0 = 1 ∧ response (lowpass freq q) π = 0 ∧
    ‖response (lowpass freq q) (π * freq)‖ = 10 ^ (q / 20) := by
  have hs := sin_w0 h0 h1
  obtain ⟨c1, c2⟩ := abs_lt.1 (cos_w0 h0 h1)
  have hQ : (0 : ℝ) < 10 ^ (q / 20) := by positivity
  have hal : 0 < sin (π * freq) / (2 * (10 : ℝ) ^ (q / 20)) := by positivity
  have hz := zc_quad (π * freq)
  have hsc := sin_sq_add_cos_sq (π * freq)
  have h1z := zc_one_sub (π * freq)
  simp only [lowpass, if_neg (ne_of_lt h1)]
  rw [response_norm _ _ _ _ _ _ _ (by positivity), response_norm _ _ _ _ _ _ _ (by positivity),
    response_norm _ _ _ _ _ _ _ (by positivity), zc_zero, zc_pi]
  have hcc : (1 : ℂ) - cos (π * freq) ≠ 0 := by
    have : (1 : ℝ) - cos (π * freq) ≠ 0 := by linarith
    exact_mod_cast this
  refine ⟨?_, ?_, ?_⟩
  · push_cast
    rw [div_eq_one_iff_eq]
    · ring
    · have e : ∀ α c : ℂ, (1 : ℂ) + α + -2 * c * 1 + (1 - α) * 1 ^ 2 = 2 * (1 - c) := by intro α c; ring
      rw [e]
      push_cast at hcc
      exact mul_ne_zero two_ne_zero hcc
  · push_cast
    have e : ∀ c : ℂ, (1 - c) / 2 + 2 * ((1 - c) / 2) * -1 + (1 - c) / 2 * (-1) ^ 2 = 0 := by intro c; ring
    rw [e, zero_div]
  · rw [ratio_norm (zc_norm _) hs hal hsc]
    · field_simp
    · left
      push_cast
      push_cast at hz
      linear_combination (1 - Complex.cos (π * freq)) / 2 * hz
    · rw [← h1z]
      push_cast
      push_cast at hz
      linear_combination hz

/-- C43, highpass: gain 0 at zero, 1 at the Nyquist frequency, and the quality factor in dB is the gain at the cutoff
frequency. -/
theorem C43_highpass (q : ℝ) (h0 : 0 < freq) (h1 : freq < 1) :
    response (highpass freq q) 0 = 0 ∧ response (highpass freq q) π = 1 ∧
    ‖response (highpass freq q) (π * freq)‖ = 10 ^ (q / 20) := by
  have hs := sin_w0 h0 h1
  obtain ⟨c1, c2⟩ := abs_lt.1 (cos_w0 h0 h1)
  have hQ : (0 : ℝ) < 10 ^ (q / 20) := by positivity
  have hal : 0 < sin (π * freq) / (2 * (10 : ℝ) ^ (q / 20)) := by positivity
  have hz := zc_quad (π * freq)
  have hsc := sin_sq_add_cos_sq (π * freq)
  have h1z := zc_one_sub (π * freq)
  simp only [highpass, if_neg (ne_of_lt h1), if_neg (ne_of_gt h0)]
  rw [response_norm _ _ _ _ _ _ _ (by positivity), response_norm _ _ _ _ _ _ _ (by positivity),
    response_norm _ _ _ _ _ _ _ (by positivity), zc_zero, zc_pi]
  have hcc : (1 : ℂ) + cos (π * freq) ≠ 0 := by
    have : (1 : ℝ) + cos (π * freq) ≠ 0 := by linarith
    exact_mod_cast this
  refine ⟨?_, ?_, ?_⟩
  · push_cast
    have e : ∀ c : ℂ, (1 + c) / 2 + -2 * ((1 + c) / 2) * 1 + (1 + c) / 2 * 1 ^ 2 = 0 := by intro c; ring
    rw [e, zero_div]
  · push_cast
    rw [div_eq_one_iff_eq]
    · ring
    · have e : ∀ α c : ℂ, (1 : ℂ) + α + -2 * c * -1 + (1 - α) * (-1) ^ 2 = 2 * (1 + c) := by intro α c; ring
      rw [e]
      push_cast at hcc
      exact mul_ne_zero two_ne_zero hcc
  · rw [ratio_norm (zc_norm _) hs hal hsc]
    · field_simp
    · right
      push_cast
      push_cast at hz
      linear_combination (1 + Complex.cos (π * freq)) / 2 * hz
    · rw [← h1z]
      push_cast
      push_cast at hz
      linear_combination hz

/-- the values of a quotient with denominator `1 + α - 2 * c * z + (1 - α) * z^2` at the three landmarks -/
theorem landmarks {b0 b1 b2 α : ℝ} (h0 : 0 < freq) (h1 : freq < 1) (hα : 0 < α) :
    let k := normalize b0 b1 b2 (1 + α) (-2 * cos (π * freq)) (1 - α)
    response k 0 = (((b0 + b1 + b2) / (2 * (1 - cos (π * freq))) : ℝ) : ℂ) ∧
    response k π = (((b0 - b1 + b2) / (2 * (1 + cos (π * freq))) : ℝ) : ℂ) ∧
    response k (π * freq) = (b0 + b1 * zc (π * freq) + b2 * zc (π * freq) ^ 2) / (α * (1 - zc (π * freq) ^ 2)) := by
  have hz := zc_quad (π * freq)
  intro k
  have ha0 : 1 + α ≠ 0 := by positivity
  rw [response_norm _ _ _ _ _ _ _ ha0, response_norm _ _ _ _ _ _ _ ha0, response_norm _ _ _ _ _ _ _ ha0, zc_zero,
    zc_pi]
  refine ⟨?_, ?_, ?_⟩
  · push_cast
    congr 1 <;> ring
  · push_cast
    congr 1 <;> ring
  · congr 1
    push_cast
    push_cast at hz
    linear_combination hz

theorem alpha_pos {q : ℝ} (h0 : 0 < freq) (h1 : freq < 1) (hq : 0 < q) : 0 < sin (π * freq) / (2 * q) := by
  have := sin_w0 h0 h1
  positivity

/-- C43, bandpass: gain 0 at both ends, 1 at the centre. -/
theorem C43_bandpass {q : ℝ} (h0 : 0 < freq) (h1 : freq < 1) (hq : 0 < q) :
    response (bandpass freq q) 0 = 0 ∧ response (bandpass freq q) π = 0 ∧
    response (bandpass freq q) (π * freq) = 1 := by
  have hα := alpha_pos h0 h1 hq
  have hs := zc_sq_ne (ne_of_gt (sin_w0 h0 h1))
  simp only [bandpass, if_pos (And.intro h0 h1), if_pos hq]
  obtain ⟨e1, e2, e3⟩ := landmarks (b0 := sin (π * freq) / (2 * q)) (b1 := 0) (b2 := -(sin (π * freq) / (2 * q)))
    h0 h1 hα
  refine ⟨by rw [e1]; simp, by rw [e2]; simp, ?_⟩
  rw [e3]
  have hα' : ((sin (π * freq) / (2 * q) : ℝ) : ℂ) ≠ 0 := by exact_mod_cast ne_of_gt hα
  rw [div_eq_one_iff_eq (mul_ne_zero hα' hs)]
  push_cast
  ring

/-- C43, notch: gain 1 at both ends, 0 at the centre. -/
theorem C43_notch {q : ℝ} (h0 : 0 < freq) (h1 : freq < 1) (hq : 0 < q) :
    response (notch freq q) 0 = 1 ∧ response (notch freq q) π = 1 ∧ response (notch freq q) (π * freq) = 0 := by
  have hα := alpha_pos h0 h1 hq
  obtain ⟨c1, c2⟩ := abs_lt.1 (cos_w0 h0 h1)
  have hz := zc_quad (π * freq)
  simp only [notch, if_pos (And.intro h0 h1), if_pos hq]
  obtain ⟨e1, e2, e3⟩ := landmarks (b0 := 1) (b1 := -2 * cos (π * freq)) (b2 := 1) h0 h1 hα
  refine ⟨?_, ?_, ?_⟩
  · rw [e1]
    rw [div_eq_one_iff_eq (by linarith) |>.2 (by ring), Complex.ofReal_one]
  · rw [e2]
    rw [div_eq_one_iff_eq (by linarith) |>.2 (by ring), Complex.ofReal_one]
  · rw [e3]
    have : ((1 : ℝ) : ℂ) + ((-2 * cos (π * freq) : ℝ) : ℂ) * zc (π * freq) + ((1 : ℝ) : ℂ) * zc (π * freq) ^ 2 = 0 := by
      push_cast
      push_cast at hz
      linear_combination hz
    rw [this, zero_div]

/-- C43, peaking: gain 1 at both ends, the gain in dB at the centre. -/
theorem C43_peaking {q gain : ℝ} (h0 : 0 < freq) (h1 : freq < 1) (hq : 0 < q) :
    response (peaking freq q gain) 0 = 1 ∧ response (peaking freq q gain) π = 1 ∧
    response (peaking freq q gain) (π * freq) = (((10 : ℝ) ^ (gain / 20) : ℝ) : ℂ) := by
  have hα := alpha_pos h0 h1 hq
  have hA : (0 : ℝ) < 10 ^ (gain / 40) := by positivity
  have hAA : (10 : ℝ) ^ (gain / 20) = 10 ^ (gain / 40) * 10 ^ (gain / 40) := by
    rw [← Real.rpow_add (by norm_num)]
    congr 1
    ring
  obtain ⟨c1, c2⟩ := abs_lt.1 (cos_w0 h0 h1)
  have hz := zc_quad (π * freq)
  have hs := zc_sq_ne (ne_of_gt (sin_w0 h0 h1))
  simp only [peaking, if_pos (And.intro h0 h1), if_pos hq]
  rw [hAA]
  generalize (10 : ℝ) ^ (gain / 40) = A at *
  generalize sin (π * freq) / (2 * q) = α at *
  obtain ⟨e1, e2, e3⟩ := landmarks (b0 := 1 + α * A) (b1 := -2 * cos (π * freq)) (b2 := 1 - α * A) h0 h1
    (show 0 < α / A by positivity)
  refine ⟨?_, ?_, ?_⟩
  · rw [e1]
    rw [div_eq_one_iff_eq (by linarith) |>.2 (by ring), Complex.ofReal_one]
  · rw [e2]
    rw [div_eq_one_iff_eq (by linarith) |>.2 (by ring), Complex.ofReal_one]
  · rw [e3]
    have hα' : (α : ℂ) ≠ 0 := by exact_mod_cast ne_of_gt hα
    have hA' : (A : ℂ) ≠ 0 := by exact_mod_cast ne_of_gt hA
    have : ((1 + α * A : ℝ) : ℂ) + ((-2 * cos (π * freq) : ℝ) : ℂ) * zc (π * freq) + ((1 - α * A : ℝ) : ℂ) *
        zc (π * freq) ^ 2 = α * A * (1 - zc (π * freq) ^ 2) := by
      push_cast
      push_cast at hz
      linear_combination hz
    rw [this]
    push_cast
    field_simp

/-- on the unit circle a stable filter has no pole -/
theorem PolesInside.ne {k : Coefs} (h : PolesInside k) (w : ℝ) : 1 + (k.a1 + k.a2 * zc w) * zc w ≠ 0 := by
  intro hc
  have hz := zc_ne w
  have := h (zc w)⁻¹ (by
    field_simp
    linear_combination hc)
  rw [norm_inv, zc_norm] at this
  norm_num at this

/-- C43, allpass: gain 1 at all frequencies. -/
theorem C43_allpass {q : ℝ} (freq w : ℝ) : ‖response (allpass freq q) w‖ = 1 := by
  unfold allpass
  split
  · rename_i hf
    obtain ⟨h0, h1⟩ := hf
    split
    · rename_i hq
      have hα := alpha_pos h0 h1 hq
      simp only
      have hst := (stable_q (b0 := 1 - sin (π * freq) / (2 * q)) (b1 := -2 * cos (π * freq))
        (b2 := 1 + sin (π * freq) / (2 * q)) hα (cos_w0 h0 h1)).poles.ne w
      generalize hk : sin (π * freq) / (2 * q) = α at *
      generalize cos (π * freq) = c at *
      have ha0 : (1 + α) ≠ 0 := by positivity
      have ha0' : (1 + (α : ℂ)) ≠ 0 := by exact_mod_cast ha0
      rw [response_norm _ _ _ _ _ _ _ ha0]
      have hd : ((1 + α : ℝ) : ℂ) + ((-2 * c : ℝ) : ℂ) * zc w + ((1 - α : ℝ) : ℂ) * zc w ^ 2 ≠ 0 := by
        intro hc
        apply hst
        simp only [normalize]
        push_cast at hc ⊢
        field_simp
        linear_combination hc
      have hzz : zc w * (starRingEnd ℂ) (zc w) = 1 := by
        rw [Complex.mul_conj, Complex.normSq_eq_norm_sq, zc_norm]; simp
      have hn : ((1 - α : ℝ) : ℂ) + ((-2 * c : ℝ) : ℂ) * zc w + ((1 + α : ℝ) : ℂ) * zc w ^ 2 =
          zc w ^ 2 * (starRingEnd ℂ) (((1 + α : ℝ) : ℂ) + ((-2 * c : ℝ) : ℂ) * zc w + ((1 - α : ℝ) : ℂ) * zc w ^ 2) := by
        simp only [map_add, map_mul, map_pow, Complex.conj_ofReal]
        linear_combination (-((-2 * c : ℝ) : ℂ) * zc w - ((1 - α : ℝ) : ℂ) * (zc w * (starRingEnd ℂ) (zc w) + 1)) * hzz
      rw [norm_div, hn, norm_mul, norm_pow, zc_norm, RCLike.norm_conj, one_pow, one_mul, div_self]
      exact norm_ne_zero_iff.2 hd
    · rw [response_const]; simp
  · rw [response_const]; simp

theorem gain_sq (gain : ℝ) : (10 : ℝ) ^ (gain / 20) = 10 ^ (gain / 40) * 10 ^ (gain / 40) := by
  rw [← Real.rpow_add (by norm_num)]
  congr 1
  ring

theorem shelf_pos {A c t : ℝ} (hA : 0 < A) (hc : |c| < 1) (ht : 0 < t) : (A + 1) + (A - 1) * c + t ≠ 0 := by
  obtain ⟨c1, c2⟩ := abs_lt.1 hc
  have : 0 < A * (1 + c) := mul_pos hA (by linarith)
  have e : (A + 1) + (A - 1) * c + t = A * (1 + c) + (1 - c) + t := by ring
  rw [e]
  have : (0 : ℝ) < 1 - c := by linarith
  positivity

theorem shelf_t {gain : ℝ} (h0 : 0 < freq) (h1 : freq < 1) :
    0 < 2 * (sin (π * freq) / 2 * √2) * √((10 : ℝ) ^ (gain / 40)) := by
  have := sin_w0 h0 h1
  positivity

/-- both shelves at their corner frequency -/
theorem shelf_corner {A m p s c t : ℝ} {z n d : ℂ} (hz : ‖z‖ = 1) (hA : 0 < A) (hs : 0 < s) (ht : 0 < t)
    (hn : n = A * (2 * z * s * (m * s + t * Complex.I))) (hd : d = 2 * z * s * (-(m * s) + t * Complex.I)) :
    ‖n / d‖ = A := by
  have e : ‖-((m : ℂ) * s) + t * Complex.I‖ = ‖(m : ℂ) * s + t * Complex.I‖ := by
    have h := RCLike.norm_conj (K := ℂ) ((m : ℂ) * s + t * Complex.I)
    rw [← norm_neg, ← h]
    congr 1
    simp only [map_add, map_mul, Complex.conj_ofReal, Complex.conj_I]
    ring
  have hne : ‖(m : ℂ) * s + t * Complex.I‖ ≠ 0 := by
    rw [norm_ne_zero_iff]
    intro hc
    have := congrArg Complex.im hc
    simp at this
    linarith
  rw [hn, hd, norm_div, norm_mul, norm_mul, norm_mul (2 * z * (s : ℂ)), e, norm_mul, norm_mul, hz, Complex.norm_real,
    Complex.norm_real, Complex.norm_two, Real.norm_of_nonneg (le_of_lt hA), Real.norm_of_nonneg (le_of_lt hs)]
  field_simp

/-- C43, lowshelf: the gain in dB at zero, gain 1 at the Nyquist frequency, half of the decibels at the corner. -/
theorem C43_lowshelf {gain : ℝ} (h0 : 0 < freq) (h1 : freq < 1) :
    response (lowshelf freq gain) 0 = (((10 : ℝ) ^ (gain / 20) : ℝ) : ℂ) ∧ response (lowshelf freq gain) π = 1 ∧
    ‖response (lowshelf freq gain) (π * freq)‖ = 10 ^ (gain / 40) := by
  have hA : (0 : ℝ) < 10 ^ (gain / 40) := by positivity
  have hc := cos_w0 h0 h1
  have hs := sin_w0 h0 h1
  have hz := zc_quad (π * freq)
  have hsc := sin_sq_add_cos_sq (π * freq)
  have h1z := zc_one_sub (π * freq)
  have ht := shelf_t (gain := gain) h0 h1
  simp only [lowshelf, if_neg (ne_of_lt h1), if_neg (ne_of_gt h0)]
  rw [gain_sq]
  have ha0 := shelf_pos hA hc ht
  rw [response_norm _ _ _ _ _ _ _ ha0, response_norm _ _ _ _ _ _ _ ha0, response_norm _ _ _ _ _ _ _ ha0, zc_zero,
    zc_pi]
  generalize 2 * (sin (π * freq) / 2 * √2) * √((10 : ℝ) ^ (gain / 40)) = t at *
  generalize (10 : ℝ) ^ (gain / 40) = A at *
  have hzn := zc_norm (π * freq)
  generalize zc (π * freq) = z at *
  generalize cos (π * freq) = c at *
  generalize sin (π * freq) = s at *
  obtain ⟨c1, c2⟩ := abs_lt.1 hc
  have hA' : (A : ℂ) ≠ 0 := by exact_mod_cast ne_of_gt hA
  have hm : (1 : ℂ) - c ≠ 0 := by
    have : (1 : ℝ) - c ≠ 0 := by linarith
    exact_mod_cast this
  have hp : (1 : ℂ) + c ≠ 0 := by
    have : (1 : ℝ) + c ≠ 0 := by linarith
    exact_mod_cast this
  have hscC : (s : ℂ) ^ 2 + (c : ℂ) ^ 2 = 1 := by exact_mod_cast hsc
  refine ⟨?_, ?_, ?_⟩
  · push_cast
    rw [div_eq_iff]
    · ring
    · have e : (A : ℂ) + 1 + (A - 1) * c + t + -2 * (A - 1 + (A + 1) * c) * 1 + (A + 1 + (A - 1) * c - t) * 1 ^ 2 =
        4 * (1 - c) := by ring
      rw [e]
      exact mul_ne_zero (by norm_num) hm
  · push_cast
    rw [div_eq_one_iff_eq]
    · ring
    · have e : (A : ℂ) + 1 + (A - 1) * c + t + -2 * (A - 1 + (A + 1) * c) * -1 + (A + 1 + (A - 1) * c - t) * (-1) ^ 2 =
        4 * (A * (1 + c)) := by ring
      rw [e]
      exact mul_ne_zero (by norm_num) (mul_ne_zero hA' hp)
  · refine shelf_corner (m := A - 1) (p := A + 1) (s := s) (c := c) (t := t) hzn hA hs ht ?_ ?_
    · push_cast
      linear_combination (A * ((A : ℂ) + 1) - A * (A - 1) * c) * hz + A * t * h1z - 2 * A * z * (A - 1) * hscC
    · push_cast
      linear_combination (((A : ℂ) + 1) + (A - 1) * c) * hz + t * h1z + 2 * z * (A - 1) * hscC

/-- C43, highshelf: gain 1 at zero, the gain in dB at the Nyquist frequency, half of the decibels at the corner. -/
theorem C43_highshelf {gain : ℝ} (h0 : 0 < freq) (h1 : freq < 1) :
    response (highshelf freq gain) 0 = 1 ∧ response (highshelf freq gain) π = (((10 : ℝ) ^ (gain / 20) : ℝ) : ℂ) ∧
    ‖response (highshelf freq gain) (π * freq)‖ = 10 ^ (gain / 40) := by
  have hA : (0 : ℝ) < 10 ^ (gain / 40) := by positivity
  have hc := cos_w0 h0 h1
  have hs := sin_w0 h0 h1
  have hz := zc_quad (π * freq)
  have hsc := sin_sq_add_cos_sq (π * freq)
  have h1z := zc_one_sub (π * freq)
  have ht := shelf_t (gain := gain) h0 h1
  simp only [highshelf, if_neg (ne_of_lt h1), if_pos h0]
  rw [gain_sq]
  have ha0 := shelf_pos hA (c := -cos (π * freq)) (by rwa [abs_neg]) ht
  rw [mul_neg, ← sub_eq_add_neg] at ha0
  rw [response_norm _ _ _ _ _ _ _ ha0, response_norm _ _ _ _ _ _ _ ha0, response_norm _ _ _ _ _ _ _ ha0, zc_zero,
    zc_pi]
  generalize 2 * (sin (π * freq) / 2 * √2) * √((10 : ℝ) ^ (gain / 40)) = t at *
  generalize (10 : ℝ) ^ (gain / 40) = A at *
  have hzn := zc_norm (π * freq)
  generalize zc (π * freq) = z at *
  generalize cos (π * freq) = c at *
  generalize sin (π * freq) = s at *
  obtain ⟨c1, c2⟩ := abs_lt.1 hc
  have hA' : (A : ℂ) ≠ 0 := by exact_mod_cast ne_of_gt hA
  have hm : (1 : ℂ) - c ≠ 0 := by
    have : (1 : ℝ) - c ≠ 0 := by linarith
    exact_mod_cast this
  have hp : (1 : ℂ) + c ≠ 0 := by
    have : (1 : ℝ) + c ≠ 0 := by linarith
    exact_mod_cast this
  have hscC : (s : ℂ) ^ 2 + (c : ℂ) ^ 2 = 1 := by exact_mod_cast hsc
  refine ⟨?_, ?_, ?_⟩
  · push_cast
    rw [div_eq_one_iff_eq]
    · ring
    · have e : (A : ℂ) + 1 - (A - 1) * c + t + 2 * (A - 1 - (A + 1) * c) * 1 + (A + 1 - (A - 1) * c - t) * 1 ^ 2 =
        4 * (A * (1 - c)) := by ring
      rw [e]
      exact mul_ne_zero (by norm_num) (mul_ne_zero hA' hm)
  · push_cast
    rw [div_eq_iff]
    · ring
    · have e : (A : ℂ) + 1 - (A - 1) * c + t + 2 * (A - 1 - (A + 1) * c) * -1 + (A + 1 - (A - 1) * c - t) * (-1) ^ 2 =
        4 * (1 + c) := by ring
      rw [e]
      exact mul_ne_zero (by norm_num) hp
  · refine shelf_corner (m := -(A - 1)) (p := A + 1) (s := s) (c := c) (t := t) hzn hA hs ht ?_ ?_
    · push_cast
      linear_combination (A * ((A : ℂ) + 1) + A * (A - 1) * c) * hz + A * t * h1z + 2 * A * z * (A - 1) * hscC
    · push_cast
      linear_combination (((A : ℂ) + 1) - (A - 1) * c) * hz + t * h1z - 2 * z * (A - 1) * hscC

example : ‖response (lowpass (1 / 4) 0) (π * (1 / 4))‖ = 1 := by
  rw [(C43_lowpass 0 (by norm_num) (by norm_num)).2.2]
  norm_num

example : response (peaking (1 / 2) 3 20) (π * (1 / 2)) = 10 := by
  rw [(C43_peaking (by norm_num) (by norm_num) (by norm_num)).2.2]
  norm_num

end

end Verif.Filter
