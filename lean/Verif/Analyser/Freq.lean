import Mathlib.Analysis.SpecialFunctions.Trigonometric.Basic
import Mathlib.Analysis.SpecialFunctions.Log.Base
import Mathlib.RingTheory.RootsOfUnity.Complex
import Mathlib.Algebra.BigOperators.Intervals
import Mathlib.Tactic.LinearCombination
import Mathlib.Tactic.FieldSimp

/-!
# C68, C69: frequency data of the analyser

Models `generate_blackman`, `Analyser::set_fft_size`, `compute_fft`, `get_float_frequency_data`,
`get_byte_frequency_data` and `get_byte_time_domain_data` (`/repo/src/analysis.rs` l.13-25, l.205-401) over the reals.

The Fourier transform of the crate `realfft` is the exact one. `w n` is sample `n` of the most recent `fftSize` samples
(C36 is about the ring they come from); `none` is NaN or infinity, which a Fourier transform spreads over all bins.
-/

namespace Verif.Analyser

open Real Finset

/-- `generate_blackman`, l.13-25 -/
noncomputable def blackman (N n : Nat) : ℝ :=
  let alpha : ℝ := 0.16
  let a0 := (1 - alpha) / 2
  let a1 : ℝ := 1 / 2
  let a2 := alpha / 2
  a0 - a1 * cos (2 * π * n / N) + a2 * cos (4 * π * n / N)

/-- bin `k` of the Fourier transform of `N` samples -/
noncomputable def dft (N : Nat) (x : Nat → ℝ) (k : Nat) : ℂ :=
  ∑ n ∈ range N, (x n : ℂ) * Complex.exp (-(2 * π * Complex.I * k * n / N))

/-- The state of `Analyser`, l.144-157; `last_fft_time` is `none` for minus infinity. -/
structure An where
  fftSize : Nat
  tau : ℝ
  min : ℝ
  max : ℝ
  last : Nat → ℝ
  lastTime : Option ℝ

/-- `new` followed by the setters, l.171-201; the buffer is zero. -/
def An.new (N : Nat) (tau mn mx : ℝ) : An := ⟨N, tau, mn, mx, fun _ => 0, none⟩

/-- `set_fft_size`, l.211-226, for a valid size; `blackman` is a function of the size -/
def An.setFftSize (a : An) (N : Nat) : An :=
  if a.fftSize ≠ N then { a with fftSize := N, last := fun _ => 0 } else a

/-- a window as read from the ring -/
abbrev Window := Nat → Option ℝ

open Classical in
/-- `norm` in `compute_fft`, l.278-343; `none` if it is not finite -/
noncomputable def magnitude (N : Nat) (w : Window) (k : Nat) : Option ℝ :=
  if ∀ n < N, (w n).isSome then
    some (‖dft N (fun n => (w n).getD 0 * blackman N n) k‖ * (1 / N))
  else none

/-- `compute_fft`, l.278-345 -/
noncomputable def An.compute (a : An) (w : Window) : An :=
  { a with last := fun k =>
      if k < a.fftSize / 2 then
        match magnitude a.fftSize w k with
        | some m => a.tau * a.last k + (1 - a.tau) * m
        | none => 0
      else a.last k }

open Classical in
/-- the beginning of `get_float_frequency_data` and `get_byte_frequency_data`, l.354-357, l.380-383 -/
noncomputable def An.update (a : An) (t : ℝ) (w : Window) : An :=
  if a.lastTime = some t then a else { a.compute w with lastTime := some t }

/-- `20. * b.log10()`; minus infinity is `⊥` -/
noncomputable def decibel (b : ℝ) : WithBot ℝ := if b = 0 then ⊥ else ((20 * logb 10 b : ℝ) : WithBot ℝ)

/-- writes `f i` to the first `n` elements of the slice -/
def fill {α : Type} (dst : List α) (n : Nat) (f : Nat → α) : List α :=
  dst.mapIdx fun i v => if i < n then f i else v

/-- `get_float_frequency_data`, l.347-369 -/
noncomputable def An.getFloat (a : An) (t : ℝ) (w : Window) (dst : List (WithBot ℝ)) : An × List (WithBot ℝ) :=
  let bins := a.fftSize / 2
  let a' := a.update t w
  (a', fill dst (Min.min dst.length bins) fun i => decibel (a'.last i))

/-- the conversion to a byte, l.395-399; `as u8` of a number in 0..255 truncates -/
noncomputable def toByte (mn mx b : ℝ) : Nat :=
  if b = 0 then 0
  else
    let db := 20 * logb 10 b
    let scaled := 255 / (mx - mn) * (db - mn)
    ⌊Max.max 0 (Min.min scaled 255)⌋₊

/-- `get_byte_frequency_data`, l.371-401 -/
noncomputable def An.getByte (a : An) (t : ℝ) (w : Window) (dst : List Nat) : An × List Nat :=
  let bins := a.fftSize / 2
  let a' := a.update t w
  (a', fill dst (Min.min dst.length bins) fun i => toByte a.min a.max (a'.last i))

/-- `get_byte_time_domain_data`, l.266-276: `tmp` is as long as the destination, and all of it is converted -/
noncomputable def An.getByteTime (a : An) (w : Nat → ℝ) (dst : List Nat) : List Nat :=
  let tmp := fun i => if i < Min.min dst.length a.fftSize then w i else 0
  dst.mapIdx fun i _ => ⌊Max.max 0 (Min.min (128 * (1 + tmp i)) 255)⌋₊

/-! ## The window -/

theorem blackman_eq (N n : Nat) :
    blackman N n = 0.42 - 0.5 * cos (2 * π * n / N) + 0.08 * cos (2 * (2 * π * n / N)) := by
  unfold blackman
  simp only
  rw [show 4 * π * n / N = 2 * (2 * π * n / N) by ring]
  ring

theorem blackman_range (N n : Nat) : 0 ≤ blackman N n ∧ blackman N n ≤ 1 := by
  rw [blackman_eq, cos_two_mul]
  have h1 := neg_one_le_cos (2 * π * n / N)
  have h2 := cos_le_one (2 * π * n / N)
  constructor <;> nlinarith

/-- the sum over the roots of unity -/
theorem sum_exp (N : Nat) (hN : 0 < N) (j : ℤ) :
    ∑ n ∈ range N, Complex.exp (2 * π * Complex.I * n / N) ^ j = if (N : ℤ) ∣ j then (N : ℂ) else 0 := by
  have hz : ∀ n : Nat, Complex.exp (2 * π * Complex.I * n / N) ^ j
      = (Complex.exp (2 * π * Complex.I / N) ^ j) ^ n := by
    intro n
    rw [show 2 * (π : ℂ) * Complex.I * n / N = n * (2 * π * Complex.I / N) by ring, Complex.exp_nat_mul,
      ← zpow_natCast, ← zpow_mul, ← zpow_natCast, ← zpow_mul, mul_comm j]
  rw [Finset.sum_congr rfl fun n _ => hz n]
  have hprim := Complex.isPrimitiveRoot_exp N hN.ne'
  by_cases hd : (N : ℤ) ∣ j
  · rw [if_pos hd, (hprim.zpow_eq_one_iff_dvd j).mpr hd]
    simp
  · rw [if_neg hd]
    have hne : Complex.exp (2 * π * Complex.I / N) ^ j ≠ 1 := fun h => hd ((hprim.zpow_eq_one_iff_dvd j).mp h)
    rw [geom_sum_eq hne]
    have : (Complex.exp (2 * π * Complex.I / N) ^ j) ^ N = 1 := by
      rw [← zpow_natCast, ← zpow_mul, mul_comm j, zpow_mul, zpow_natCast, hprim.pow_eq_one, one_zpow]
    rw [this]
    simp

/-- the coefficients of the window -/
noncomputable def leak : ℤ → ℝ
  | 0 => 0.42
  | 1 => -0.25
  | -1 => -0.25
  | 2 => 0.04
  | -2 => 0.04
  | _ => 0

/-- the transform of a windowed tone -/
theorem dft_tone (N : Nat) (hN : 0 < N) (A φ : ℝ) (m k : Nat) :
    dft N (fun n => A * cos (2 * π * m * n / N + φ) * blackman N n) k =
      ∑ r ∈ ({-2, -1, 0, 1, 2} : Finset ℤ), (leak r : ℂ) * (A / 2) *
        (Complex.exp (φ * Complex.I) * (if (N : ℤ) ∣ (m + r - k : ℤ) then (N : ℂ) else 0) +
         Complex.exp (-(φ * Complex.I)) * (if (N : ℤ) ∣ (-m + r - k : ℤ) then (N : ℂ) else 0)) := by
  simp only [← sum_exp N hN]
  unfold dft
  simp only [Finset.mul_sum, ← Finset.sum_add_distrib]
  rw [Finset.sum_comm]
  apply Finset.sum_congr rfl
  intro n _
  set z := Complex.exp (2 * π * Complex.I * n / N) with hz
  have hz0 : z ≠ 0 := Complex.exp_ne_zero _
  have e1 : ((cos (2 * π * n / N) : ℝ) : ℂ) = (z + z⁻¹) / 2 := by
    rw [Complex.ofReal_cos, Complex.cos, hz, ← Complex.exp_neg]
    push_cast
    congr 3 <;> ring_nf
  have e2 : ((cos (2 * (2 * π * n / N)) : ℝ) : ℂ) = (z ^ 2 + (z⁻¹) ^ 2) / 2 := by
    rw [Complex.ofReal_cos, Complex.cos, hz, ← Complex.exp_neg, ← Complex.exp_nat_mul, ← Complex.exp_nat_mul]
    push_cast
    congr 3 <;> ring_nf
  have e3 : ((cos (2 * π * m * n / N + φ) : ℝ) : ℂ)
      = (Complex.exp (φ * Complex.I) * z ^ m + Complex.exp (-(φ * Complex.I)) * (z ^ m)⁻¹) / 2 := by
    rw [Complex.ofReal_cos, Complex.cos, hz, ← Complex.exp_nat_mul, ← Complex.exp_neg, ← Complex.exp_add,
      ← Complex.exp_add]
    push_cast
    congr 3 <;> ring_nf
  have e4 : Complex.exp (-(2 * π * Complex.I * k * n / N)) = (z ^ k)⁻¹ := by
    rw [hz, ← Complex.exp_nat_mul, ← Complex.exp_neg]
    congr 1; ring
  have p1 : ∀ r : ℤ, z ^ (m + r - k : ℤ) = z ^ m * z ^ r * (z ^ k)⁻¹ := by
    intro r
    rw [zpow_sub₀ hz0, zpow_add₀ hz0, zpow_natCast, zpow_natCast, div_eq_mul_inv]
  have p2 : ∀ r : ℤ, z ^ (-m + r - k : ℤ) = (z ^ m)⁻¹ * z ^ r * (z ^ k)⁻¹ := by
    intro r
    rw [zpow_sub₀ hz0, zpow_add₀ hz0, zpow_neg, zpow_natCast, zpow_natCast, div_eq_mul_inv]
  simp only [p1, p2]
  rw [e4, blackman_eq]
  push_cast
  have e1' : Complex.cos (2 * π * n / N) = (z + z⁻¹) / 2 := by rw [← e1]; push_cast; rfl
  have e2' : Complex.cos (2 * (2 * π * n / N)) = (z ^ 2 + (z⁻¹) ^ 2) / 2 := by rw [← e2]; push_cast; rfl
  have e3' : Complex.cos (2 * π * m * n / N + φ) 
      = (Complex.exp (φ * Complex.I) * z ^ m + Complex.exp (-(φ * Complex.I)) * (z ^ m)⁻¹) / 2 := by
    rw [← e3]; push_cast; rfl
  rw [e1', e2', e3']
  rw [Finset.sum_insert (by decide), Finset.sum_insert (by decide), Finset.sum_insert (by decide),
    Finset.sum_insert (by decide), Finset.sum_singleton]
  simp only [leak]
  have q1 : z ^ (-2 : ℤ) = (z⁻¹) ^ 2 := by rw [zpow_neg, inv_pow]; norm_cast
  have q2 : z ^ (-1 : ℤ) = z⁻¹ := by rw [zpow_neg, zpow_one]
  have q3 : z ^ (0 : ℤ) = 1 := zpow_zero z
  have q4 : z ^ (1 : ℤ) = z := zpow_one z
  have q5 : z ^ (2 : ℤ) = z ^ 2 := by norm_cast
  rw [q1, q2, q3, q4, q5]
  generalize z⁻¹ = u
  generalize (z ^ m)⁻¹ = v
  generalize (z ^ k)⁻¹ = y
  generalize Complex.exp (φ * Complex.I) = a
  generalize Complex.exp (-(φ * Complex.I)) = b
  push_cast
  ring

end Verif.Analyser
