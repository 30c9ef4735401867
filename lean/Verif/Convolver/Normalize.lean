import Verif.Convolver.Model
import Mathlib.Analysis.SpecialFunctions.Pow.Real
import Mathlib.Data.Real.Sqrt
import Mathlib.Tactic.FieldSimp
import Mathlib.Tactic.Ring
import Mathlib.Tactic.NormNum
import Mathlib.Tactic.Linarith
import Mathlib.Tactic.Positivity

/-!
# C61: equal-power normalisation of the impulse response

`normalize_buffer` (`/repo/src/node/convolver.rs` l.16-53) over the reals: no overflow, no NaN. For a buffer without samples the
code gets NaN from `0 / 0` and takes the minimal power; here `0 / 0 = 0` is below the minimal power, to the same effect.
-/

namespace Verif.Convolver

noncomputable section

/-- sum of the squares of all samples, l.26-30 -/
def energy (buffer : List (List ℝ)) : ℝ := (buffer.map fun c => (c.map fun s => s * s).sum).sum

/-- the power before the protection against overload, l.32 -/
def rms (buffer : List (List ℝ)) : ℝ := Real.sqrt (energy buffer / ((buffer.length * (buffer.headD []).length : Nat) : ℝ))

/-- `normalize_buffer`, l.16-53 -/
def normalize (buffer : List (List ℝ)) (sr : ℝ) : ℝ :=
  let power := if rms buffer < 0.000125 then 0.000125 else rms buffer
  let scale := 1 / power * 0.00125 * (44100 / sr)
  if buffer.length = 4 then scale * 0.5 else scale

/-- the response that the engines get, l.295-299 -/
def scaled (buffer : List (List ℝ)) (g : ℝ) : List (List ℝ) := buffer.map fun c => c.map (· * g)

end

theorem energy_nonneg (buffer : List (List ℝ)) : 0 ≤ energy buffer := by
  unfold energy
  apply List.sum_nonneg
  intro x hx
  obtain ⟨c, _, rfl⟩ := List.mem_map.1 hx
  apply List.sum_nonneg
  intro y hy
  obtain ⟨s, _, rfl⟩ := List.mem_map.1 hy
  exact mul_self_nonneg s

theorem energy_scaled (buffer : List (List ℝ)) (g : ℝ) : energy (scaled buffer g) = g ^ 2 * energy buffer := by
  unfold energy scaled
  induction buffer with
  | nil => simp
  | cons c b ih =>
    simp only [List.map_cons, List.sum_cons] at ih ⊢
    rw [ih]
    have : ((c.map (· * g)).map fun s => s * s).sum = g ^ 2 * (c.map fun s => s * s).sum := by
      induction c with
      | nil => simp
      | cons x c ihc =>
        simp only [List.map_cons, List.sum_cons] at ihc ⊢
        rw [ihc]; ring
    rw [this]; ring

theorem rms_scaled (buffer : List (List ℝ)) {g : ℝ} (hg : 0 ≤ g) : rms (scaled buffer g) = g * rms buffer := by
  have hl : ((scaled buffer g).length * ((scaled buffer g).headD []).length : Nat) =
      buffer.length * (buffer.headD []).length := by
    unfold scaled
    cases buffer <;> simp
  unfold rms
  rw [energy_scaled, hl, mul_div_assoc, Real.sqrt_mul (sq_nonneg g), Real.sqrt_sq hg]

theorem normalize_nonneg (buffer : List (List ℝ)) {sr : ℝ} (hs : 0 < sr) : 0 < normalize buffer sr := by
  unfold normalize
  have hp : 0 < (if rms buffer < 0.000125 then 0.000125 else rms buffer) := by
    split
    · norm_num
    · rename_i h; linarith
  simp only
  split <;> positivity

/-- C61: a response that is not too soft is brought to a power that only depends on the sample rate and on whether it has four
channels. -/
theorem C61_level {buffer : List (List ℝ)} {sr : ℝ} (hs : 0 < sr) (h : 0.000125 ≤ rms buffer) :
    rms (scaled buffer (normalize buffer sr)) =
      0.00125 * (44100 / sr) * (if buffer.length = 4 then 0.5 else 1) := by
  rw [rms_scaled _ (normalize_nonneg buffer hs).le]
  have h0 : rms buffer ≠ 0 := by linarith
  unfold normalize
  rw [if_neg (not_lt.2 h)]
  simp only
  split <;> field_simp

/-- C61: the level at which the response was recorded does not matter. -/
theorem C61_level_independent {buffer : List (List ℝ)} {sr : ℝ} {c : ℝ} (hc : 0 < c) (h : 0.000125 ≤ rms buffer)
    (h2 : 0.000125 ≤ rms (scaled buffer c)) :
    scaled (scaled buffer c) (normalize (scaled buffer c) sr) = scaled buffer (normalize buffer sr) := by
  have h0 : rms buffer ≠ 0 := by linarith
  have e : c * normalize (scaled buffer c) sr = normalize buffer sr := by
    have hl : (scaled buffer c).length = buffer.length := by simp [scaled]
    unfold normalize
    rw [if_neg (not_lt.2 h), if_neg (not_lt.2 h2), hl, rms_scaled _ hc.le]
    simp only
    split <;> field_simp
  rw [← e]
  unfold scaled
  rw [List.map_map]
  apply List.map_congr_left
  intro l _
  simp [mul_assoc]

/-- C61: protection against overload: the gain is bounded, whatever the response. -/
theorem C61_bounded (buffer : List (List ℝ)) {sr : ℝ} (hs : 0 < sr) :
    0 < normalize buffer sr ∧ normalize buffer sr ≤ 10 * (44100 / sr) := by
  refine ⟨normalize_nonneg buffer hs, ?_⟩
  unfold normalize
  have hp : 1 / (if rms buffer < 0.000125 then 0.000125 else rms buffer) ≤ (8000 : ℝ) := by
    split
    · norm_num
    · rename_i h
      rw [div_le_iff₀ (by linarith)]
      linarith
  have hp0 : 0 < 1 / (if rms buffer < 0.000125 then 0.000125 else rms buffer) := by
    apply one_div_pos.2
    split
    · norm_num
    · rename_i h; linarith
  have hq : 0 < 44100 / sr := by positivity
  simp only
  split
  · nlinarith [mul_pos hp0 hq, mul_le_mul_of_nonneg_right hp hq.le]
  · nlinarith [mul_pos hp0 hq, mul_le_mul_of_nonneg_right hp hq.le]

/-- an impulse of height one in a mono buffer at 44.1 kHz: the calibration -/
example : 0.000125 ≤ rms [[1]] ∧ normalize [[1]] 44100 = 0.00125 := by
  have : rms [[1]] = 1 := by simp [rms, energy]
  unfold normalize
  rw [this]
  norm_num

end Verif.Convolver
