import Verif.Param.PanicProps
import Verif.Float.Round

/-!
# C57: value curves are read within bounds

`curveTotal_exact` (PanicProps): in exact arithmetic the index is in bounds. Here: in `f64` it is not.
-/

namespace Verif.Param

open Verif.Float

/-- `compute_set_value_curve_sample` (param.rs l.106-122) with the roundings of `f64`; the interpolation of the
two values is not rounded. `none`: index out of bounds, a panic. -/
def curve64 (start dur : ℚ) (values : List ℚ) (t : ℚ) : Option ℚ :=
  if dur ≤ f64 (t - start) then values.getLast?
  else
    let position := f64 (f64 (((values.length - 1 : Nat) : ℚ) * f64 (t - start)) / dur)
    let k := ⌊position⌋₊
    let phase := position - ⌊position⌋
    match values[k]?, values[k + 1]? with
    | some a, some b => some ((b - a) * phase + a)
    | _, _ => none

/-- The duration of the witness, a `f64` number: the one after the time of frame 4480 at 44.1 kHz. -/
def badDuration : ℚ := 7320136537186331 / 2 ^ 56

/-- C57 is false in `f64`: a curve of 4 values from time 0 with duration 0.10158730158730159 (the double next
to the time of frame 4480 = 35 * 128 at 44.1 kHz) is read at index 4 in the first frame of quantum 35. The
render thread panics. -/
theorem C57_negated (values : List ℚ) (h : values.length = 4) :
    IsFloat 53 badDuration ∧ f64 (4480 / 44100) < badDuration ∧
      curve64 0 badDuration values (f64 (4480 / 44100)) = none := by
  have ht : f64 (4480 / 44100) = 3660068268593165 / 2 ^ 55 := by decide +kernel
  have hsub : f64 (f64 (4480 / 44100) - 0) = f64 (4480 / 44100) := by decide +kernel
  have hlt : f64 (4480 / 44100) < badDuration := by decide +kernel
  have hp : f64 (f64 (((4 - 1 : Nat) : ℚ) * f64 (4480 / 44100)) / badDuration) = 3 := by decide +kernel
  refine ⟨⟨7320136537186331, -56, by norm_num, by norm_num [badDuration]⟩, hlt, ?_⟩
  unfold curve64
  rw [hsub, if_neg (not_le.2 hlt), h]
  simp only [hp]
  have : ⌊(3 : ℚ)⌋₊ = 3 := by norm_num
  rw [this]
  have h4 : values[3 + 1]? = none := by
    rw [List.getElem?_eq_none_iff]; omega
  rw [h4]
  split
  · rename_i h; cases h
  · rfl

/-- C57 with the roundings: unless the index is out of bounds, the value of a curve lies within the smallest and
the largest of the given values. -/
theorem C57_rounded_hull {start dur : ℚ} {values : List ℚ} {t v lo hi : ℚ}
    (h : curve64 start dur values t = some v) (hv : ∀ x ∈ values, lo ≤ x ∧ x ≤ hi) : lo ≤ v ∧ v ≤ hi := by
  unfold curve64 at h
  split at h
  · exact hv _ (List.mem_of_getLast? h)
  · simp only at h
    split at h
    · rename_i a b ha hb
      have ha' := hv a (List.mem_of_getElem? ha)
      have hb' := hv b (List.mem_of_getElem? hb)
      set p := f64 (f64 (((values.length - 1 : Nat) : ℚ) * f64 (t - start)) / dur)
      have h0 : 0 ≤ p - ⌊p⌋ := sub_nonneg.2 (Int.floor_le p)
      have h1 : p - ⌊p⌋ ≤ 1 := by linarith [Int.lt_floor_add_one p]
      simp only [Option.some.injEq] at h
      constructor <;> nlinarith
    · cases h

/-- The hypotheses of `C57_rounded_hull` are met: frame 100 of the curve of the witness. -/
example : (curve64 0 badDuration [1, 2, 4, 3] (f64 (100 / 44100))).isSome = true := by decide +kernel

/-- The exact model on the same input: in bounds. -/
example : ((exact (fun x : ℚ => x) (fun x _ => x) 0 1).curve 0 badDuration [1, 2, 3, 4]
    (f64 (4480 / 44100))).isSome = true := by decide +kernel

end Verif.Param
