import Verif.Node.Quantum
import Mathlib.Algebra.Order.Field.Basic
import Mathlib.Tactic.Linarith
import Mathlib.Tactic.NormNum
import Mathlib.Tactic.Positivity
import Mathlib.Tactic.Ring
import Mathlib.Algebra.Order.Ring.Rat
import Mathlib.Algebra.Field.Rat

/-!
# C40: gain node

Models `GainRenderer::process` (`/repo/src/node/gain.rs` l.144-199) in exact arithmetic. `N` is the number of frames.
The gain has one value for the quantum or one per frame.
-/

namespace Verif.Node

section
variable {K : Type} [Field K] [LinearOrder K] [IsStrictOrderedRing K]

/-- The samples of a channel times the values of the gain, l.183-196; `cycle` of l.193 is the modulo. -/
def scale (N : Nat) (gain : List K) (c : Chan K) : Chan K :=
  some ((List.range N).map fun i => (c.data N).getD i 0 * gain.getD (i % gain.length) 0)

/-- what is done when no shortcut applies, l.181-196: one factor or one per frame -/
def gainFull (N : Nat) (gain : List K) (input : Quantum K) : Quantum K := input.map (scale N gain)

/-- `process`, l.144-199; `thr` is the threshold of l.166 -/
def gainProcess (thr : K) (N : Nat) (gain : List K) (input : Quantum K) : Quantum K :=
  if isSilent input then silence
  else
    match gain with
    | [g] => if |g| ≤ thr then silence else if |1 - g| ≤ thr then input else gainFull N gain input
    | _ => gainFull N gain input

theorem scale_sample {N : Nat} {gain : List K} {q : Quantum K} {f : Nat} (hf : f < N) (c : Nat) :
    sample (gainFull N gain q) c f = sample q c f * gain.getD (f % gain.length) 0 := by
  unfold sample gainFull
  rw [List.getElem?_map]
  cases hq : q[c]? with
  | none => simp
  | some x =>
    have hd := data_getD N x f
    simp only [Option.map_some, scale]
    rw [List.getD, List.getElem?_map, List.getElem?_range hf, Option.map_some, Option.getD_some, hd]
    cases x with
    | none => simp
    | some l => rfl

/-- Specification: the gain at frame `f` -/
def gainAt (gain : List K) (f : Nat) : K := if gain.length = 1 then gain.getD 0 0 else gain.getD f 0

/-- C40: every sample of the output differs from the sample of the input times the gain by at most the threshold
times the sample of the input; for the quantum lengths that exist (one value, or one per frame). -/
theorem C40_gain {thr : K} (h0 : 0 ≤ thr) {N : Nat} {gain : List K} (hg : gain.length = 1 ∨ gain.length = N)
    (input : Quantum K) (c f : Nat) (hf : f < N) :
    |sample (gainProcess thr N gain input) c f - sample input c f * gainAt gain f| ≤ thr * |sample input c f| := by
  have hfull : sample (gainFull N gain input) c f = sample input c f * gainAt gain f := by
    rw [scale_sample hf]
    unfold gainAt
    rcases hg with h1 | h1
    · rw [if_pos h1, h1, Nat.mod_one]
    · rw [h1, Nat.mod_eq_of_lt hf]
      split
      · rename_i h2
        rw [show f = 0 by omega]
      · rfl
  have hz : 0 ≤ thr * |sample input c f| := mul_nonneg h0 (abs_nonneg _)
  unfold gainProcess
  split
  · rename_i hs
    rw [sample_silence, sample_of_isSilent hs]
    simp
  · split
    · rename_i g
      have hga : gainAt [g] f = g := by simp [gainAt]
      split
      · rename_i hm
        rw [sample_silence, hga, zero_sub, abs_neg, abs_mul, mul_comm]
        exact mul_le_mul_of_nonneg_right hm (abs_nonneg _)
      · split
        · rename_i hp
          rw [hga]
          have e : sample input c f - sample input c f * g = (1 - g) * sample input c f := by ring
          rw [e, abs_mul]
          exact mul_le_mul_of_nonneg_right hp (abs_nonneg _)
        · rw [hfull, sub_self, abs_zero]; exact hz
    · rw [hfull, sub_self, abs_zero]; exact hz

/-- C40: outside of the two shortcuts the product is exact; a gain per frame has no shortcut. -/
theorem C40_gain_exact {thr : K} {N : Nat} {gain : List K} (hg : gain.length = 1 ∨ gain.length = N)
    (hn : gain.length = 1 → thr < |gain.getD 0 0| ∧ thr < |1 - gain.getD 0 0|) (input : Quantum K) (c f : Nat)
    (hf : f < N) : sample (gainProcess thr N gain input) c f = sample input c f * gainAt gain f := by
  have hfull : sample (gainFull N gain input) c f = sample input c f * gainAt gain f := by
    rw [scale_sample hf]
    unfold gainAt
    rcases hg with h1 | h1
    · rw [if_pos h1, h1, Nat.mod_one]
    · rw [h1, Nat.mod_eq_of_lt hf]
      split
      · rename_i h2
        rw [show f = 0 by omega]
      · rfl
  unfold gainProcess
  split
  · rename_i hs
    rw [sample_silence, sample_of_isSilent hs, zero_mul]
  · split
    · rename_i g
      obtain ⟨h1, h2⟩ := hn rfl
      simp only [List.getD_cons_zero] at h1 h2
      rw [if_neg (not_le.2 h1), if_neg (not_le.2 h2), hfull]
    · exact hfull

end

example : gainProcess (1 / 1000000 : ℚ) 2 [1 / 2] [some [4, 6], none] = [some [2, 3], some [0, 0]] := by
  decide +kernel

example : gainProcess (1 / 1000000 : ℚ) 2 [1 / 2, 3] [some [4, 6]] = [some [2, 18]] := by decide +kernel

/-- the shortcuts -/
example : gainProcess (1 / 1000000 : ℚ) 2 [1 / 2000000] [some [4, 6]] = [none] ∧
    gainProcess (1 / 1000000 : ℚ) 2 [1 - 1 / 2000000] [some [4, 6]] = [some [4, 6]] := by decide +kernel

/-- The output is not the exact product when a shortcut applies. -/
theorem C40_negated_exact :
    sample (gainProcess (1 / 1000000 : ℚ) 2 [1 / 2000000] [some [4, 6]]) 0 0 ≠ 4 * (1 / 2000000) := by
  decide +kernel

end Verif.Node
