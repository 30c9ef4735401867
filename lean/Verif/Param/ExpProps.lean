import Verif.Param.CancelProps
import Mathlib.Analysis.SpecialFunctions.Pow.Real

/-!
# C58: exponential ramps are exact

The formula of the code (`compute_exponential_ramp_sample`, param.rs l.79-88) in real arithmetic: `powf` is
the real power.
-/

namespace Verif.Param

/-- Exact real arithmetic. -/
noncomputable abbrev rArith (mn mx : ℝ) : Arith ℝ ℝ := exact Real.exp (fun x y => x ^ y) mn mx

theorem geometric {a b φ : ℝ} (h0 : 0 < a) (h1 : 0 < b) (hp0 : 0 ≤ φ) (hp1 : φ ≤ 1) :
    0 < a * (b / a) ^ φ ∧ min a b ≤ a * (b / a) ^ φ ∧ a * (b / a) ^ φ ≤ max a b ∧
      Real.log (a * (b / a) ^ φ) = Real.log a + (Real.log b - Real.log a) * φ := by
  have hr : 0 < b / a := div_pos h1 h0
  have hlog : Real.log (a * (b / a) ^ φ) = Real.log a + (Real.log b - Real.log a) * φ := by
    rw [Real.log_mul h0.ne' (Real.rpow_pos_of_pos hr φ).ne', Real.log_rpow hr, Real.log_div h1.ne' h0.ne']
    ring
  have hx : 0 < a * (b / a) ^ φ := mul_pos h0 (Real.rpow_pos_of_pos hr φ)
  refine ⟨hx, ?_, ?_, hlog⟩
  · rcases le_total a b with hle | hle
    · rw [min_eq_left hle, ← Real.log_le_log_iff h0 hx, hlog]
      have := Real.log_le_log h0 hle
      nlinarith
    · rw [min_eq_right hle, ← Real.log_le_log_iff h1 hx, hlog]
      have := Real.log_le_log h1 hle
      nlinarith
  · rcases le_total a b with hle | hle
    · rw [max_eq_right hle, ← Real.log_le_log_iff hx h1, hlog]
      have := Real.log_le_log h0 hle
      nlinarith
    · rw [max_eq_left hle, ← Real.log_le_log_iff hx h0, hlog]
      have := Real.log_le_log h1 hle
      nlinarith

/-- C58: in a schedule of set value events and ramps in time order, with event `(t0, v0)` directly before the
exponential ramp `(t1, v1)`, `v0` and `v1` both positive or both negative, the value of the frame at time `t` is exactly
`v0 (v1 / v0) ^ ((t - t0) / (t1 - t0))` if `t0 ≤ t` and `t + dt/2 < t1` (`t < t1` if `t1` is the time of a
frame): it has the sign of `v0`, lies between `v0` and `v1`, and the logarithm of its size is linear in time. Missing:
the half frame before `t0` and `t1`. -/
theorem C58_exact_partial {mn mx dt : ℝ} (hdt : 0 < dt) {count : Nat} (hcount : 2 ≤ count) {v c : ℝ}
    {es : List (Ev ℝ ℝ)} (hes : Schedule (rArith mn mx) es) (hpos : ∀ e ∈ es, 0 ≤ e.time)
    {k : Nat} {s : Sys ℝ ℝ}
    (h : run (rArith mn mx) dt count { p := { intrinsic := v, current := c } }
      (es.map Op.event ++ List.replicate (k + 1) .block) = .ok s)
    {j : Nat} (hj : j < count) {xs ys : List (Ev ℝ ℝ)} {e0 e1 : Ev ℝ ℝ} (hsplit : es = xs ++ e0 :: e1 :: ys)
    (hk : e1.kind = .exponential) (h01 : 0 < e0.value * e1.value) {t : ℝ}
    (ht : t = (k * count + j : Nat) * dt) (ht0 : e0.time ≤ t)
    (ht1 : t + dt / 2 < e1.time ∨ (t < e1.time ∧ ∃ m : Nat, e1.time = m * dt)) :
    ∃ x, s.p.valueAt j = some x ∧
      x = e0.value * (e1.value / e0.value) ^ ((t - e0.time) / (e1.time - e0.time)) ∧
      0 < e0.value * x ∧ min e0.value e1.value ≤ x ∧ x ≤ max e0.value e1.value ∧
      Real.log |x| = Real.log |e0.value| +
        (Real.log |e1.value| - Real.log |e0.value|) * ((t - e0.time) / (e1.time - e0.time)) := by
  have hn0 : frameOf dt e0.time ≤ k * count + j := frameOf_le hdt (by rw [← ht]; exact ht0)
  have hlt : t < e1.time := by
    rcases ht1 with h1 | h1
    · linarith
    · exact h1.1
  have hn1 : k * count + j < frameOf dt e1.time := by
    rcases ht1 with h1 | ⟨h1, m, hm⟩
    · exact le_frameOf hdt (by rw [← ht]; linarith)
    · rw [hm, frameOf_nat hdt]
      rw [hm, ht] at h1
      exact_mod_cast lt_of_mul_lt_mul_right h1 hdt.le
  have hv := ((C26_C27_frames hdt hcount hes hpos h hj).2.2 xs e0 e1 ys hsplit hn0 hn1).2.2 hk
  rw [← ht] at hv
  have hd : 0 < e1.time - e0.time := by linarith
  have hp0 : 0 ≤ (t - e0.time) / (e1.time - e0.time) := div_nonneg (by linarith) hd.le
  have hp1 : (t - e0.time) / (e1.time - e0.time) ≤ 1 := by rw [div_le_one hd]; linarith
  refine ⟨_, hv, rfl, ?_⟩
  simp only [exact]
  generalize (t - e0.time) / (e1.time - e0.time) = φ at *
  generalize e0.value = a at *
  generalize e1.value = b at *
  rcases pos_and_pos_or_neg_and_neg_of_mul_pos h01 with ⟨h0, h1⟩ | ⟨h0, h1⟩
  · obtain ⟨g1, g2, g3, g4⟩ := geometric h0 h1 hp0 hp1
    exact ⟨mul_pos h0 g1, g2, g3, by simpa only [Real.log_abs] using g4⟩
  · obtain ⟨g1, g2, g3, g4⟩ := geometric (neg_pos.2 h0) (neg_pos.2 h1) hp0 hp1
    rw [neg_div_neg_eq, neg_mul] at g1 g2 g3 g4
    rw [min_neg_neg] at g2
    rw [max_neg_neg] at g3
    simp only [Real.log_neg_eq_log] at g4
    exact ⟨mul_pos_of_neg_of_neg h0 (by linarith), by linarith, by linarith, by simpa only [Real.log_abs] using g4⟩

/-- A schedule with an exponential ramp from 1 at time 0 to 4 at time 2. -/
example : Schedule (rArith 0 10) [(⟨.setValueAtTime, 1, 0, none⟩ : Ev ℝ ℝ), ⟨.exponential, 4, 2, none⟩] :=
  ⟨by simp [Simple], by simp, by norm_num [Sorted], by simp, by norm_num [exact]⟩

/-- C58 fails for values of different sign or a start at zero: the code does not ramp but holds the value and
jumps at the end time. (The specification of Web Audio asks for this.) -/
theorem C58_negated_zero :
    (demo 1 [setAt 0 0, .event ⟨.exponential, 8, 3, none⟩, .block]).map (·.buffer) = some [0, 0, 0, 8] := by
  decide +kernel

end Verif.Param
