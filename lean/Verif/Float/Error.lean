import Verif.Float.Round
import Mathlib.Data.Int.ModEq

/-!
# Errors of rounding

`Near rd u`: the relative error of a rounding is at most `u`. It holds for exact arithmetic with `u = 0` and for rounding to `p` bits
with `u = 2 ^ (-p)` (`f64`: `p = 53`, `f32`: `p = 24`; without overflow and subnormal numbers).
-/

namespace Verif.Float

/-- the relative error is at most `u` -/
def Near {K : Type} [Field K] [LinearOrder K] (rd : K → K) (u : K) : Prop := ∀ x, |rd x - x| ≤ u * |x|

section
variable {K : Type} [Field K] [LinearOrder K] [IsStrictOrderedRing K]

omit [IsStrictOrderedRing K] in
theorem near_id [IsStrictOrderedRing K] : Near (id : K → K) 0 := fun x => by simp

theorem Near.abs_le {rd : K → K} {u : K} (h : Near rd u) (x : K) : |rd x| ≤ (1 + u) * |x| := by
  have h1 := h x
  have h2 := abs_add_le (rd x - x) x
  rw [sub_add_cancel] at h2
  linarith

theorem Near.nonneg {rd : K → K} {u : K} (h : Near rd u) (hu : u ≤ 1) {x : K} (hx : 0 ≤ x) : 0 ≤ rd x := by
  have h1 := _root_.abs_le.1 (h x)
  rw [abs_of_nonneg hx] at h1
  nlinarith [h1.1]

theorem Near.le {rd : K → K} {u : K} (h : Near rd u) {x : K} (hx : 0 ≤ x) : rd x ≤ (1 + u) * x := by
  have h1 := _root_.abs_le.1 (h x)
  rw [abs_of_nonneg hx] at h1
  linarith [h1.2]

end

theorem roundEven_half (y : ℚ) : |y - roundEven y| ≤ 1 / 2 := by
  have h1 := Int.floor_le y
  have h2 := Int.lt_floor_add_one y
  rcases le_total (y - ⌊y⌋) (1 / 2) with h | h
  · refine (roundEven_near y ⌊y⌋).trans ?_
    rw [abs_of_nonneg (by linarith)]
    exact h
  · refine (roundEven_near y (⌊y⌋ + 1)).trans ?_
    push_cast
    rw [abs_of_nonpos (by linarith)]
    linarith

theorem rndPos_near (p : Nat) {x : ℚ} (hx : 0 < x) : |rndPos p x - x| ≤ 2 ^ (-(p : ℤ)) * x := by
  obtain ⟨e1, -⟩ := expo_spec hx
  have two : (2 : ℚ) ≠ 0 := by norm_num
  unfold rndPos
  simp only
  set s : ℤ := (p : ℤ) - 1 - expo x with hs
  have hneg : (0 : ℚ) < 2 ^ (-s) := by positivity
  have hinv : (2 : ℚ) ^ s * 2 ^ (-s) = 1 := by rw [← zpow_add₀ two]; simp
  have h := roundEven_half (x * 2 ^ s)
  rw [abs_sub_comm] at h
  have e : roundEven (x * 2 ^ s) * 2 ^ (-s) - x = (roundEven (x * 2 ^ s) - x * 2 ^ s) * 2 ^ (-s) := by
    rw [sub_mul, mul_assoc x, hinv, mul_one]
  rw [e, abs_mul, abs_of_pos hneg]
  calc |(roundEven (x * 2 ^ s) : ℚ) - x * 2 ^ s| * 2 ^ (-s) ≤ 1 / 2 * 2 ^ (-s) := by gcongr
    _ = 2 ^ (-(p : ℤ)) * 2 ^ expo x := by
      rw [← zpow_add₀ two, show (1 / 2 : ℚ) = 2 ^ (-1 : ℤ) by norm_num, ← zpow_add₀ two]
      congr 1
      rw [hs]
      ring
    _ ≤ 2 ^ (-(p : ℤ)) * x := by gcongr

/-- rounding to `p` bits has a relative error of at most `2 ^ (-p)` -/
theorem rnd_near (p : Nat) : Near (rnd p) (2 ^ (-(p : ℤ))) := by
  intro x
  unfold rnd
  split
  · rename_i h; subst h; simp
  · split
    · rename_i h
      have := rndPos_near p (neg_pos.2 h)
      rw [abs_of_neg h, ← abs_neg]
      rwa [show -(-rndPos p (-x) - x) = rndPos p (-x) - -x by ring]
    · rename_i h1 h2
      have hx : 0 < x := lt_of_le_of_ne (not_lt.1 h2) (Ne.symm h1)
      rw [abs_of_pos hx]
      exact rndPos_near p hx

/-! ## Numbers that are close on a circle -/

section
variable {K : Type} [Field K] [LinearOrder K] [IsStrictOrderedRing K]

/-- `a` and `b` differ by an integer, up to `δ` -/
def Around (δ a b : K) : Prop := ∃ k : ℤ, |a - b - k| ≤ δ

theorem Around.rfl' {δ : K} (h : 0 ≤ δ) (a : K) : Around δ a a := ⟨0, by simpa using h⟩

theorem Around.mono {δ δ' a b : K} (h : Around δ a b) (hd : δ ≤ δ') : Around δ' a b := by
  obtain ⟨k, hk⟩ := h
  exact ⟨k, hk.trans hd⟩

theorem Around.trans {δ δ' a b c : K} (h : Around δ a b) (h' : Around δ' b c) : Around (δ + δ') a c := by
  obtain ⟨k, hk⟩ := h
  obtain ⟨m, hm⟩ := h'
  refine ⟨k + m, ?_⟩
  have := abs_add_le (a - b - k) (b - c - m)
  push_cast
  rw [show a - c - (k + m) = a - b - k + (b - c - m) by ring]
  linarith

theorem Around.add {δ δ' a b c d : K} (h : Around δ a b) (h' : |c - d| ≤ δ') : Around (δ + δ') (a + c) (b + d) := by
  obtain ⟨k, hk⟩ := h
  refine ⟨k, ?_⟩
  have := abs_add_le (a - b - k) (c - d)
  rw [show a + c - (b + d) - k = a - b - k + (c - d) by ring]
  linarith

theorem Around.near {δ a b : K} (h : |a - b| ≤ δ) : Around δ a b := ⟨0, by simpa using h⟩

theorem Around.shift {δ a b : K} (k : ℤ) (h : |a - b - k| ≤ δ) : Around δ a b := ⟨k, h⟩

end

end Verif.Float
