import Mathlib.Data.Rat.Floor
import Mathlib.Algebra.Order.Floor.Ring
import Mathlib.Algebra.Order.Field.Power
import Mathlib.Data.Nat.Log
import Mathlib.Algebra.Ring.Parity
import Mathlib.Tactic.Linarith
import Mathlib.Tactic.Positivity
import Mathlib.Tactic.FieldSimp
import Mathlib.Tactic.NormNum
import Mathlib.Tactic.Ring

/-!
# Rounding to binary floating point numbers

Rust's `f64` (`p = 53`) and `f32` (`p = 24`) operations are the exact operation followed by rounding to
nearest, ties to even (IEEE 754). Overflow, subnormal numbers and NaN are left out: the exponent is
unbounded. Only used to show that rounding errors matter; everything else is proved for exact
arithmetic.
-/

namespace Verif.Float

/-- nearest integer, ties to even -/
def roundEven (y : ℚ) : ℤ :=
  if y - ⌊y⌋ < 1 / 2 then ⌊y⌋
  else if y - ⌊y⌋ > 1 / 2 then ⌊y⌋ + 1
  else if ⌊y⌋ % 2 = 0 then ⌊y⌋ else ⌊y⌋ + 1

/-- exponent `e` with `2 ^ e ≤ x < 2 ^ (e + 1)` for positive `x` -/
def expo (x : ℚ) : ℤ :=
  let e : ℤ := Nat.log2 x.num.natAbs - Nat.log2 x.den
  if x < 2 ^ e then e - 1 else e

/-- rounding of a positive number to `p` bits -/
def rndPos (p : Nat) (x : ℚ) : ℚ :=
  let s : ℤ := (p : ℤ) - 1 - expo x
  roundEven (x * 2 ^ s) * 2 ^ (-s)

/-- rounding to `p` bits -/
def rnd (p : Nat) (x : ℚ) : ℚ :=
  if x = 0 then 0 else if x < 0 then - rndPos p (-x) else rndPos p x

/-- the numbers with `p` bits -/
def IsFloat (p : Nat) (z : ℚ) : Prop := ∃ m e : ℤ, |m| ≤ 2 ^ p ∧ z = m * 2 ^ e

theorem roundEven_near (y : ℚ) (k : ℤ) : |y - roundEven y| ≤ |y - k| := by
  have h1 := Int.floor_le y
  have h2 := Int.lt_floor_add_one y
  have hk : (k : ℚ) ≤ ⌊y⌋ ∨ (⌊y⌋ : ℚ) + 1 ≤ k := by
    rcases le_or_gt k ⌊y⌋ with h | h
    · left; exact_mod_cast h
    · right; exact_mod_cast h
  have key : |y - roundEven y| ≤ y - ⌊y⌋ ∧ |y - roundEven y| ≤ ⌊y⌋ + 1 - y := by
    unfold roundEven
    split
    · rw [abs_of_nonneg (by linarith)]; constructor <;> linarith
    · split
      · push_cast
        rw [abs_of_nonpos (by linarith)]; constructor <;> linarith
      · have : y - ⌊y⌋ = 1 / 2 := le_antisymm (by linarith) (by linarith)
        split
        · rw [abs_of_nonneg (by linarith)]; constructor <;> linarith
        · push_cast
          rw [abs_of_nonpos (by linarith)]; constructor <;> linarith
  rcases hk with h | h
  · exact key.1.trans ((by linarith : y - ⌊y⌋ ≤ y - k).trans (le_abs_self _))
  · refine key.2.trans ((by linarith : ⌊y⌋ + 1 - y ≤ -(y - k)).trans (neg_le_abs _))

theorem expo_spec {x : ℚ} (hx : 0 < x) : (2 : ℚ) ^ expo x ≤ x ∧ x < 2 ^ (expo x + 1) := by
  have hn : x.num.natAbs ≠ 0 := by
    simp only [ne_eq, Int.natAbs_eq_zero, Rat.num_eq_zero]; exact hx.ne'
  have hd : x.den ≠ 0 := x.den_nz
  have hxe : x = (x.num.natAbs : ℚ) / x.den := by
    conv_lhs => rw [← Rat.num_div_den x]
    congr 1
    have : 0 ≤ x.num := Rat.num_nonneg.2 hx.le
    rw [← Int.cast_natCast, Int.natAbs_of_nonneg this]
  have a1 : (2 : ℚ) ^ Nat.log2 x.num.natAbs ≤ x.num.natAbs := by exact_mod_cast Nat.log2_self_le hn
  have a2 : (x.num.natAbs : ℚ) < 2 ^ (Nat.log2 x.num.natAbs + 1) := by
    exact_mod_cast Nat.lt_log2_self
  have b1 : (2 : ℚ) ^ Nat.log2 x.den ≤ x.den := by exact_mod_cast Nat.log2_self_le hd
  have b2 : (x.den : ℚ) < 2 ^ (Nat.log2 x.den + 1) := by exact_mod_cast Nat.lt_log2_self
  have hex : expo x = if x < 2 ^ ((Nat.log2 x.num.natAbs : ℤ) - Nat.log2 x.den)
      then (Nat.log2 x.num.natAbs : ℤ) - Nat.log2 x.den - 1
      else (Nat.log2 x.num.natAbs : ℤ) - Nat.log2 x.den := rfl
  generalize Nat.log2 x.num.natAbs = A at *
  generalize hB : Nat.log2 x.den = B at *
  have hdp : (0 : ℚ) < x.den := by exact_mod_cast Nat.pos_of_ne_zero hd
  have up : x < 2 ^ ((A : ℤ) - B + 1) := by
    rw [hxe, div_lt_iff₀ hdp]
    calc (x.num.natAbs : ℚ) < 2 ^ (A + 1) := a2
      _ = 2 ^ ((A : ℤ) - B + 1) * 2 ^ B := by
        rw [← zpow_natCast, ← zpow_natCast, ← zpow_add₀ (by norm_num)]; congr 1; push_cast; ring
      _ ≤ 2 ^ ((A : ℤ) - B + 1) * x.den := by gcongr
  have low : 2 ^ ((A : ℤ) - B - 1) ≤ x := by
    rw [hxe, le_div_iff₀ hdp]
    calc (2 : ℚ) ^ ((A : ℤ) - B - 1) * x.den ≤ 2 ^ ((A : ℤ) - B - 1) * 2 ^ (B + 1) := by gcongr
      _ = 2 ^ A := by
        rw [← zpow_natCast, ← zpow_natCast, ← zpow_add₀ (by norm_num)]; congr 1; push_cast; ring
      _ ≤ x.num.natAbs := a1
  rw [hex]
  split
  · rename_i h
    exact ⟨low, by rw [sub_add_cancel]; exact h⟩
  · rename_i h
    exact ⟨not_lt.1 h, up⟩

/-- `rndPos` is a `p` bit number nearest to `x`. -/
theorem rndPos_nearest {p : Nat} (hp : 0 < p) {x : ℚ} (hx : 0 < x) :
    IsFloat p (rndPos p x) ∧ ∀ z, IsFloat p z → |x - rndPos p x| ≤ |x - z| := by
  obtain ⟨e1, e2⟩ := expo_spec hx
  unfold rndPos
  set s : ℤ := (p : ℤ) - 1 - expo x with hs
  have two : (2 : ℚ) ≠ 0 := by norm_num
  have hpos : (0 : ℚ) < 2 ^ s := by positivity
  have hneg : (0 : ℚ) < 2 ^ (-s) := by positivity
  have hinv : (2 : ℚ) ^ s * 2 ^ (-s) = 1 := by rw [← zpow_add₀ two]; simp
  have near : ∀ k : ℤ, |x - roundEven (x * 2 ^ s) * 2 ^ (-s)| ≤ |x - k * 2 ^ (-s)| := by
    intro k
    have := roundEven_near (x * 2 ^ s) k
    have sc : ∀ j : ℚ, |x - j * 2 ^ (-s)| = |x * 2 ^ s - j| * 2 ^ (-s) := by
      intro j
      rw [← abs_of_pos hneg, ← abs_mul, abs_of_pos hneg]
      congr 1
      rw [sub_mul, mul_assoc, hinv, mul_one]
    rw [sc, sc]
    gcongr
  have ylow : (2 : ℚ) ^ (p - 1) ≤ x * 2 ^ s := by
    calc (2 : ℚ) ^ (p - 1) = 2 ^ expo x * 2 ^ s := by
          rw [← zpow_add₀ two, ← zpow_natCast]; congr 1
          rw [hs]; push_cast [Nat.cast_sub (show 1 ≤ p from hp)]; ring
      _ ≤ x * 2 ^ s := by gcongr
  have yup : x * 2 ^ s < 2 ^ p := by
    calc x * 2 ^ s < 2 ^ (expo x + 1) * 2 ^ s := by gcongr
      _ = 2 ^ p := by
          rw [← zpow_add₀ two, ← zpow_natCast]; congr 1
          rw [hs]; ring
  refine ⟨⟨roundEven (x * 2 ^ s), -s, ?_, rfl⟩, ?_⟩
  · have h1 : (roundEven (x * 2 ^ s) : ℚ) ≤ 2 ^ p := by
      have := roundEven_near (x * 2 ^ s) (2 ^ p)
      push_cast at this
      rw [abs_of_neg (a := x * 2 ^ s - 2 ^ p) (by linarith)] at this
      have := (abs_le.1 this).1
      linarith
    have h2 : (0 : ℚ) ≤ roundEven (x * 2 ^ s) := by
      have := roundEven_near (x * 2 ^ s) 0
      push_cast at this
      have hy : 0 < x * 2 ^ s := by positivity
      rw [abs_of_pos (a := x * 2 ^ s - 0) (by linarith)] at this
      have := (abs_le.1 this).2
      linarith
    rw [abs_of_nonneg (by exact_mod_cast h2)]
    exact_mod_cast h1
  · rintro z ⟨m, e, hm, rfl⟩
    rcases le_or_gt (-s) e with he | he
    · -- a multiple of the unit in the last place
      obtain ⟨d, hd⟩ := Int.eq_ofNat_of_zero_le (sub_nonneg.2 he)
      have : (m : ℚ) * 2 ^ e = ((m * 2 ^ d : ℤ) : ℚ) * 2 ^ (-s) := by
        push_cast
        rw [mul_assoc, ← zpow_natCast, ← zpow_add₀ two]; congr 2
        have : (d : ℤ) = e - -s := hd.symm
        omega
      rw [this]; exact near _
    · -- at most the lower end of the binade
      have hz : (m : ℚ) * 2 ^ e ≤ ((2 ^ (p - 1) : ℤ) : ℚ) * 2 ^ (-s) := by
        have hm' : (m : ℚ) ≤ 2 ^ p := by exact_mod_cast (le_abs_self m).trans hm
        calc (m : ℚ) * 2 ^ e ≤ 2 ^ p * 2 ^ e := by gcongr
          _ ≤ 2 ^ p * 2 ^ (-s - 1) := by
            gcongr
            · norm_num
            · omega
          _ = ((2 ^ (p - 1) : ℤ) : ℚ) * 2 ^ (-s) := by
            push_cast
            rw [← zpow_natCast, ← zpow_natCast, ← zpow_add₀ two, ← zpow_add₀ two]; congr 1
            push_cast [Nat.cast_sub (show 1 ≤ p from hp)]; ring
      have hlow : ((2 ^ (p - 1) : ℤ) : ℚ) * 2 ^ (-s) ≤ x := by
        push_cast
        calc (2 : ℚ) ^ (p - 1) * 2 ^ (-s) ≤ x * 2 ^ s * 2 ^ (-s) := by gcongr
          _ = x := by rw [mul_assoc, hinv, mul_one]
      refine (near (2 ^ (p - 1))).trans ?_
      rw [abs_of_nonneg (by linarith), abs_of_nonneg (by linarith)]
      linarith

theorem isFloat_neg {p : Nat} {z : ℚ} (h : IsFloat p z) : IsFloat p (-z) := by
  obtain ⟨m, e, hm, rfl⟩ := h
  exact ⟨-m, e, by rwa [abs_neg], by push_cast; ring⟩

/-- `rnd` rounds to a nearest `p` bit number. -/
theorem rnd_nearest {p : Nat} (hp : 0 < p) (x : ℚ) :
    IsFloat p (rnd p x) ∧ ∀ z, IsFloat p z → |x - rnd p x| ≤ |x - z| := by
  unfold rnd
  split
  · rename_i h
    subst h
    exact ⟨⟨0, 0, by simp, by simp⟩, fun z _ => by simp⟩
  · split
    · rename_i h
      obtain ⟨h1, h2⟩ := rndPos_nearest hp (neg_pos.2 h)
      refine ⟨isFloat_neg h1, fun z hz => ?_⟩
      have := h2 (-z) (isFloat_neg hz)
      rw [show x - -rndPos p (-x) = -(-x - rndPos p (-x)) by ring, abs_neg,
        show x - z = -(-x - -z) by ring, abs_neg]
      exact this
    · rename_i h0 h
      exact rndPos_nearest hp (lt_of_le_of_ne (not_lt.1 h) (Ne.symm h0))

/-- rounding of an `f64` operation -/
abbrev f64 : ℚ → ℚ := rnd 53

/-- rounding of an `f32` operation -/
abbrev f32 : ℚ → ℚ := rnd 24

example : f64 (1 / 10) = 3602879701896397 / 36028797018963968 := by decide +kernel

end Verif.Float
