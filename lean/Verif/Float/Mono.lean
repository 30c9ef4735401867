import Verif.Float.Round
import Mathlib.Order.Monotone.Defs

/-!
# Facts about rounding that proofs can use

`Rounding r N`: what the index computations of the code need from a rounding `r`. It holds for exact
arithmetic and for `f64` / `f32`.
-/

namespace Verif.Float

/-- a monotone rounding that is exact on the natural numbers up to `N` -/
structure Rounding {K : Type} [NatCast K] [Preorder K] (r : K → K) (N : Nat) : Prop where
  mono : Monotone r
  nat : ∀ n : Nat, n ≤ N → r n = n

theorem rounding_id {K : Type} [NatCast K] [Preorder K] (N : Nat) : Rounding (id : K → K) N :=
  ⟨fun _ _ h => h, fun _ _ => rfl⟩

theorem rnd_mono {p : Nat} (hp : 0 < p) : Monotone (rnd p) := by
  intro x y hxy
  by_contra hlt
  push Not at hlt
  obtain ⟨hfx, hx⟩ := rnd_nearest hp x
  obtain ⟨hfy, hy⟩ := rnd_nearest hp y
  have h1 := hx _ hfy
  have h2 := hy _ hfx
  rcases hxy.lt_or_eq with h | h
  · have h3 : (rnd p x + rnd p y) / 2 ≤ x := by
      rcases abs_cases (x - rnd p x) with ⟨e, c⟩ | ⟨e, c⟩ <;>
      rcases abs_cases (x - rnd p y) with ⟨e', c'⟩ | ⟨e', c'⟩ <;> linarith
    have h4 : y ≤ (rnd p x + rnd p y) / 2 := by
      rcases abs_cases (y - rnd p x) with ⟨e, c⟩ | ⟨e, c⟩ <;>
      rcases abs_cases (y - rnd p y) with ⟨e', c'⟩ | ⟨e', c'⟩ <;> linarith
    linarith
  · subst h
    exact lt_irrefl _ hlt

theorem rnd_of_isFloat {p : Nat} (hp : 0 < p) {z : ℚ} (hz : IsFloat p z) : rnd p z = z := by
  have h := (rnd_nearest hp z).2 _ hz
  rw [sub_self, abs_zero] at h
  have := abs_nonpos_iff.1 h
  linarith

theorem rounding_rnd {p : Nat} (hp : 0 < p) : Rounding (rnd p) (2 ^ p) := by
  refine ⟨rnd_mono hp, fun n hn => rnd_of_isFloat hp ⟨n, 0, ?_, by simp⟩⟩
  rw [abs_of_nonneg (Int.natCast_nonneg n)]
  exact_mod_cast hn

end Verif.Float
