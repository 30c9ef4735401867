import Verif.Stats.Model
import Mathlib.Order.Basic
import Mathlib.Tactic.Common

/-!
# C47: the exposed playback statistics

The values that `AudioContext::playback_stats` exposes are refreshed at most once per second
(`/repo/src/playback_stats.rs` l.91-120).
-/

namespace Verif.Stats

/-- a call of `AudioPlaybackStats`: one of the getters or `to_json` (`current`), or `reset_latency` (`refresh`), with the
state of the context, the time in nanoseconds and the values that `read_current_values` would give -/
structure Access (V : Type) where
  refresh : Bool
  running : Bool
  now : Nat
  fresh : V

variable {V : Type}

/-- one call -/
def Exposed.access (e : Exposed V) (a : Access V) : Exposed V :=
  if a.refresh then e.refresh a.now a.fresh else e.current a.running a.now a.fresh

/-- the exposed values after the first `n` calls -/
def Exposed.after (e : Exposed V) (a : Nat → Access V) : Nat → Exposed V
  | 0 => e
  | n + 1 => (Exposed.after e a n).access (a n)

/-- what call `n` shows -/
def shown (v : V) (a : Nat → Access V) (n : Nat) : V := (Exposed.after ⟨v, none⟩ a (n + 1)).values

/-- after any number of calls: nothing yet, or the values of an earlier call, at whose time they were taken -/
theorem after_spec (v : V) (a : Nat → Access V) (n : Nat) :
    ((Exposed.after ⟨v, none⟩ a n).last = none ∧ (Exposed.after ⟨v, none⟩ a n).values = v) ∨
    ∃ j < n, (Exposed.after ⟨v, none⟩ a n).last = some (a j).now ∧ (Exposed.after ⟨v, none⟩ a n).values = (a j).fresh ∧
      ((a j).refresh = true ∨ (a j).running = true) := by
  induction n with
  | zero => exact .inl ⟨rfl, rfl⟩
  | succ n ih =>
    simp only [Exposed.after, Exposed.access]
    split
    · rename_i h
      exact .inr ⟨n, by omega, rfl, rfl, .inl h⟩
    · unfold Exposed.current
      split
      · rename_i h
        rw [Bool.and_eq_true] at h
        exact .inr ⟨n, by omega, rfl, rfl, .inr h.1⟩
      · rcases ih with h | ⟨j, hj, h⟩
        · exact .inl h
        · exact .inr ⟨j, by omega, h⟩

/-- C47: what is shown was true at an earlier call (or is the initial value, while nothing was updated); on a running
context it is less than a second old. -/
theorem C47_exposed_fresh (v : V) (a : Nat → Access V) (n : Nat) :
    (shown v a n = v ∨ ∃ j ≤ n, shown v a n = (a j).fresh) ∧
    ((a n).running = true → ∃ j ≤ n, shown v a n = (a j).fresh ∧ (a n).now - (a j).now < 1000000000) := by
  refine ⟨?_, fun hr => ?_⟩
  · rcases after_spec v a (n + 1) with h | ⟨j, hj, _, h, _⟩
    · exact .inl h.2
    · exact .inr ⟨j, by omega, h⟩
  · unfold shown
    simp only [Exposed.after, Exposed.access]
    split
    · exact ⟨n, le_refl _, rfl, by omega⟩
    · unfold Exposed.current
      split
      · exact ⟨n, le_refl _, rfl, by omega⟩
      · rename_i h
        rw [hr, Bool.true_and] at h
        rcases after_spec v a n with h' | ⟨j, hj, h1, h2, _⟩
        · rw [h'.1] at h; exact absurd rfl h
        · rw [h1] at h
          simp only [due, decide_eq_true_eq] at h
          exact ⟨j, by omega, h2, by omega⟩

/-- C47: within a second, and without `reset_latency`, the exposed values change at most once. -/
theorem C47_exposed_stable (v : V) (a : Nat → Access V) (hmono : ∀ i j, i ≤ j → (a i).now ≤ (a j).now) (k m : Nat)
    (hkm : k ≤ m) (hw : (a m).now - (a k).now < 1000000000) (hnr : ∀ i, k ≤ i → i ≤ m → (a i).refresh = false) :
    ∃ c, k ≤ c ∧ c ≤ m + 1 ∧ (∀ i, k ≤ i → i < c → shown v a i = (Exposed.after ⟨v, none⟩ a k).values) ∧
      ∀ i, c ≤ i → i ≤ m → shown v a i = shown v a m := by
  -- once updated in the window, no further update
  have keep : ∀ c, k ≤ c → (Exposed.after ⟨v, none⟩ a (c + 1)).last = some (a c).now → ∀ d, c + d ≤ m →
      Exposed.after ⟨v, none⟩ a (c + d + 1) = Exposed.after ⟨v, none⟩ a (c + 1) := by
    intro c hc hl d
    induction d with
    | zero => intro _; rfl
    | succ d ih =>
      intro hd
      have ih := ih (by omega)
      show (Exposed.after ⟨v, none⟩ a (c + d + 1)).access (a (c + d + 1)) = _
      rw [ih]
      unfold Exposed.access
      rw [if_neg (by rw [hnr _ (by omega) (by omega)]; decide)]
      unfold Exposed.current
      rw [if_neg]
      rw [hl]
      have h1 := hmono k c hc
      have h2 := hmono (c + d + 1) m (by omega)
      simp only [due, Bool.and_eq_true, decide_eq_true_eq, not_and, not_le, ge_iff_le]
      intro _
      omega
  -- the first update in the window
  have first : ∀ d, k + d ≤ m + 1 →
      (Exposed.after ⟨v, none⟩ a (k + d) = Exposed.after ⟨v, none⟩ a k ∧
        ∀ i, k ≤ i → i < k + d → shown v a i = (Exposed.after ⟨v, none⟩ a k).values) ∨
      ∃ c, k ≤ c ∧ c < k + d ∧ (Exposed.after ⟨v, none⟩ a (c + 1)).last = some (a c).now ∧
        ∀ i, k ≤ i → i < c → shown v a i = (Exposed.after ⟨v, none⟩ a k).values := by
    intro d
    induction d with
    | zero => intro _; exact .inl ⟨rfl, fun i h1 h2 => by omega⟩
    | succ d ih =>
      intro hd
      rcases ih (by omega) with ⟨h1, h2⟩ | ⟨c, hc1, hc2, h⟩
      · have hstep : Exposed.after ⟨v, none⟩ a (k + d + 1) =
            (Exposed.after ⟨v, none⟩ a (k + d)).current (a (k + d)).running (a (k + d)).now (a (k + d)).fresh := by
          show (Exposed.after ⟨v, none⟩ a (k + d)).access (a (k + d)) = _
          unfold Exposed.access
          rw [if_neg (by rw [hnr _ (by omega) (by omega)]; decide)]
        unfold Exposed.current at hstep
        split at hstep
        · exact .inr ⟨k + d, by omega, by omega, by rw [hstep], h2⟩
        · left
          refine ⟨hstep.trans h1, fun i hi1 hi2 => ?_⟩
          rcases Nat.lt_or_ge i (k + d) with h | h
          · exact h2 i hi1 h
          · have : i = k + d := by omega
            subst this
            unfold shown
            rw [hstep, h1]
      · exact .inr ⟨c, hc1, by omega, h⟩
  rcases first (m + 1 - k) (by omega) with ⟨_, h2⟩ | ⟨c, hc1, hc2, hl, hb⟩
  · exact ⟨m + 1, by omega, le_refl _, fun i h1 h => h2 i h1 (by omega), fun i h1 h => by omega⟩
  · refine ⟨c, hc1, by omega, hb, fun i h1 h2 => ?_⟩
    have e1 := keep c hc1 hl (i - c) (by omega)
    have e2 := keep c hc1 hl (m - c) (by omega)
    rw [show c + (i - c) + 1 = i + 1 by omega] at e1
    rw [show c + (m - c) + 1 = m + 1 by omega] at e2
    unfold shown
    rw [e1, e2]

/-- C47: while the context is not running nothing changes, except by `reset_latency`. -/
theorem C47_exposed_paused (v : V) (a : Nat → Access V) (n : Nat) (h1 : (a n).running = false)
    (h2 : (a n).refresh = false) : shown v a n = (Exposed.after ⟨v, none⟩ a n).values := by
  unfold shown
  simp only [Exposed.after, Exposed.access, h2, Exposed.current, h1]
  simp

/-- Three calls: the second is too early, the third gets new values. -/
example : (List.range 3).map (shown 7 fun i => ⟨false, true, 600000000 * i, i⟩) = [0, 0, 2] := by decide +kernel

end Verif.Stats
