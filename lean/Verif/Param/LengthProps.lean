import Verif.Param.Model
import Mathlib.Tactic.Linarith
import Mathlib.Tactic.FieldSimp
import Mathlib.Tactic.Ring
import Mathlib.Algebra.Order.Floor.Semifield
import Mathlib.Data.Rat.Floor

/-!
# C24: automation yields one value or exactly one value per frame

For all timelines (any events in any order), all block times, both rates, and whatever the arithmetic on
values.
-/

namespace Verif.Param

section
variable {K V : Type} [Field K] [LinearOrder K] [IsStrictOrderedRing K] [FloorSemiring K]

omit [Field K] [LinearOrder K] [IsStrictOrderedRing K] [FloorSemiring K] in
theorem length_extend (buf : List V) (stop : Nat) (f : Nat → V) :
    (extend buf stop f).length = max buf.length stop := by
  simp [extend]; omega

omit [Field K] [LinearOrder K] [IsStrictOrderedRing K] [FloorSemiring K] in
theorem extend_of_le {buf : List V} {stop : Nat} (f : Nat → V) (h : stop ≤ buf.length) :
    extend buf stop f = buf := by
  simp [extend, Nat.sub_eq_zero_of_le h]

omit [Field K] [LinearOrder K] [IsStrictOrderedRing K] [FloorSemiring K] in
theorem length_mapM {α β : Type} {f : α → Option β} {l : List α} {s : List β} (h : l.mapM f = some s) :
    s.length = l.length := by
  induction l generalizing s with
  | nil => simp at h; simp [← h]
  | cons a l ih =>
    simp only [List.mapM_cons, Option.bind_eq_bind, Option.bind_eq_some_iff] at h
    obtain ⟨b, _, t, ht, h⟩ := h
    cases h
    simp [ih ht]

/-- An event at or after the end of the block has an index beyond the block. -/
theorem Block.count_le_index {b : Block K} (hdt : 0 < b.dt) {t : K} (h : b.next ≤ t) :
    b.count ≤ b.index t := by
  unfold Block.index
  apply Nat.le_floor
  have h1 : (b.count : K) ≤ max (t - b.time) 0 / b.dt := by
    rw [le_div_iff₀ hdt]
    refine le_trans ?_ (le_max_left _ _)
    unfold Block.next at h
    linarith [mul_comm b.dt (b.count : K)]
  linarith

/-- What one pass of the loop does to the buffer. -/
structure Grows (b : Block K) (p : Proc K V) (r : Bool × Proc K V) : Prop where
  rate : r.2.aRate = p.aRate
  single : p.aRate = false → r.2.buffer.length = p.buffer.length
  le : p.aRate = true → p.buffer.length ≤ b.count → r.2.buffer.length ≤ b.count
  full : p.aRate = true → p.buffer.length ≤ b.count → r.1 = true → r.2.buffer.length = b.count

theorem computeRamp_grows {b : Block K} (hdt : 0 < b.dt) (f : K → K → V → V → K → V) (p : Proc K V)
    (e l : Ev K V) (rest : List (Ev K V)) : Grows b p (computeRamp f p b e l rest) := by
  unfold computeRamp
  dsimp only
  split
  · rename_i h
    have := b.count_le_index hdt h
    refine ⟨rfl, ?_, ?_, ?_⟩ <;> intro ha <;> simp only [ha, if_true, length_extend] <;> simp <;> omega
  · split <;>
    · refine ⟨rfl, ?_, ?_, ?_⟩ <;> intro ha <;> simp only [ha, if_true, length_extend] <;> simp <;> omega

theorem computeEvent_grows {A : Arith K V} {b : Block K} (hdt : 0 < b.dt) {p : Proc K V}
    {r : Bool × Proc K V} (h : computeEvent A p b = .ok r) : Grows b p r := by
  have hset : computeSetValue p b = .ok r → Grows b p r := by
    intro h
    unfold computeSetValue at h
    split at h
    · cases h
    · dsimp only at h
      split at h <;> rename_i hlt
      · have := b.count_le_index hdt hlt.le
        cases h
        refine ⟨rfl, ?_, ?_, ?_⟩ <;> intro ha <;> simp only [ha, if_true, length_extend] <;> simp <;> omega
      · cases h
        refine ⟨rfl, ?_, ?_, ?_⟩ <;> intro ha <;> simp only [ha, if_true, length_extend] <;> simp <;> omega
  unfold computeEvent at h
  split at h
  · cases h
    refine ⟨rfl, ?_, ?_, ?_⟩ <;> intro ha <;> simp only [ha, if_true, length_extend] <;> simp <;> omega
  · split at h
    · exact hset h
    · exact hset h
    · unfold computeLinear at h
      split at h
      · cases h; exact computeRamp_grows hdt ..
      · cases h
    · unfold computeExp at h
      split at h
      · split at h
        · cases h
          refine ⟨rfl, fun _ => rfl, fun _ h => h, fun _ _ h => by cases h⟩
        · cases h; exact computeRamp_grows hdt ..
      · cases h
    · rename_i tau _
      unfold computeTarget at h
      split at h
      · rename_i e rest l _ _
        dsimp only at h
        have hn := b.count_le_index hdt (le_refl b.next)
        split at h
        · rename_i hte
          rw [hte] at h
          simp only [Option.getD_none] at h
          split at h
          · cases h
            refine ⟨rfl, ?_, ?_, ?_⟩ <;> intro ha <;> simp only [ha] <;> split <;>
              simp [length_extend] <;> omega
          · cases h
            refine ⟨rfl, ?_, ?_, ?_⟩ <;> intro ha <;> simp only [ha, if_true, length_extend] <;> simp <;> omega
        · cases h
          refine ⟨rfl, ?_, ?_, ?_⟩ <;> intro ha <;> simp only [ha, if_true, length_extend] <;> simp <;> omega
      · cases h
    · rename_i dur values _
      unfold computeCurve at h
      split at h
      · cases h
      · rename_i e rest _
        dsimp only at h
        split at h
        · cases h
        · rename_i s hs
          have hlen : s.length = if p.aRate then
              min (b.index (e.cancelTime.getD (e.time + dur))) b.count - p.buffer.length else 0 := by
            cases ha : p.aRate with
            | true =>
              rw [ha] at hs
              simp only [if_true] at hs ⊢
              simpa using length_mapM hs
            | false => rw [ha] at hs; simp at hs; simp [← hs]
          split at h
          · rename_i hle
            have := b.count_le_index hdt hle
            split at h
            · cases h
            · cases h
              refine ⟨rfl, ?_, ?_, ?_⟩ <;> intro ha <;>
                simp only [ha, List.length_append, hlen] <;> simp <;> omega
          · split at h
            · cases h
            · cases h
              refine ⟨rfl, ?_, ?_, ?_⟩ <;> intro ha <;>
                simp only [ha, List.length_append, hlen] <;> simp <;> omega
    · cases h
    · cases h

theorem loop_length {A : Arith K V} {b : Block K} (hdt : 0 < b.dt) {n : Nat} {p p' : Proc K V}
    (h : loop A b n p = .ok p') :
    (p.aRate = false → p'.buffer.length = p.buffer.length) ∧
    (p.aRate = true → p.buffer.length ≤ b.count → p'.buffer.length = b.count) := by
  induction n generalizing p with
  | zero => cases h
  | succ n ih =>
    unfold loop at h
    cases he : computeEvent A p b with
    | panic => rw [he] at h; cases h
    | fuel => rw [he] at h; cases h
    | ok r =>
      rw [he] at h
      simp only [Res.bind] at h
      have g := computeEvent_grows hdt he
      split at h
      · rename_i hr
        cases h
        exact ⟨g.single, fun ha hb => g.full ha hb hr⟩
      · obtain ⟨i1, i2⟩ := ih h
        refine ⟨fun ha => ?_, fun ha hb => ?_⟩
        · rw [i1 (g.rate.trans ha), g.single ha]
        · exact i2 (g.rate.trans ha) (g.le ha hb)

/-- C24: a quantum yields exactly 1 or exactly `count` (128) values: one for k-rate parameters and for
a-rate parameters when no event is due (see `C24_collapse`), otherwise `count`. -/
theorem C24_length {A : Arith K V} {b : Block K} (hdt : 0 < b.dt) {p p' : Proc K V}
    (h : computeBuffer A p b = .ok p') :
    p'.buffer.length = if p.aRate && !isConstant p b then b.count else 1 := by
  unfold computeBuffer at h
  dsimp only at h
  have hc : ∀ (c : V) (buf : List V), isConstant { p with current := c, buffer := buf } b =
      isConstant p b := fun _ _ => rfl
  rw [hc] at h
  split at h
  · rename_i hk
    cases h
    simp [hk]
  · rename_i hk
    have := loop_length hdt h
    cases ha : p.aRate with
    | true => simpa [ha, hk] using this.2 (by simp [ha])
    | false => simpa [ha, hk] using this.1 (by simp [ha])

/-! ## Termination -/

/-- bound on the number of passes of the loop that are left, minus one -/
def mu (p : Proc K V) : Nat :=
  match p.timeline with
  | [] => 0
  | e :: rest => 2 * rest.length + (match e.kind with | .exponential => 2 | _ => 1)

omit [Field K] [LinearOrder K] [IsStrictOrderedRing K] [FloorSemiring K] in
theorem mu_le (p : Proc K V) : mu p ≤ 2 * p.timeline.length := by
  unfold mu
  split
  · simp
  · rename_i h
    rw [h]
    simp only [List.length_cons]
    split <;> omega

omit [Field K] [LinearOrder K] [IsStrictOrderedRing K] [FloorSemiring K] in
theorem mu_pos {p : Proc K V} {e : Ev K V} {rest : List (Ev K V)} (h : p.timeline = e :: rest) :
    2 * rest.length < mu p := by
  unfold mu; rw [h]; simp only; split <;> omega

theorem computeRamp_shrinks (f : K → K → V → V → K → V) (p : Proc K V) (b : Block K)
    (e l : Ev K V) (rest : List (Ev K V)) (hp : p.timeline = e :: rest)
    (h : (computeRamp f p b e l rest).1 = false) : mu (computeRamp f p b e l rest).2 < mu p := by
  unfold computeRamp at h ⊢
  dsimp only at h ⊢
  have := mu_pos hp
  split
  · rename_i hc; rw [if_pos hc] at h; cases h
  · split <;> exact lt_of_le_of_lt (mu_le _) this

/-- A pass that does not leave the loop shortens the rest. -/
theorem computeEvent_shrinks {A : Arith K V} {b : Block K} {p p' : Proc K V}
    (h : computeEvent A p b = .ok (false, p')) : mu p' < mu p := by
  have hset : computeSetValue p b = .ok (false, p') → mu p' < mu p := by
    intro h
    unfold computeSetValue at h
    split at h
    · cases h
    · rename_i hp
      dsimp only at h
      split at h
      · cases h
      · cases h
        exact lt_of_le_of_lt (mu_le _) (mu_pos hp)
  unfold computeEvent at h
  split at h
  · cases h
  · rename_i e0 rest0 hp0
    split at h
    · exact hset h
    · exact hset h
    · unfold computeLinear at h
      split at h
      · rename_i hp _
        injection h with h
        have := computeRamp_shrinks A.lin p b _ _ _ hp (by rw [h])
        rwa [h] at this
      · cases h
    · rename_i hk
      unfold computeExp at h
      split at h
      · rename_i e rest l hp _
        split at h
        · cases h
          have he : e.kind = .exponential := by
            rw [hp0] at hp; injection hp with h1 _; rw [← h1]; exact hk
          simp only [mu, hp, he]
          omega
        · injection h with h
          have := computeRamp_shrinks A.exp p b _ _ _ hp (by rw [h])
          rwa [h] at this
      · cases h
    · unfold computeTarget at h
      split at h
      · rename_i hp _
        dsimp only at h
        split at h
        · split at h <;> cases h
        · cases h
          exact lt_of_le_of_lt (mu_le _) (mu_pos hp)
      · cases h
    · unfold computeCurve at h
      split at h
      · cases h
      · rename_i hp
        dsimp only at h
        split at h
        · cases h
        · split at h
          · split at h <;> cases h
          · split at h
            · cases h
            · cases h
              exact lt_of_le_of_lt (mu_le _) (mu_pos hp)
    · cases h
    · cases h

theorem computeEvent_ne_fuel {A : Arith K V} {b : Block K} {p : Proc K V} :
    computeEvent A p b ≠ .fuel := by
  have hset : computeSetValue p b ≠ .fuel := by
    unfold computeSetValue
    split
    · simp
    · dsimp only; split <;> simp
  unfold computeEvent
  split
  · simp
  · split
    · exact hset
    · exact hset
    · unfold computeLinear; split <;> simp
    · unfold computeExp; split
      · split <;> simp
      · simp
    · unfold computeTarget; split
      · dsimp only; split
        · split <;> simp
        · simp
      · simp
    · unfold computeCurve; split
      · simp
      · dsimp only; split
        · simp
        · split
          · split <;> simp
          · split <;> simp
    · simp
    · simp

theorem loop_ne_fuel {A : Arith K V} {b : Block K} {n : Nat} {p : Proc K V} (h : mu p < n) :
    loop A b n p ≠ .fuel := by
  induction n generalizing p with
  | zero => omega
  | succ n ih =>
    unfold loop
    cases he : computeEvent A p b with
    | panic => simp [Res.bind]
    | fuel => exact absurd he computeEvent_ne_fuel
    | ok r =>
      obtain ⟨x, p'⟩ := r
      cases x with
      | true => simp [Res.bind]
      | false =>
        simp only [Res.bind, Bool.false_eq_true, if_false]
        have := computeEvent_shrinks he
        exact ih (by omega)

/-- C24: the computation terminates: the bound on the number of passes is never exhausted. -/
theorem C24_terminates (A : Arith K V) (b : Block K) (p : Proc K V) : computeBuffer A p b ≠ .fuel := by
  unfold computeBuffer
  dsimp only
  have hc : ∀ (c : V) (buf : List V), isConstant { p with current := c, buffer := buf } b =
      isConstant p b := fun _ _ => rfl
  rw [hc]
  by_cases h : isConstant p b = true
  · simp [h]
  · rw [if_neg h]
    exact loop_ne_fuel (Nat.lt_succ_of_le (mu_le _))

/-! ## A collapsed buffer stands for equal values -/

theorem extend_full {buf : List V} {n : Nat} {v : V} (k : Nat) (f : Nat → V)
    (hb : buf = List.replicate n v) : extend buf (min k n) f = List.replicate n v := by
  subst hb
  exact extend_of_le f (by simp)

/-- A full buffer of equal values stays so, up to the flushing of subnormals. -/
theorem computeEvent_full {A : Arith K V} {b : Block K} {p : Proc K V} {v : V}
    (ha : p.aRate = true) (hb : p.buffer = List.replicate b.count v) {r : Bool × Proc K V}
    (h : computeEvent A p b = .ok r) :
    r.2.aRate = true ∧ (r.2.buffer = List.replicate b.count v ∨
      r.2.buffer = List.replicate b.count (A.flush v)) := by
  have hramp : ∀ f e l rest, computeRamp f p b e l rest = r →
      r.2.aRate = true ∧ (r.2.buffer = List.replicate b.count v ∨
      r.2.buffer = List.replicate b.count (A.flush v)) := by
    rintro f e l rest rfl
    unfold computeRamp
    dsimp only
    split
    · exact ⟨ha, .inl (by simp [ha, extend_full _ _ hb])⟩
    · split <;> exact ⟨ha, .inl (by simp [ha, extend_full _ _ hb])⟩
  have hset : computeSetValue p b = .ok r → r.2.aRate = true ∧ (r.2.buffer = List.replicate b.count v ∨
      r.2.buffer = List.replicate b.count (A.flush v)) := by
    intro h
    unfold computeSetValue at h
    split at h
    · cases h
    · dsimp only at h
      split at h <;> cases h <;> exact ⟨ha, .inl (by simp [ha, extend_full _ _ hb])⟩
  unfold computeEvent at h
  split at h
  · cases h
    refine ⟨ha, .inl ?_⟩
    simp only [ha, if_true]
    rw [← Nat.min_self b.count, extend_full _ _ hb, Nat.min_self]
  · split at h
    · exact hset h
    · exact hset h
    · unfold computeLinear at h
      split at h
      · injection h with h; exact hramp _ _ _ _ h
      · cases h
    · unfold computeExp at h
      split at h
      · split at h
        · cases h; exact ⟨ha, .inl hb⟩
        · injection h with h; exact hramp _ _ _ _ h
      · cases h
    · unfold computeTarget at h
      split at h
      · dsimp only at h
        split at h
        · split at h
          · cases h
            refine ⟨ha, ?_⟩
            simp only [ha, if_true, extend_full _ _ hb]
            split
            · right; simp
            · left; rfl
          · cases h; exact ⟨ha, .inl (by simp [ha, extend_full _ _ hb])⟩
        · cases h; exact ⟨ha, .inl (by simp [ha, extend_full _ _ hb])⟩
      · cases h
    · unfold computeCurve at h
      split at h
      · cases h
      · dsimp only at h
        split at h
        · cases h
        · rename_i s hs
          rw [if_pos ha, show ∀ k, min k b.count - p.buffer.length = 0 by
            intro k; rw [hb, List.length_replicate]; omega] at hs
          simp at hs
          subst hs
          split at h
          · split at h
            · cases h
            · cases h; exact ⟨ha, .inl (by simp [hb])⟩
          · split at h
            · cases h
            · cases h; exact ⟨ha, .inl (by simp [hb])⟩
    · cases h
    · cases h

theorem loop_full {A : Arith K V} {b : Block K} {n : Nat} {p p' : Proc K V} {v : V}
    (ha : p.aRate = true) (hb : p.buffer = List.replicate b.count v) (h : loop A b n p = .ok p') :
    ∃ k, p'.buffer = List.replicate b.count (A.flush^[k] v) := by
  induction n generalizing p v with
  | zero => cases h
  | succ n ih =>
    unfold loop at h
    cases he : computeEvent A p b with
    | panic => rw [he] at h; cases h
    | fuel => rw [he] at h; cases h
    | ok r =>
      rw [he] at h
      simp only [Res.bind] at h
      obtain ⟨h1, h2⟩ := computeEvent_full ha hb he
      split at h
      · cases h
        rcases h2 with h2 | h2
        · exact ⟨0, h2⟩
        · exact ⟨1, h2⟩
      · rcases h2 with h2 | h2
        · exact ih h1 h2 h
        · obtain ⟨k, hk⟩ := ih h1 h2 h
          exact ⟨k + 1, by rw [hk, Function.iterate_succ_apply]⟩

end

end Verif.Param
