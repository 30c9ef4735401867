import Verif.Node.Quantum
import Verif.Float.Round
import Mathlib.Algebra.Order.Floor.Ring
import Mathlib.Algebra.Order.Field.Basic
import Mathlib.Tactic.Linarith
import Mathlib.Tactic.Ring
import Mathlib.Tactic.FieldSimp
import Mathlib.Tactic.Positivity

/-!
# C39: wave shaper

Models `apply_curve`, `onmessage` and the branches of `process` without oversampling
(`/repo/src/node/waveshaper.rs` l.384-408, l.489-515, l.555-573) in exact arithmetic. The
oversampled branches, which call the same `apply_curve`, are in `Oversample.lean`.
-/

namespace Verif.Node

section
variable {K : Type} [Field K] [LinearOrder K] [IsStrictOrderedRing K] [FloorRing K]

/-- `apply_curve`, l.555-573; `none` is an index out of bounds -/
def applyCurve (curve : List K) (input : K) : Option K :=
  if curve = [] then some 0
  else
    let n : K := curve.length
    let v := (n - 1) / 2 * (input + 1)
    if v ≤ 0 then curve[0]?
    else if v ≥ n - 1 then curve[⌊n - 1⌋.toNat]?
    else
      let k := ⌊v⌋
      let f := v - k
      match curve[k.toNat]?, curve[(k + 1).toNat]? with
      | some a, some b => some ((1 - f) * a + f * b)
      | _, _ => none

/-- `onmessage`, l.495-509: whether silence can be propagated; `none` is an index out of bounds. `eps` is 1e-9. -/
def canPropagate (eps : K) (curve : List K) : Option Bool :=
  if curve.length % 2 = 1 then
    match curve[curve.length / 2]? with
    | some c => some (decide (|c| < eps))
    | none => none
  else if curve.length / 2 = 0 then none
  else
    match curve[curve.length / 2 - 1]?, curve[curve.length / 2]? with
    | some a, some b => some (decide (|(a + b) / 2| < eps))
    | _, _ => none

/-- the samples of a channel, l.405-407 -/
def shapeChan (N : Nat) (curve : List K) (c : Chan K) : Option (Chan K) :=
  match (c.data N).mapM (applyCurve curve) with
  | some l => some (some l)
  | none => none

/-- `process`, l.384-408, without oversampling -/
def shaper (N : Nat) (curve : Option (List K)) (propagate : Bool) (input : Quantum K) : Option (Quantum K) :=
  if isSilent input && propagate then some silence
  else
    match curve with
    | none => some input
    | some c => input.mapM (shapeChan N c)

/-! ### specification -/

/-- `y` is the value at position `p` of the piecewise linear function through the points `(i, curve i)`. -/
def OnCurve (curve : List K) (p y : K) : Prop :=
  (∃ i : Nat, i < curve.length ∧ p = i ∧ curve[i]? = some y) ∨
  ∃ i : Nat, ∃ a b, curve[i]? = some a ∧ curve[i + 1]? = some b ∧ (i : K) ≤ p ∧ p ≤ i + 1 ∧ y = a + (p - i) * (b - a)

/-- position of an input on a curve with `n` points -/
def position (n : Nat) (x : K) : K := max 0 (min ((n : K) - 1) (((n : K) - 1) / 2 * (x + 1)))

omit [FloorRing K] in
/-- The specification determines the value. -/
theorem OnCurve.unique {curve : List K} {p y y' : K} (h : OnCurve curve p y) (h' : OnCurve curve p y') : y = y' := by
  have key : ∀ {i j : Nat} {a b y : K}, curve[i]? = some y → (i : K) = p → curve[j]? = some a →
      curve[j + 1]? = some b → (j : K) ≤ p → p ≤ j + 1 → a + (p - j) * (b - a) = y := by
    intro i j a b y hi hp ha hb h1 h2
    rw [← hp] at h1 h2 ⊢
    have h1' : j ≤ i := by exact_mod_cast h1
    have h2' : i ≤ j + 1 := by exact_mod_cast h2
    rcases Nat.lt_or_ge j i with hlt | hge
    · have : i = j + 1 := by omega
      subst this
      rw [hb] at hi
      injection hi with hi
      push_cast
      rw [hi]; ring
    · have : i = j := by omega
      subst this
      rw [ha] at hi
      injection hi with hi
      rw [hi]; ring
  rcases h with ⟨i, hi, hp, hy⟩ | ⟨i, a, b, ha, hb, h1, h2, rfl⟩
  · rcases h' with ⟨j, hj, hp', hy'⟩ | ⟨j, a', b', ha', hb', h1', h2', rfl⟩
    · have : i = j := by
        rw [hp] at hp'
        exact_mod_cast hp'
      subst this
      rw [hy] at hy'
      injection hy'
    · exact (key hy hp.symm ha' hb' h1' h2').symm
  · rcases h' with ⟨j, hj, hp', hy'⟩ | ⟨j, a', b', ha', hb', h1', h2', rfl⟩
    · exact key hy' hp'.symm ha hb h1 h2
    · have hij : (i : K) ≤ j + 1 := le_trans h1 h2'
      have hji : (j : K) ≤ i + 1 := le_trans h1' h2
      have hij' : i ≤ j + 1 := by exact_mod_cast hij
      have hji' : j ≤ i + 1 := by exact_mod_cast hji
      rcases Nat.lt_trichotomy i j with hlt | heq | hgt
      · have : j = i + 1 := by omega
        subst this
        rw [hb] at ha'
        injection ha' with ha'
        subst ha'
        have : p = i + 1 := le_antisymm h2 (by push_cast at h1'; exact h1')
        rw [this]; push_cast; ring
      · subst heq
        rw [ha] at ha'; rw [hb] at hb'
        injection ha' with ha'; injection hb' with hb'
        rw [ha', hb']
      · have : i = j + 1 := by omega
        subst this
        rw [hb'] at ha
        injection ha with ha
        subst ha
        have : p = j + 1 := le_antisymm h2' (by push_cast at h1; exact h1)
        rw [this]; push_cast; ring

omit [FloorRing K] in
/-- A value on the curve lies between all bounds of the points. -/
theorem OnCurve.bounds {curve : List K} {p y lo hi : K} (h : OnCurve curve p y)
    (hb : ∀ c ∈ curve, lo ≤ c ∧ c ≤ hi) : lo ≤ y ∧ y ≤ hi := by
  rcases h with ⟨i, _, _, hy⟩ | ⟨i, a, b, ha, hb', h1, h2, rfl⟩
  · exact hb _ (List.mem_of_getElem? hy)
  · obtain ⟨a1, a2⟩ := hb _ (List.mem_of_getElem? ha)
    obtain ⟨b1, b2⟩ := hb _ (List.mem_of_getElem? hb')
    constructor <;> nlinarith

/-- C39: `apply_curve` never reads outside of the curve and evaluates the piecewise linear function at the clamped
position. -/
theorem C39_apply_curve (curve : List K) (hne : curve ≠ []) (x : K) :
    ∃ y, applyCurve curve x = some y ∧ OnCurve curve (position curve.length x) y := by
  obtain ⟨m, hm⟩ : ∃ m, curve.length = m + 1 := ⟨curve.length - 1, by have := List.length_pos_iff.2 hne; omega⟩
  have hn : (curve.length : K) - 1 = m := by rw [hm]; push_cast; ring
  have hm0 : (0 : K) ≤ m := Nat.cast_nonneg m
  unfold applyCurve position
  rw [if_neg hne]
  simp only [hn]
  generalize (m : K) / 2 * (x + 1) = v
  split
  · rename_i hv
    have h0 : 0 < curve.length := by omega
    refine ⟨curve[0], List.getElem?_eq_getElem h0, Or.inl ⟨0, h0, ?_, List.getElem?_eq_getElem h0⟩⟩
    rw [max_eq_left (le_trans (min_le_right _ _) hv)]
    simp
  · rename_i hv
    have hv := not_le.1 hv
    split
    · rename_i hv2
      have hfl : ⌊(m : K)⌋.toNat = m := by simp
      have hml : m < curve.length := by omega
      rw [hfl]
      refine ⟨curve[m], List.getElem?_eq_getElem hml, Or.inl ⟨m, hml, ?_, List.getElem?_eq_getElem hml⟩⟩
      rw [min_eq_left hv2, max_eq_right hm0]
    · rename_i hv2
      have hv2 := not_le.1 hv2
      have hk0 : 0 ≤ ⌊v⌋ := Int.floor_nonneg.2 (le_of_lt hv)
      obtain ⟨k, hk⟩ := Int.eq_ofNat_of_zero_le hk0
      have hkm : k < m := by
        have h1 : ((⌊v⌋ : ℤ) : K) < m := lt_of_le_of_lt (Int.floor_le v) hv2
        rw [hk] at h1
        exact_mod_cast h1
      have e1 : ⌊v⌋.toNat = k := by rw [hk]; rfl
      have e2 : (⌊v⌋ + 1).toNat = k + 1 := by rw [hk]; rfl
      have l1 : k < curve.length := by omega
      have l2 : k + 1 < curve.length := by omega
      have hkv : ((⌊v⌋ : ℤ) : K) = k := by rw [hk]; simp
      rw [e1, e2, List.getElem?_eq_getElem l1, List.getElem?_eq_getElem l2]
      refine ⟨_, rfl, Or.inr ⟨k, curve[k], curve[k + 1], List.getElem?_eq_getElem l1, List.getElem?_eq_getElem l2,
        ?_, ?_, ?_⟩⟩
      · rw [min_eq_right (le_of_lt hv2), max_eq_right (le_of_lt hv), ← hkv]
        exact Int.floor_le v
      · rw [min_eq_right (le_of_lt hv2), max_eq_right (le_of_lt hv), ← hkv]
        exact le_of_lt (Int.lt_floor_add_one v)
      · rw [min_eq_right (le_of_lt hv2), max_eq_right (le_of_lt hv), hkv]
        ring

/-- C39: the output lies between the smallest and the largest value of the curve. -/
theorem C39_bounds (curve : List K) (x y lo hi : K) (hne : curve ≠ []) (h : applyCurve curve x = some y)
    (hb : ∀ c ∈ curve, lo ≤ c ∧ c ≤ hi) : lo ≤ y ∧ y ≤ hi := by
  obtain ⟨y', h1, h2⟩ := C39_apply_curve curve hne x
  rw [h] at h1
  injection h1 with h1
  subst h1
  exact h2.bounds hb

/-! ### the node -/

theorem applyCurve_zero {eps : K} {curve : List K} {b : Bool} (h : canPropagate eps curve = some b) :
    ∃ y, applyCurve curve 0 = some y ∧ (b = true → |y| < eps) := by
  have hne : curve ≠ [] := by
    rintro rfl
    simp [canPropagate] at h
  obtain ⟨y, hy, hc⟩ := C39_apply_curve curve hne 0
  refine ⟨y, hy, fun hb => ?_⟩
  subst hb
  obtain ⟨m, hm⟩ : ∃ m, curve.length = m + 1 := ⟨curve.length - 1, by have := List.length_pos_iff.2 hne; omega⟩
  have hm0 : (0 : K) ≤ m := Nat.cast_nonneg m
  have hpos : position curve.length (0 : K) = m / 2 := by
    unfold position
    have : ((curve.length : K) - 1) = m := by rw [hm]; push_cast; ring
    rw [this, zero_add, mul_one, min_eq_right (by linarith), max_eq_right (by linarith)]
  rw [hpos] at hc
  unfold canPropagate at h
  split at h
  · rename_i hodd
    obtain ⟨j, hj⟩ : ∃ j, m = 2 * j := ⟨m / 2, by omega⟩
    have hl : curve.length / 2 = j := by omega
    have hjl : j < curve.length := by omega
    rw [hl, List.getElem?_eq_getElem hjl] at h
    simp only [Option.some.injEq, decide_eq_true_eq] at h
    have : OnCurve curve ((m : K) / 2) curve[j] := by
      refine Or.inl ⟨j, hjl, ?_, List.getElem?_eq_getElem hjl⟩
      rw [hj]; push_cast; ring
    rw [hc.unique this]
    exact h
  · split at h
    · cases h
    · rename_i hodd h2
      obtain ⟨j, hj⟩ : ∃ j, m = 2 * j + 1 := ⟨m / 2, by omega⟩
      have hl : curve.length / 2 = j + 1 := by omega
      have l1 : j < curve.length := by omega
      have l2 : j + 1 < curve.length := by omega
      rw [hl, Nat.add_sub_cancel, List.getElem?_eq_getElem l1, List.getElem?_eq_getElem l2] at h
      simp only [Option.some.injEq, decide_eq_true_eq] at h
      have : OnCurve curve ((m : K) / 2) ((curve[j] + curve[j + 1]) / 2) := by
        refine Or.inr ⟨j, _, _, List.getElem?_eq_getElem l1, List.getElem?_eq_getElem l2, ?_, ?_, ?_⟩
        · rw [hj]; push_cast; linarith
        · rw [hj]; push_cast; linarith
        · rw [hj]; push_cast; ring
      rw [hc.unique this]
      exact h

theorem mapM_getElem {α β : Type} {f : α → Option β} : ∀ {l : List α} {r : List β}, l.mapM f = some r →
    ∀ i : Nat, r[i]? = (l[i]?).bind f := by
  intro l
  induction l with
  | nil => intro r h i; simp at h; subst h; simp
  | cons a l ih =>
    intro r h i
    rw [List.mapM_cons] at h
    simp only [Option.bind_eq_bind, Option.pure_def] at h
    obtain ⟨b, hb, h⟩ := Option.bind_eq_some_iff.1 h
    obtain ⟨bs, hbs, h⟩ := Option.bind_eq_some_iff.1 h
    injection h with h
    subst h
    cases i with
    | zero => simp [hb]
    | succ i => simpa using ih hbs i

theorem mapM_isSome {α β : Type} {f : α → Option β} : ∀ {l : List α}, (∀ a ∈ l, ∃ b, f a = some b) →
    ∃ r, l.mapM f = some r := by
  intro l
  induction l with
  | nil => intro _; exact ⟨[], rfl⟩
  | cons a l ih =>
    intro h
    obtain ⟨b, hb⟩ := h a (by simp)
    obtain ⟨r, hr⟩ := ih (fun x hx => h x (by simp [hx]))
    exact ⟨b :: r, by rw [List.mapM_cons, hb, hr]; rfl⟩

/-- C39: the node with a curve that the renderer accepted. No fault; every sample of the output is on the curve at
the position of the sample of the input, except that a silent input whose middle value is below the threshold `eps`
gives silence, which then is off by less than `eps`. -/
theorem C39_node {eps : K} {N : Nat} {curve : List K} {b : Bool} (h : canPropagate eps curve = some b)
    (input : Quantum K) (hlen : ∀ l, some l ∈ input → l.length = N) :
    ∃ r, shaper N (some curve) b input = some r ∧ ∀ c f, c < input.length → f < N →
      ∃ y, OnCurve curve (position curve.length (sample input c f)) y ∧
        (sample r c f = y ∨ (isSilent input = true ∧ |sample r c f - y| < eps)) := by
  have hne : curve ≠ [] := by
    rintro rfl
    simp [canPropagate] at h
  have hdata : ∀ c : Chan K, c ∈ input → (c.data N).length = N := by
    intro c hc
    cases c with
    | none => simp [Chan.data]
    | some l => exact hlen l hc
  unfold shaper
  split
  · rename_i hs
    simp only [Bool.and_eq_true] at hs
    obtain ⟨hs, hb⟩ := hs
    refine ⟨_, rfl, fun c f _ _ => ?_⟩
    obtain ⟨y, hy, hyb⟩ := applyCurve_zero h
    obtain ⟨y', hy', hc⟩ := C39_apply_curve curve hne 0
    rw [hy] at hy'
    injection hy' with hy'
    subst hy'
    rw [sample_of_isSilent hs, sample_silence]
    refine ⟨y, hc, Or.inr ⟨hs, ?_⟩⟩
    rw [zero_sub, abs_neg]
    exact hyb hb
  · have hsome : ∀ c ∈ input, ∃ d, shapeChan N curve c = some d := by
      intro c _
      obtain ⟨l, hl⟩ := mapM_isSome (f := applyCurve curve) (l := c.data N) (fun a _ => by
        obtain ⟨y, hy, _⟩ := C39_apply_curve curve hne a
        exact ⟨y, hy⟩)
      exact ⟨some l, by unfold shapeChan; rw [hl]⟩
    obtain ⟨r, hr⟩ := mapM_isSome hsome
    refine ⟨r, hr, fun c f hc hf => ?_⟩
    have h1 := mapM_getElem hr c
    rw [List.getElem?_eq_getElem hc, Option.bind_some] at h1
    unfold shapeChan at h1
    obtain ⟨l, hl⟩ := mapM_isSome (f := applyCurve curve) (l := (input[c]).data N) (fun a _ => by
        obtain ⟨y, hy, _⟩ := C39_apply_curve curve hne a
        exact ⟨y, hy⟩)
    rw [hl] at h1
    have h2 := mapM_getElem hl f
    have hfl : f < ((input[c]).data N).length := by rw [hdata _ (List.getElem_mem hc)]; exact hf
    rw [List.getElem?_eq_getElem hfl, Option.bind_some] at h2
    obtain ⟨y, hy, hcv⟩ := C39_apply_curve curve hne ((input[c]).data N)[f]
    rw [hy] at h2
    have hin : sample input c f = ((input[c]).data N)[f] := by
      have hd := data_getD N input[c] f
      rw [List.getD, List.getElem?_eq_getElem hfl, Option.getD_some] at hd
      rw [hd]
      unfold sample
      rw [List.getElem?_eq_getElem hc]
      cases input[c] <;> rfl
    refine ⟨y, by rw [hin]; exact hcv, Or.inl ?_⟩
    unfold sample
    rw [h1]
    simp only [List.getD, h2, Option.getD_some]

omit [IsStrictOrderedRing K] in
/-- Without a curve the node passes its input. -/
theorem C39_no_curve (N : Nat) (b : Bool) (input : Quantum K) : ∃ r, shaper N none b input = some r ∧
    ∀ c f, sample r c f = sample input c f := by
  unfold shaper
  split
  · rename_i hs
    simp only [Bool.and_eq_true] at hs
    exact ⟨_, rfl, fun c f => by rw [sample_of_isSilent hs.1, sample_silence]⟩
  · exact ⟨_, rfl, fun _ _ => rfl⟩

end

/-! ### examples and counterexamples -/

example : applyCurve [(1 : ℚ), 2, 4] (1 / 2) = some 3 := by decide +kernel

example : canPropagate (1 / 10 ^ 9) [(-1 : ℚ), 0, 4] = some true ∧ canPropagate (1 / 10 ^ 9) [(-1 : ℚ), 1] = some true
    ∧ canPropagate (1 / 10 ^ 9) [(-1 : ℚ), 2] = some false := by decide +kernel

/-- C39 is false for the empty curve, which `set_curve` accepts: the renderer computes the index `0 - 1` when it
receives the curve, in `onmessage`, on the rendering thread. -/
theorem C39_negated_empty : canPropagate (1 / 10 ^ 9) ([] : List ℚ) = none := by decide +kernel

/-- C39 is false in single precision for very long curves: with 16777219 points the index of the last point, computed
as `(n - 1.) as usize` with `n` rounded to `f32`, is outside of the curve. -/
theorem C39_negated_long :
    let len : ℚ := 16777219
    let n := Float.rnd 24 len
    let last := Float.rnd 24 (n - 1)
    len ≤ last := by decide +kernel

end Verif.Node
