import Verif.Analyser.Model

/-!
# C36: time domain data of the analyser
-/

namespace Verif.Analyser

section
variable {K : Type} [Zero K]

/-- Specification: sample `i` of the window of `len` samples that ends before sample number `P`. -/
def window (xs : List K) (P len i : Nat) : K := if len ≤ P + i then xs.getD (P + i - len) 0 else 0

/-- The samples `xs` have been stored, the first `P` of them are published. -/
structure Holds (size : Nat) (xs : List K) (P : Nat) (s : Ring K) : Prop where
  le : P ≤ xs.length
  index : s.index = P % size
  k : s.k = xs.length - P
  /-- value `j + 1` of slot `p` is sample `p + j * size` -/
  zero : ∀ p, (s.mem p)[0]? = some 0
  slot : ∀ p, p < size → ∀ j, (s.mem p)[j + 1]? = xs[p + j * size]?
  view : ∀ p, p < size → ∀ j, j + 1 < s.view p ↔ p + j * size < P

theorem Holds.new {size : Nat} : Holds (K := K) size [] 0 Ring.new := by
  refine ⟨le_refl _, by simp [Ring.new], rfl, fun p => rfl, fun p _ j => by simp [Ring.new], fun p _ j => ?_⟩
  simp [Ring.new]

theorem length_of_slot {l : List K} {xs : List K} {p size : Nat} (h : ∀ j, l[j + 1]? = xs[p + j * size]?) (j : Nat) :
    j + 1 < l.length ↔ p + j * size < xs.length := by
  have := h j
  constructor
  · intro hlt
    by_contra hc
    rw [List.getElem?_eq_getElem hlt, List.getElem?_eq_none (by omega)] at this
    cases this
  · intro hlt
    by_contra hc
    rw [List.getElem?_eq_none (by omega), List.getElem?_eq_getElem hlt] at this
    cases this

theorem Holds.store {size : Nat} (hs : 0 < size) {xs : List K} {P : Nat} {s : Ring K} (h : Holds size xs P s)
    (hroom : xs.length - P < size) (v : K) : Holds size (xs ++ [v]) P (s.store size v) := by
  have hpos : (s.index + s.k) % size = xs.length % size := by
    have hle := h.le
    rw [h.index, h.k, Nat.mod_add_mod]
    congr 1
    omega
  have hmod := Nat.div_add_mod xs.length size
  have hlt := Nat.mod_lt xs.length hs
  refine ⟨by have := h.le; simp; omega, h.index, ?_, fun p => ?_, fun p hp j => ?_, h.view⟩
  · show s.k + 1 = _
    rw [h.k]
    have := h.le
    simp
    omega
  · show (if p = (s.index + s.k) % size then s.mem p ++ [v] else s.mem p)[0]? = some 0
    split
    · have := h.zero p
      rw [List.getElem?_append_left]
      · exact this
      · by_contra hc
        rw [List.getElem?_eq_none (by omega)] at this; cases this
    · exact h.zero p
  · show (if p = (s.index + s.k) % size then s.mem p ++ [v] else s.mem p)[j + 1]? = _
    rw [hpos]
    have hsl := h.slot p hp
    have hlen := length_of_slot hsl
    split
    · rename_i hpe
      -- the slot has exactly `xs.length / size + 1` values
      have hcnt : (s.mem p).length = xs.length / size + 1 := by
        have h0 := h.zero p
        have hl0 : 0 < (s.mem p).length := by
          by_contra hc
          rw [List.getElem?_eq_none (by omega)] at h0; cases h0
        have a : ¬ (xs.length / size + 1 < (s.mem p).length) := by
          rw [hlen]
          rw [Nat.mul_comm] at hmod
          omega
        by_cases hq : xs.length / size = 0
        · omega
        · have b : xs.length / size - 1 + 1 < (s.mem p).length := by
            rw [hlen, Nat.sub_mul, Nat.one_mul]
            rw [Nat.mul_comm] at hmod
            have : size ≤ xs.length / size * size := Nat.le_mul_of_pos_left _ (by omega)
            omega
          omega
      have hval : ∀ j, p + j * size = xs.length ↔ j = xs.length / size := by
        intro j
        rw [Nat.mul_comm] at hmod
        constructor
        · intro he
          have : j * size = xs.length / size * size := by omega
          exact Nat.eq_of_mul_eq_mul_right hs this
        · rintro rfl; omega
      by_cases hj : j = xs.length / size
      · have h1 := (hval j).2 hj
        rw [h1]
        rw [List.getElem?_append_right (by rw [hcnt]; omega), hcnt, hj]
        simp
      · have h1 : p + j * size ≠ xs.length := fun he => hj ((hval j).1 he)
        by_cases hjl : j + 1 < (s.mem p).length
        · have h2 := (hlen j).1 hjl
          rw [List.getElem?_append_left hjl, List.getElem?_append_left h2]
          exact hsl j
        · have h2 : ¬ p + j * size < xs.length := fun he => hjl ((hlen j).2 he)
          rw [List.getElem?_eq_none (by simp; omega), List.getElem?_eq_none (by simp; omega)]
    · rename_i hpe
      have h1 : p + j * size ≠ xs.length := by
        intro he
        apply hpe
        rw [← he, Nat.add_mul_mod_self_right, Nat.mod_eq_of_lt hp]
      rw [hsl j]
      by_cases h2 : p + j * size < xs.length
      · rw [List.getElem?_append_left h2]
      · rw [List.getElem?_eq_none (by omega), List.getElem?_eq_none (by simp; omega)]

theorem Holds.publish {size : Nat} (hs : 0 < size) {xs : List K} {P : Nat} {s : Ring K} (h : Holds size xs P s)
    (hroom : xs.length - P ≤ size) : Holds size xs xs.length (s.publish size) := by
  have hle := h.le
  refine ⟨le_refl _, ?_, ?_, h.zero, h.slot, fun p hp j => ?_⟩
  · show (let w := s.index + s.k; if size ≤ w then w - size else w) = _
    have hw : (s.index + s.k) % size = xs.length % size := by
      rw [h.index, h.k, Nat.mod_add_mod]
      congr 1
      omega
    have hlt : s.index + s.k < size + size := by
      rw [h.index, h.k]
      have := Nat.mod_lt P hs
      omega
    dsimp only
    rw [← hw]
    split
    · rename_i hc
      rw [Nat.mod_eq_sub_mod hc, Nat.mod_eq_of_lt (by omega)]
    · rename_i hc
      rw [Nat.mod_eq_of_lt (by omega)]
  · show 0 = _
    omega
  · exact length_of_slot (h.slot p hp) j

theorem Holds.stores {size : Nat} (hs : 0 < size) {P : Nat} (src : List K) : ∀ {xs : List K} {s : Ring K},
    Holds size xs P s → xs.length - P + src.length ≤ size →
    Holds size (xs ++ src) P (src.foldl (Ring.store size) s) := by
  induction src with
  | nil => intro xs s h _; simpa using h
  | cons v src ih =>
    intro xs s h hroom
    rw [List.length_cons] at hroom
    rw [List.foldl_cons]
    have hle := h.le
    have := ih (h.store hs (by omega) v) (by simp; omega)
    rw [List.append_assoc] at this
    simpa using this

/-- After whole quanta: everything is published. -/
theorem Holds.writes {size N : Nat} (hs : 0 < size) (hN : N ≤ size) (qs : List (List K)) :
    ∀ {xs : List K} {s : Ring K}, (∀ q ∈ qs, q.length = N) → Holds size xs xs.length s →
    Holds size (xs ++ qs.flatten) (xs ++ qs.flatten).length (qs.foldl (Ring.write size) s) := by
  induction qs with
  | nil => intro xs s _ h; simpa using h
  | cons q qs ih =>
    intro xs s hq h
    have hl := hq q (by simp)
    have h1 := (h.stores hs q (by omega)).publish hs (by simp; omega)
    have h2 := ih (fun x hx => hq x (by simp [hx])) h1
    rw [List.foldl_cons, List.flatten_cons, ← List.append_assoc]
    exact h2

/-- What any load of the reader returns when at most `N` samples have been stored after the published ones. -/
theorem load_spec {size N len : Nat} (hs : 0 < size) (hlen : len + N ≤ size) {xs : List K} {P : Nat}
    {s s' : Ring K} {xs' : List K} {P' : Nat} (h : Holds size xs P s) (h' : Holds size (xs ++ xs') P' s')
    (hnew : (xs ++ xs').length ≤ P + N) {i : Nat} (hi : i < len) {v : K} (hv : CanLoad size s s' len i v) :
    v = window xs P len i := by
  obtain ⟨j, hj, hm⟩ := hv
  have hle := h.le
  have hlt := Nat.mod_lt P hs
  have hdm := Nat.div_add_mod P size
  rw [h.index] at hj hm
  generalize hp : (size + P % size - len + i) % size = p at hj hm
  have hpl : p < size := by rw [← hp]; exact Nat.mod_lt _ hs
  -- the slot, as a number of samples: `p + size * c = P + i - len` modulo `size`
  have hcong : ∃ a b : Nat, p + a * size + len = P + i + b * size := by
    have h1 := Nat.div_add_mod (size + P % size - len + i) size
    rw [hp] at h1
    refine ⟨(size + P % size - len + i) / size + P / size, 1, ?_⟩
    rw [Nat.add_mul, Nat.mul_comm _ size, Nat.mul_comm (P / size) size]
    omega
  obtain ⟨a, b, hab⟩ := hcong
  have hview := h.view p hpl
  cases j with
  | zero =>
    -- the initial value: nothing published in this slot
    rw [h'.zero p] at hm
    cases hm
    have hnone : ¬ p < P := by
      intro hc
      have := (hview 0).2 (by simpa using hc)
      omega
    unfold window
    rw [if_neg]
    intro hc
    -- `P + i - len` would be a published sample of the slot
    have : p ≤ P + i - len := by
      by_contra hlt'
      have h1 : p + a * size + len = P + i + b * size := hab
      have h2 : P + i - len < size := by omega
      have h3 : (p + a * size) = (P + i - len) + b * size := by omega
      have h4 : (p + a * size) % size = ((P + i - len) + b * size) % size := by rw [h3]
      rw [Nat.add_mul_mod_self_right, Nat.add_mul_mod_self_right, Nat.mod_eq_of_lt hpl, Nat.mod_eq_of_lt h2] at h4
      omega
    omega
  | succ j =>
    rw [h'.slot p hpl] at hm
    have hn : p + j * size < (xs ++ xs').length := by
      by_contra hc
      rw [List.getElem?_eq_none (by omega)] at hm; cases hm
    -- no later published value in the slot
    have hlast : ¬ p + (j + 1) * size < P := by
      intro hc
      have := (hview (j + 1)).2 hc
      omega
    rw [Nat.add_mul, Nat.one_mul] at hlast
    -- so it is the sample of the window
    have heq : p + j * size + len = P + i := by
      have h3 : (p + j * size + len) % size = (P + i) % size := by
        have : (p + a * size + len) % size = (P + i + b * size) % size := by rw [hab]
        rw [Nat.add_mul_mod_self_right] at this
        rw [← this, Nat.add_right_comm, Nat.add_mul_mod_self_right, Nat.add_right_comm p (a * size) len,
          Nat.add_mul_mod_self_right]
      have h4 : p + j * size + len < P + i + size := by omega
      have h5 : P + i < p + j * size + len + size := by omega
      by_contra hne
      have d1 := Nat.div_add_mod (p + j * size + len) size
      have d2 := Nat.div_add_mod (P + i) size
      rw [h3] at d1
      rcases Nat.lt_trichotomy ((p + j * size + len) / size) ((P + i) / size) with hlt' | heq' | hgt'
      · have : size * ((p + j * size + len) / size + 1) ≤ size * ((P + i) / size) := Nat.mul_le_mul_left _ hlt'
        rw [Nat.mul_add, Nat.mul_one] at this
        omega
      · rw [heq'] at d1; omega
      · have : size * ((P + i) / size + 1) ≤ size * ((p + j * size + len) / size) := Nat.mul_le_mul_left _ hgt'
        rw [Nat.mul_add, Nat.mul_one] at this
        omega
    unfold window
    rw [if_pos (by omega)]
    have hidx : P + i - len = p + j * size := by omega
    rw [hidx]
    have hlt' : p + j * size < xs.length := by omega
    rw [List.getElem?_append_left hlt', List.getElem?_eq_getElem hlt'] at hm
    cases hm
    simp [List.getD, hlt']

/-- C36: the index is loaded after any number of whole quanta `qs` of `N` samples and any part `part` of the next.
Sample `i` of the window is loaded when any more samples `more` have been stored and published, or not, as long as
the samples stored after the index was published are not more than a quantum. Whatever the load returns: it is
sample `i` of the last `len` samples of the published quanta; zero for those before the beginning. -/
theorem C36_window_partial {size N len : Nat} (hN : 0 < N) (hlen : len + N ≤ size) (qs : List (List K))
    (hq : ∀ q ∈ qs, q.length = N) (part more : List K) (hpart : part.length + more.length ≤ N) (published : Bool)
    (i : Nat) (hi : i < len) (v : K) :
    let s := part.foldl (Ring.store size) (qs.foldl (Ring.write size) Ring.new)
    let s' := more.foldl (Ring.store size) s
    let s'' := if published then s'.publish size else s'
    CanLoad size s s'' len i v → v = window qs.flatten qs.flatten.length len i := by
  intro s s' s'' hv
  have hs : 0 < size := by omega
  have h0 := Holds.writes hs (by omega : N ≤ size) qs hq (Holds.new (K := K))
  simp only [List.nil_append] at h0
  have h1 : Holds size (qs.flatten ++ part) qs.flatten.length s := h0.stores hs part (by omega)
  have h2 : Holds size (qs.flatten ++ part ++ more) qs.flatten.length s' :=
    h1.stores hs more (by simp; omega)
  have hval : v = window (qs.flatten ++ part) qs.flatten.length len i := by
    cases published with
    | true =>
      have h3 : Holds size (qs.flatten ++ part ++ more) _ s'' := h2.publish hs (by simp; omega)
      exact load_spec hs hlen h1 h3 (by simp; omega) hi hv
    | false => exact load_spec hs hlen h1 h2 (by simp; omega) hi hv
  rw [hval]
  unfold window
  split
  · have : qs.flatten.length + i - len < qs.flatten.length := by omega
    simp only [List.getD, List.getElem?_append_left this]
  · rfl

/-- There is always something to load: the statement above is not empty. -/
theorem C36_can_load {size N len : Nat} (hN : 0 < N) (hlen : len + N ≤ size) (qs : List (List K))
    (hq : ∀ q ∈ qs, q.length = N) (i : Nat) (hi : i < len) :
    let s := qs.foldl (Ring.write size) Ring.new
    CanLoad size s s len i (window qs.flatten qs.flatten.length len i) := by
  intro s
  have hs : 0 < size := by omega
  have h0 := Holds.writes hs (by omega : N ≤ size) qs hq (Holds.new (K := K))
  simp only [List.nil_append] at h0
  have hp : (size + s.index - len + i) % size < size := Nat.mod_lt _ hs
  generalize hpp : (size + s.index - len + i) % size = p at hp
  have hview := h0.view p hp
  have hlen' := length_of_slot (h0.slot p hp)
  -- the newest value of the slot
  obtain ⟨c, hc⟩ : ∃ c, ((qs.foldl (Ring.write size) Ring.new).mem p).length = c + 1 := by
    have := h0.zero p
    cases hm : (qs.foldl (Ring.write size) (Ring.new (K := K))).mem p with
    | nil => rw [hm] at this; cases this
    | cons a l => exact ⟨l.length, by simp⟩
  have hget : ∃ v, ((qs.foldl (Ring.write size) Ring.new).mem p)[c]? = some v :=
    ⟨_, List.getElem?_eq_getElem (by omega)⟩
  obtain ⟨v, hv⟩ := hget
  have hvw : (qs.foldl (Ring.write size) (Ring.new (K := K))).view p ≤ c + 1 := by
    by_contra hgt
    have := (hview c).1 (by omega)
    have := (hlen' c).2 this
    omega
  have hcl : CanLoad size s s len i v := ⟨c, by rw [hpp]; exact hvw, by rw [hpp]; exact hv⟩
  have := load_spec (N := N) (xs' := []) hs hlen h0 (by rw [List.append_nil]; exact h0) (by simp) hi hcl
  rw [← this]
  exact hcl

end

/-- With the sizes of the code: all sizes of the Fourier transform and quanta of 128. -/
example (qs : List (List ℤ)) (hq : ∀ q ∈ qs, q.length = 128) (fft : Nat) (hf : fft ≤ 32768) (i : Nat) (hi : i < fft)
    (v : ℤ) (h : CanLoad (32768 + 128) (qs.foldl (Ring.write (32768 + 128)) Ring.new)
      (qs.foldl (Ring.write (32768 + 128)) Ring.new) fft i v) : v = window qs.flatten qs.flatten.length fft i :=
  C36_window_partial (N := 128) (by omega) (by omega) qs hq [] [] (by simp) false i hi v h

/-- C36 is false when the rendering thread writes more than one quantum while the data are copied. A ring for windows
of four samples and quanta of two: the index is loaded after the samples 1 to 4, the first sample is loaded after
two more quanta: it is the sample 7 instead of 1. -/
theorem C36_negated_tear :
    let s := ([[1, 2], [3, 4]] : List (List ℤ)).foldl (Ring.write 6) Ring.new
    let s' := ([[5, 6], [7, 8]] : List (List ℤ)).foldl (Ring.write 6) s
    window [1, 2, 3, 4] 4 4 0 = (1 : ℤ) ∧ CanLoad 6 s s' 4 0 (7 : ℤ) := by
  refine ⟨rfl, 2, ?_, ?_⟩ <;> decide +kernel

/-- C36: the samples are the mean of two channels. -/
example : toMono (7 / 10 : ℚ) [[1, 3], [5, 6]] = [2, 11 / 2] := by decide +kernel

end Verif.Analyser
