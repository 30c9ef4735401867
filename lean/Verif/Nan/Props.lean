import Verif.Nan.Model
import Verif.Filter.IirProps
import Mathlib.Algebra.Order.AbsoluteValue.Basic
import Mathlib.Algebra.BigOperators.Field
import Mathlib.Tactic.Linarith
import Mathlib.Tactic.Positivity

/-!
# C93: samples that are not finite do not stay in filters
-/

namespace Verif.Nan

open Verif.Node Finset

section
variable {K : Type} [Field K] [LinearOrder K] [IsStrictOrderedRing K]

/-! ### specification -/

/-- Specification: output `k` is given by the difference equation with feedforward coefficients `b` and feedback
coefficients `a` up to `t`, unless one of the inputs that occur in the equation is not finite; if `a` is longer, `b` is
taken to be filled up with zeros, and the inputs that they multiply occur. The inputs are `xs`, the outputs `ys`,
everything before is zero. -/
def Obeys (t : K) (b a : List K) (xs : List (X K)) (ys : List K) (k : Nat) : Prop :=
  ∀ x : Nat → K, (∀ i, i < max b.length a.length → i ≤ k → xs[k - i]? = some (.fin (x (k - i)))) →
    |∑ i ∈ range (k + 1), a.getD i 0 * ys.getD (k - i) 0 - ∑ i ∈ range (k + 1), b.getD i 0 * x (k - i)| ≤ |a.getD 0 0| * t

/-- Specification: channel `c` of a sequence of quanta as one stream of samples -/
def streamX (N : Nat) (qs : List (Quantum (X K))) (c : Nat) : List (X K) :=
  (qs.map fun q => (List.range N).map fun f => sample q c f).flatten

/-- Specification: output `k` of a biquad filter is given by its difference equation with the coefficients of the frame, up
to `t`, unless one of the three inputs is not finite; `x j` and `y j` are the input and the output `j` frames before. -/
def ObeysBiquad (t : K) (cs : List (Coef K)) (xs : List (X K)) (ys : List K) (k : Nat) : Prop :=
  ∀ (c : Coef K) (x y : Nat → K), cs[k]? = some c →
    (∀ j ≤ 2, j ≤ k → xs[k - j]? = some (.fin (x j)) ∧ ys[k - j]? = some (y j)) → (∀ j, k < j → x j = 0 ∧ y j = 0) →
    |y 0 - (c.b0 * x 0 + c.b1 * x 1 + c.b2 * x 2 - c.a1 * y 1 - c.a2 * y 2)| ≤ t

/-! ### flushing -/

theorem flush_fin {t : K} (ht : 0 ≤ t) (x : X K) : ∃ v, x.flush t = .fin v ∧ ∀ r, x = .fin r → |v - r| ≤ t := by
  unfold X.flush
  cases x with
  | nan => exact ⟨0, by simp [X.isNormal], by simp⟩
  | inf s => exact ⟨0, by simp [X.isNormal], by simp⟩
  | fin r =>
    by_cases h : X.isNormal t (X.fin r)
    · refine ⟨r, by simp [h], fun r' hr => ?_⟩
      cases hr
      simpa using ht
    · refine ⟨0, by simp [h], fun r' hr => ?_⟩
      cases hr
      simp only [X.isNormal, decide_eq_true_eq, not_and, not_le] at h
      rw [zero_sub, abs_neg]
      by_cases h0 : r = 0
      · simpa [h0] using ht
      · exact (h h0).le

/-! ### IIR filter, one channel -/

open Verif.Filter (taps)

omit [LinearOrder K] [IsStrictOrderedRing K] in
theorem taps_nil_left (cs : List (K × K)) (Y : List K) : taps cs [] Y = 0 := by cases cs <;> rfl

/-- The states as far as they are determined by the past inputs `hx` and outputs `hy`, newest first. The first argument
is the list of coefficients without the first. -/
def Inv : List (K × K) → List (X K) → List (X K) → List K → Prop
  | [], st, _, _ => st = [.fin 0]
  | c :: cs, st, hx, hy => ∃ s st', st = s :: st' ∧
      (∀ vs : List K, hx.take (cs.length + 1) = (vs.take (cs.length + 1)).map X.fin → s = .fin (taps (c :: cs) vs hy)) ∧
      Inv cs st' hx hy

omit [IsStrictOrderedRing K] in
theorem Inv.head {cs : List (K × K)} {st hx : List (X K)} {hy : List K} (h : Inv cs st hx hy) : ∃ s st', st = s :: st' ∧
    ∀ vs : List K, hx.take cs.length = (vs.take cs.length).map X.fin → s = .fin (taps cs vs hy) := by
  cases cs with
  | nil => exact ⟨.fin 0, [], h, fun vs _ => by simp [taps]⟩
  | cons c cs =>
    obtain ⟨s, st', h1, h2, -⟩ := h
    exact ⟨s, st', h1, h2⟩

omit [IsStrictOrderedRing K] in
theorem Inv.rest (cs : List (K × K)) : Inv cs (List.replicate (cs.length + 1) 0) ([] : List (X K)) ([] : List K) := by
  induction cs with
  | nil => rfl
  | cons c cs ih =>
    refine ⟨.fin 0, _, rfl, fun vs h => ?_, ih⟩
    have : vs = [] := by
      cases vs with
      | nil => rfl
      | cons v vs => simp at h
    rw [this, taps_nil_left]

omit [IsStrictOrderedRing K] in
theorem Inv.shift {cs : List (K × K)} {st hx : List (X K)} {hy : List K} (h : Inv cs st hx hy) (x : X K) (y : K) :
    Inv cs (shiftX x (.fin y) cs st) (x :: hx) (y :: hy) := by
  induction cs generalizing st with
  | nil => rw [Inv] at h; subst h; rfl
  | cons c cs ih =>
    obtain ⟨s, st', rfl, h2, h3⟩ := h
    obtain ⟨s1, ss, rfl, h4⟩ := h3.head
    refine ⟨_, _, rfl, fun vs hv => ?_, ih h3⟩
    cases vs with
    | nil => simp at hv
    | cons v vs =>
      simp only [List.take_succ_cons, List.map_cons, List.cons.injEq] at hv
      obtain ⟨rfl, hv⟩ := hv
      rw [h4 vs hv]
      simp [X.mul, X.sub, X.neg, X.add, taps, sub_eq_add_neg]

theorem iirRunX_spec {t : K} (ht : 0 ≤ t) (p : K × K) (cs : List (K × K)) (xs : List (X K)) :
    ∀ (st hx : List (X K)) (hy : List K), Inv cs st hx hy →
      ∃ y : List K, (iirRunX t (p :: cs) st xs).2 = y.map X.fin ∧ y.length = xs.length ∧
        Inv cs (iirRunX t (p :: cs) st xs).1 (xs.reverse ++ hx) (y.reverse ++ hy) ∧
        ∀ a x b c v d, xs = a ++ x :: b → y = c ++ v :: d → a.length = c.length → ∀ (w : K) (vs : List K),
          (x :: (a.reverse ++ hx)).take (cs.length + 1) = ((w :: vs).take (cs.length + 1)).map X.fin →
          |v - (p.1 * w + taps cs vs (c.reverse ++ hy))| ≤ t := by
  induction xs with
  | nil => intro st hx hy h; exact ⟨[], rfl, rfl, h, by simp⟩
  | cons x xs ih =>
    intro st hx hy h
    obtain ⟨s, st', hst, hs⟩ := h.head
    obtain ⟨v, hv, hb⟩ := flush_fin ht (((X.fin p.1).mul x).add s)
    have hstep : iirStepX t (p :: cs) st x = (shiftX x (.fin v) cs st, .fin v) := by
      subst hst
      simp only [iirStepX, List.headD_cons, List.tail_cons, hv]
    obtain ⟨y, g1, g2, g3, g4⟩ := ih _ _ _ (h.shift x v)
    refine ⟨v :: y, ?_, by simp [g2], ?_, ?_⟩
    · simp only [iirRunX, hstep, g1, List.map_cons]
    · simp only [iirRunX, hstep, List.reverse_cons, List.append_assoc, List.singleton_append]
      exact g3
    · intro a x' b c v' d hx' hy' hl w vs hw
      cases a with
      | nil =>
        cases c with
        | cons _ _ => simp at hl
        | nil =>
          simp only [List.nil_append, List.cons.injEq] at hx' hy'
          obtain ⟨rfl, -⟩ := hx'
          obtain ⟨rfl, -⟩ := hy'
          simp only [List.reverse_nil, List.nil_append, List.take_succ_cons, List.map_cons, List.cons.injEq] at hw
          obtain ⟨rfl, hw⟩ := hw
          refine hb _ ?_
          rw [hs vs hw]
          simp [X.mul, X.add]
      | cons a0 a =>
        cases c with
        | nil => simp at hl
        | cons c0 c =>
          simp only [List.cons_append, List.cons.injEq] at hx' hy'
          obtain ⟨rfl, hx'⟩ := hx'
          obtain ⟨rfl, hy'⟩ := hy'
          have := g4 a x' b c v' d hx' hy' (by simpa using hl) w vs (by simpa using hw)
          simpa using this

/-- states that are finite: the last inputs are -/
theorem Inv.finite {cs : List (K × K)} {st hx : List (X K)} {hy : List K} (h : Inv cs st hx hy)
    (hf : ∀ x ∈ hx.take cs.length, ∃ v, x = X.fin v) : ∀ s ∈ st, ∃ v, s = X.fin v := by
  induction cs generalizing st with
  | nil => rw [Inv] at h; subst h; simp
  | cons c cs ih =>
    obtain ⟨s, st', rfl, h2, h3⟩ := h
    have hall : ∃ vs : List K, hx.take (cs.length + 1) = vs.map X.fin := by
      have : ∀ l : List (X K), (∀ x ∈ l, ∃ v, x = X.fin v) → ∃ vs : List K, l = vs.map X.fin := by
        intro l
        induction l with
        | nil => intro _; exact ⟨[], rfl⟩
        | cons a l ih =>
          intro hl
          obtain ⟨v, rfl⟩ := hl a (by simp)
          obtain ⟨vs, rfl⟩ := ih (fun x hx => hl x (by simp [hx]))
          exact ⟨v :: vs, rfl⟩
      exact this _ hf
    obtain ⟨vs, hvs⟩ := hall
    intro s' hs'
    rcases List.mem_cons.1 hs' with rfl | hs'
    · refine ⟨_, h2 vs ?_⟩
      rw [hvs, List.take_of_length_le]
      have := congrArg List.length hvs
      simp at this
      omega
    · refine ih h3 (fun x hx' => hf x ?_) s' hs'
      have : hx.take cs.length = (hx.take (cs.length + 1)).take cs.length := by rw [List.take_take]; congr 1; omega
      rw [this] at hx'
      exact List.mem_of_mem_take hx'

theorem coeffs_length {b a : List K} : (Verif.Filter.Iir.new b a).coeffs.length = max b.length a.length := by
  unfold Verif.Filter.Iir.new
  simp only [List.length_map, List.length_zip]
  split <;> split <;> (try simp only [List.length_append, List.length_replicate]) <;> omega

/-- An IIR filter from rest: its outputs are finite and obey the equation, and the states are finite if the last inputs
are. -/
theorem iir_obeys {t : K} (ht : 0 ≤ t) {b a : List K} (ha : a ≠ []) (ha0 : a.getD 0 0 ≠ 0) (xs : List (X K)) :
    ∃ y : List K, (iirRunX t (Verif.Filter.Iir.new b a).coeffs
        (List.replicate (Verif.Filter.Iir.new b a).coeffs.length 0) xs).2 = y.map X.fin ∧ y.length = xs.length ∧
      (∀ k < xs.length, Obeys t b a xs y k) ∧
      ((∀ i < max b.length a.length - 1, i < xs.length → ∃ v, xs[xs.length - 1 - i]? = some (X.fin v)) →
        ∀ s ∈ (iirRunX t (Verif.Filter.Iir.new b a).coeffs
          (List.replicate (Verif.Filter.Iir.new b a).coeffs.length 0) xs).1, ∃ v, s = X.fin v) := by
  obtain ⟨p, cs, hcs⟩ := Verif.Filter.new_coeffs_cons (b := b) ha
  have hlen : cs.length + 1 = max b.length a.length := by rw [← coeffs_length, hcs]; rfl
  have hget : ∀ k, (p :: cs).getD k (0, 0) = (b.getD k 0 / a.getD 0 0, a.getD k 0 / a.getD 0 0) := by
    intro k; rw [← hcs]; exact Verif.Filter.new_coeffs b a k
  obtain ⟨y, h1, h2, h3, h4⟩ := iirRunX_spec ht p cs xs _ _ _ (Inv.rest cs)
  rw [hcs]
  refine ⟨y, h1, h2, ?_, ?_⟩
  · intro k hk x hx
    have hky : k < y.length := by omega
    have hy1 : y = y.take k ++ y[k] :: y.drop (k + 1) := by simp
    have hx1 : xs = xs.take k ++ xs[k] :: xs.drop (k + 1) := by simp
    have key := h4 _ _ _ _ _ _ hx1 hy1 (by simp; omega) (x k) ((List.range k).map fun i => x (k - 1 - i)) ?_
    · have hts := Verif.Filter.taps_sum cs ((List.range k).map fun i => x (k - 1 - i)) (y.take k).reverse (by simp; omega)
      rw [List.append_nil, hts] at key
      have hp : p = (b.getD 0 0 / a.getD 0 0, a.getD 0 0 / a.getD 0 0) := by simpa using hget 0
      have e1 : ∑ i ∈ range (k + 1), a.getD i 0 * y.getD (k - i) 0 - ∑ i ∈ range (k + 1), b.getD i 0 * x (k - i) =
          a.getD 0 0 * (y[k] - (p.1 * x k + ∑ i ∈ range ((List.range k).map fun i => x (k - 1 - i)).length,
            ((cs.getD i (0, 0)).1 * ((List.range k).map fun i => x (k - 1 - i)).getD i 0 -
              (cs.getD i (0, 0)).2 * (y.take k).reverse.getD i 0))) := by
        rw [sum_range_succ', sum_range_succ' (fun i => b.getD i 0 * x (k - i)), hp]
        have e2 : ∀ i ∈ range k, ((cs.getD i (0, 0)).1 * ((List.range k).map fun i => x (k - 1 - i)).getD i 0 -
            (cs.getD i (0, 0)).2 * (y.take k).reverse.getD i 0) =
            (b.getD (i + 1) 0 * x (k - (i + 1)) - a.getD (i + 1) 0 * y.getD (k - (i + 1)) 0) / a.getD 0 0 := by
          intro i hi
          rw [mem_range] at hi
          have hci : cs.getD i (0, 0) = (b.getD (i + 1) 0 / a.getD 0 0, a.getD (i + 1) 0 / a.getD 0 0) := by
            have := hget (i + 1); simpa using this
          have hvi : ((List.range k).map fun i => x (k - 1 - i)).getD i 0 = x (k - (i + 1)) := by
            simp [List.getD, hi, Nat.sub_sub, Nat.add_comm]
          have hyi : (y.take k).reverse.getD i 0 = y.getD (k - (i + 1)) 0 := by
            rw [Verif.Filter.getD_reverse (by simp; omega)]
            simp only [List.getD, List.length_take, Nat.min_eq_left hky.le]
            rw [List.getElem?_take_of_lt (by omega), Nat.sub_sub, Nat.add_comm 1 i]
          rw [hci, hvi, hyi]
          ring
        rw [List.length_map, List.length_range, sum_congr rfl e2, ← sum_div]
        have hyk : y.getD k 0 = y[k] := by simp [List.getD, hky]
        simp only [Nat.sub_zero, hyk]
        rw [sum_sub_distrib]
        field_simp
        ring
      rw [e1, abs_mul]
      exact mul_le_mul_of_nonneg_left key (abs_nonneg _)
    · rw [List.append_nil]
      apply List.ext_getElem?
      intro i
      by_cases hi : i < cs.length + 1
      · rw [List.getElem?_take_of_lt hi, List.getElem?_map, List.getElem?_take_of_lt hi]
        by_cases hik : i ≤ k
        · have := hx i (by omega) hik
          cases i with
          | zero =>
            simp only [List.getElem?_cons_zero, Option.map_some]
            simpa [List.getElem?_eq_getElem hk] using this
          | succ i =>
            simp only [List.getElem?_cons_succ]
            rw [List.getElem?_reverse (by simp; omega), List.length_take, Nat.min_eq_left hk.le,
              List.getElem?_take_of_lt (by omega)]
            rw [show k - 1 - i = k - (i + 1) by omega, this]
            simp [show i < k by omega, Nat.sub_sub, Nat.add_comm]
        · rw [List.getElem?_eq_none (by simp; omega), List.getElem?_eq_none (by simp; omega)]
          rfl
      · rw [List.getElem?_eq_none (by simp; omega), List.getElem?_eq_none (by simp; omega)]
  · intro hf
    refine h3.finite ?_
    intro x hx
    rw [List.append_nil] at hx
    obtain ⟨i, hi⟩ := List.mem_iff_getElem?.1 hx
    have hil : i < cs.length ∧ i < xs.length := by
      have := (List.getElem?_eq_some_iff.1 hi).1
      simp at this
      exact this
    obtain ⟨v, hv⟩ := hf i (by omega) hil.2
    rw [List.getElem?_take_of_lt hil.1, List.getElem?_reverse hil.2, hv] at hi
    exact ⟨v, by simpa using hi.symm⟩

/-! ### biquad filter, one channel -/

/-- a past value, newest first, zero before the beginning -/
def lag (l : List (X K)) (j : Nat) : X K := l.getD j 0

theorem bqRun_spec {t : K} (ht : 0 ≤ t) (xs : List (X K)) :
    ∀ (cs : List (Coef K)) (hx : List (X K)) (hy : List K), cs.length = xs.length →
      ∃ y : List K, (bqRun t cs ⟨lag hx 0, lag hx 1, lag (hy.map X.fin) 0, lag (hy.map X.fin) 1⟩ xs).2 = y.map X.fin ∧
        y.length = xs.length ∧
        (bqRun t cs ⟨lag hx 0, lag hx 1, lag (hy.map X.fin) 0, lag (hy.map X.fin) 1⟩ xs).1 =
          ⟨lag (xs.reverse ++ hx) 0, lag (xs.reverse ++ hx) 1, lag ((y.reverse ++ hy).map X.fin) 0,
            lag ((y.reverse ++ hy).map X.fin) 1⟩ ∧
        ∀ k c (x0 x1 x2 y0 y1 y2 : K), cs[k]? = some c → y[k]? = some y0 → xs[k]? = some (.fin x0) →
          lag ((xs.take k).reverse ++ hx) 0 = .fin x1 → lag ((xs.take k).reverse ++ hx) 1 = .fin x2 →
          ((y.take k).reverse ++ hy).getD 0 0 = y1 → ((y.take k).reverse ++ hy).getD 1 0 = y2 →
          |y0 - (c.b0 * x0 + c.b1 * x1 + c.b2 * x2 - c.a1 * y1 - c.a2 * y2)| ≤ t := by
  have hmap : ∀ (l : List K) j, lag (l.map X.fin) j = X.fin (l.getD j 0) := by
    intro l j
    simp only [lag, List.getD, List.getElem?_map]
    cases l[j]? <;> rfl
  induction xs with
  | nil =>
    intro cs hx hy hl
    cases cs with
    | cons _ _ => simp at hl
    | nil => exact ⟨[], rfl, rfl, rfl, by simp⟩
  | cons x xs ih =>
    intro cs hx hy hl
    cases cs with
    | nil => simp at hl
    | cons c cs =>
      obtain ⟨v, hv, hb⟩ := flush_fin ht ((X.fin c.b0).mul x |>.add ((X.fin c.b1).mul (lag hx 0)) |>.add
        ((X.fin c.b2).mul (lag hx 1)) |>.sub ((X.fin c.a1).mul (lag (hy.map X.fin) 0)) |>.sub
        ((X.fin c.a2).mul (lag (hy.map X.fin) 1)))
      have hstep : bqStep t c ⟨lag hx 0, lag hx 1, lag (hy.map X.fin) 0, lag (hy.map X.fin) 1⟩ x =
          (⟨lag (x :: hx) 0, lag (x :: hx) 1, lag ((v :: hy).map X.fin) 0, lag ((v :: hy).map X.fin) 1⟩, .fin v) := by
        simp only [bqStep, hv]
        rfl
      obtain ⟨y, g1, g2, g3, g4⟩ := ih cs (x :: hx) (v :: hy) (by simpa using hl)
      have hrun : bqRun t (c :: cs) ⟨lag hx 0, lag hx 1, lag (hy.map X.fin) 0, lag (hy.map X.fin) 1⟩ (x :: xs) =
          ((bqRun t cs ⟨lag (x :: hx) 0, lag (x :: hx) 1, lag ((v :: hy).map X.fin) 0, lag ((v :: hy).map X.fin) 1⟩ xs).1,
            .fin v :: (bqRun t cs ⟨lag (x :: hx) 0, lag (x :: hx) 1, lag ((v :: hy).map X.fin) 0,
              lag ((v :: hy).map X.fin) 1⟩ xs).2) := by
        rw [bqRun, hstep]
      rw [hrun]
      refine ⟨v :: y, ?_, by simp [g2], ?_, ?_⟩
      · rw [g1]; rfl
      · rw [g3]
        simp only [List.reverse_cons, List.append_assoc, List.singleton_append]
      · intro k c' x0 x1 x2 y0 y1 y2 h1 h2 h3 h4 h5 h6 h7
        cases k with
        | zero =>
          simp only [List.getElem?_cons_zero, Option.some.injEq] at h1 h2 h3
          simp only [List.take_zero, List.reverse_nil, List.nil_append] at h4 h5 h6 h7
          subst h1 h2
          refine hb _ ?_
          rw [hmap, hmap, h4, h5, h6, h7, h3]
          simp [X.mul, X.add, X.sub, X.neg, sub_eq_add_neg]
        | succ k =>
          simp only [List.getElem?_cons_succ] at h1 h2 h3
          refine g4 k c' x0 x1 x2 y0 y1 y2 h1 h2 h3 ?_ ?_ ?_ ?_
          · rw [← h4]; simp
          · rw [← h5]; simp
          · rw [← h6]; simp
          · rw [← h7]; simp

theorem lag_take {l : List (X K)} {k j : Nat} (hk : k < l.length) :
    lag ((l.take k).reverse ++ []) j = if j < k then l.getD (k - 1 - j) 0 else 0 := by
  rw [List.append_nil]
  unfold lag
  split
  case isTrue h =>
    simp only [List.getD]
    rw [List.getElem?_reverse (by simp; omega), List.length_take, Nat.min_eq_left hk.le,
      List.getElem?_take_of_lt (by omega)]
  case isFalse h =>
    simp only [List.getD]
    rw [List.getElem?_eq_none (by simp; omega)]
    rfl

theorem bq_obeys {t : K} (ht : 0 ≤ t) (cs : List (Coef K)) (xs : List (X K)) (hl : cs.length = xs.length) :
    ∃ y : List K, (bqRun t cs ⟨0, 0, 0, 0⟩ xs).2 = y.map X.fin ∧ y.length = xs.length ∧
      (∀ k < xs.length, ObeysBiquad t cs xs y k) ∧
      ((∀ i < 2, i < xs.length → ∃ v, xs[xs.length - 1 - i]? = some (X.fin v)) →
        ∃ a b c d : K, (bqRun t cs ⟨0, 0, 0, 0⟩ xs).1 = ⟨.fin a, .fin b, .fin c, .fin d⟩) := by
  obtain ⟨y, h1, h2, h3, h4⟩ := bqRun_spec ht xs cs [] [] hl
  have hz : (⟨lag [] 0, lag [] 1, lag (([] : List K).map X.fin) 0, lag (([] : List K).map X.fin) 1⟩ : BQ K) =
    ⟨0, 0, 0, 0⟩ := rfl
  rw [hz] at h1 h3
  refine ⟨y, h1, h2, ?_, ?_⟩
  · intro k hk c x y' hc hlow hhigh
    have hky : k < y.length := by omega
    have hylag : ∀ j, ((y.take k).reverse ++ []).getD j 0 = if j < k then y.getD (k - 1 - j) 0 else 0 := by
      intro j
      rw [List.append_nil]
      split
      case isTrue h =>
        rw [Verif.Filter.getD_reverse (by simp; omega)]
        simp only [List.getD, List.length_take, Nat.min_eq_left hky.le]
        rw [List.getElem?_take_of_lt (by omega)]
      case isFalse h =>
        simp only [List.getD]
        rw [List.getElem?_eq_none (by simp; omega)]
        rfl
    have hxl : ∀ j < 2, lag ((xs.take k).reverse ++ []) j = X.fin (x (j + 1)) := by
      intro j hj
      rw [lag_take hk]
      split
      case isTrue h =>
        have := (hlow (j + 1) (by omega) (by omega)).1
        rw [List.getD, show k - 1 - j = k - (j + 1) by omega, this]
        rfl
      case isFalse h => rw [(hhigh (j + 1) (by omega)).1]; rfl
    have hyl : ∀ j < 2, ((y.take k).reverse ++ []).getD j 0 = y' (j + 1) := by
      intro j hj
      rw [hylag]
      split
      case isTrue h =>
        have := (hlow (j + 1) (by omega) (by omega)).2
        rw [List.getD, show k - 1 - j = k - (j + 1) by omega, this]
        rfl
      case isFalse h => rw [(hhigh (j + 1) (by omega)).2]
    have h0 := hlow 0 (by omega) (by omega)
    exact h4 k c (x 0) (x 1) (x 2) (y' 0) (y' 1) (y' 2) hc h0.2 h0.1 (hxl 0 (by omega)) (hxl 1 (by omega))
      (hyl 0 (by omega)) (hyl 1 (by omega))
  · intro hf
    have hxf : ∀ j < 2, ∃ v : K, lag (xs.reverse ++ []) j = X.fin v := by
      intro j hj
      rw [List.append_nil]
      unfold lag
      by_cases h : j < xs.length
      · obtain ⟨v, hv⟩ := hf j hj h
        exact ⟨v, by rw [List.getD, List.getElem?_reverse h, hv]; rfl⟩
      · exact ⟨0, by rw [List.getD, List.getElem?_eq_none (by simp; omega)]; rfl⟩
    have hyf : ∀ j, ∃ v : K, lag ((y.reverse ++ []).map X.fin) j = X.fin v := by
      intro j
      unfold lag
      rw [List.getD, List.getElem?_map]
      cases (y.reverse ++ [])[j]? with
      | none => exact ⟨0, rfl⟩
      | some v => exact ⟨v, rfl⟩
    obtain ⟨a, ha⟩ := hxf 0 (by omega)
    obtain ⟨b, hb⟩ := hxf 1 (by omega)
    obtain ⟨c, hc⟩ := hyf 0
    obtain ⟨d, hd⟩ := hyf 1
    exact ⟨a, b, c, d, by rw [h3, ha, hb, hc, hd]⟩

/-! ### the nodes -/

/-- one channel over several quanta -/
def Filt.chan {κ σ : Type} (f : Filt K κ σ) : σ → List (κ × List (X K)) → σ × List (X K)
  | s, [] => (s, [])
  | s, (k, l) :: qs =>
    let r := f.run k s l
    ((Filt.chan f r.1 qs).1, r.2 ++ (Filt.chan f r.1 qs).2)

/-- channel `c` of quanta with coefficients -/
def chanOf {κ : Type} (N c : Nat) (qs : List (κ × Quantum (X K))) : List (κ × List (X K)) :=
  qs.map fun q => (q.1, (List.range N).map fun i => sample q.2 c i)

theorem data_sample {N : Nat} {q : Quantum (X K)} (hq : ∀ l, some l ∈ q → l.length = N) {c : Nat} (hc : c < q.length) :
    Chan.data N (q.getD c none) = (List.range N).map fun i => sample q c i := by
  have : ∀ o, q[c]? = some o → Chan.data N o = (List.range N).map fun i => sample q c i := by
    intro o ho
    unfold sample
    rw [ho]
    cases o with
    | none => simp [Chan.data, List.map_const']
    | some l =>
      have hl := hq l (List.mem_of_getElem? ho)
      simp only [Chan.data]
      apply List.ext_getElem
      · simp [hl]
      · intro i h1 h2
        simp [List.getD, h1]
  have h := this q[c] (List.getElem?_eq_getElem hc)
  simpa [List.getD, hc] using h

theorem data_silent {N : Nat} {q : Quantum (X K)} (hq : isSilent q = true) (c : Nat) :
    ((List.range N).map fun i => sample q c i) = List.replicate N 0 := by
  simp [sample_of_isSilent hq, List.map_const']

theorem sample_out {α : Type} (g : Nat → α × List (X K)) {m c : Nat} (i : Nat) (hc : c < m) :
    sample (((List.range m).map g).map (fun r => some r.2)) c i = (g c).2.getD i 0 := by
  simp [sample, hc]

theorem map_getD_range {N : Nat} {o : List (X K)} (ho : o.length = N) : ((List.range N).map fun i => o.getD i 0) = o := by
  apply List.ext_getElem
  · simp [ho]
  · intro i h1 h2
    simp [List.getD, h2]

/-- A node: if its channels have nothing left whenever it passes on silence, each channel is filtered as one stream. -/
theorem Filt.node {κ σ : Type} (f : Filt K κ σ) {N m : Nat} (P : κ → Prop)
    (hlen : ∀ k s l, P k → l.length = N → (f.run k s l).2.length = N)
    (hz : ∀ k, P k → f.run k f.zero (List.replicate N 0) = (f.zero, List.replicate N 0)) (hl0 : f.live f.zero = false)
    (qs : List (κ × Quantum (X K))) (hP : ∀ q ∈ qs, P q.1)
    (hq : ∀ q ∈ qs, ∀ l, some l ∈ q.2 → l.length = N) (hm : ∀ q ∈ qs, isSilent q.2 = false → q.2.length = m) :
    ∀ (states : List σ) (st : Nat → σ), (∀ c < m, states.getD c f.zero = st c) →
      (states.length = m ∨ ∀ s ∈ states, s = f.zero) →
      (∀ pre q post, qs = pre ++ q :: post → isSilent q.2 = true → ∀ c < m,
        f.live (f.chan (st c) (chanOf N c pre)).1 = false → (f.chan (st c) (chanOf N c pre)).1 = f.zero) →
      ∀ c < m, streamX N (f.runs N states qs).2 c = (f.chan (st c) (chanOf N c qs)).2 := by
  induction qs with
  | nil => intro states st _ _ _ c _; rfl
  | cons q qs ih =>
    intro states st hst hlenm hclean c hc
    have hPq := hP q (by simp)
    have hqq := hq q (by simp)
    have hcl' : ∀ st' : Nat → σ, (∀ c < m, st' c = (f.run q.1 (st c) ((List.range N).map fun i => sample q.2 c i)).1) →
        ∀ pre q' post, qs = pre ++ q' :: post → isSilent q'.2 = true → ∀ c < m,
        f.live (f.chan (st' c) (chanOf N c pre)).1 = false → (f.chan (st' c) (chanOf N c pre)).1 = f.zero := by
      intro st' hst' pre q' post he hs' c hc hv
      rw [hst' c hc] at hv ⊢
      exact hclean (q :: pre) q' post (by rw [he]; rfl) hs' c hc hv
    have hrec := fun states' st' a b => ih (fun x hx => hP x (by simp [hx])) (fun x hx => hq x (by simp [hx]))
      (fun x hx => hm x (by simp [hx])) states' st' a b
    have fin : ∀ (states' : List σ) (o : Quantum (X K)) (b : Bool),
        f.process N states q.1 q.2 = (states', o, b) →
        (∀ c < m, states'.getD c f.zero = (f.run q.1 (st c) ((List.range N).map fun i => sample q.2 c i)).1) →
        (states'.length = m ∨ ∀ s ∈ states', s = f.zero) →
        ((List.range N).map fun i => sample o c i) = (f.run q.1 (st c) ((List.range N).map fun i => sample q.2 c i)).2 →
        streamX N (f.runs N states (q :: qs)).2 c = (f.chan (st c) (chanOf N c (q :: qs))).2 := by
      intro states' o b hp h1 h2 h3
      have := hrec states' (fun c => (f.run q.1 (st c) ((List.range N).map fun i => sample q.2 c i)).1) h1 h2
        (hcl' _ (fun _ _ => rfl)) c hc
      simp only [Filt.runs, hp]
      unfold streamX
      rw [List.map_cons, List.flatten_cons, h3]
      unfold streamX at this
      rw [this]
      rfl
    by_cases hs : isSilent q.2 = true
    · by_cases hl : states.any f.live
      · -- tail
        have hlm : states.length = m := by
          rcases hlenm with h | h
          · exact h
          · exfalso
            obtain ⟨s, hs1, hs2⟩ := List.any_eq_true.1 hl
            rw [h s hs1, hl0] at hs2
            exact absurd hs2 (by simp)
        have hhead : Chan.data N (q.2.headD none) = List.replicate N (0 : X K) := by
          unfold isSilent at hs
          rw [List.all_eq_true] at hs
          cases hq2 : q.2 with
          | nil => rfl
          | cons a l =>
            have := hs a (by simp [hq2])
            cases a with
            | none => rfl
            | some _ => simp at this
        have hp : f.process N states q.1 q.2 =
            (((List.range states.length).map fun c => f.run q.1 (states.getD c f.zero) (List.replicate N 0)).map (·.1),
             ((List.range states.length).map fun c => f.run q.1 (states.getD c f.zero) (List.replicate N 0)).map
              (fun r => some r.2), true) := by
          unfold Filt.process
          rw [if_neg (by simp [hs, hl])]
          simp only [hs, if_true, hhead]
        refine fin _ _ _ hp ?_ (Or.inl (by simp [hlm])) ?_
        · intro c hc
          rw [data_silent hs, ← hst c hc]
          simp [List.getD, hlm, hc]
        · rw [data_silent hs, ← hst c hc]
          have hlen' := hlen q.1 (states.getD c f.zero) (List.replicate N 0) hPq (by simp)
          rw [← map_getD_range hlen']
          apply List.map_congr_left
          intro i _
          rw [sample_out _ i (by omega)]
      · have hp : f.process N states q.1 q.2 = (states, silence, false) := by
          unfold Filt.process
          rw [if_pos (by simp [hs]; simpa using hl)]
        have hzero : ∀ c < m, st c = f.zero := by
          intro c hc
          refine hclean [] q qs rfl hs c hc ?_
          show f.live (st c) = false
          rw [← hst c hc]
          by_cases hcl : c < states.length
          · have : states.getD c f.zero = states[c] := by simp [List.getD, hcl]
            rw [this]
            have hl' : ∀ s ∈ states, f.live s = false := by simpa using hl
            exact hl' _ (List.getElem_mem hcl)
          · have : states.getD c f.zero = f.zero := by
              rw [List.getD, List.getElem?_eq_none (by omega)]; rfl
            rw [this, hl0]
        refine fin _ _ _ hp ?_ hlenm ?_
        · intro c hc
          rw [data_silent hs, hst c hc, hzero c hc, hz _ hPq]
        · rw [data_silent hs, hzero c hc, hz _ hPq]
          simp [sample_silence, List.map_const']
    · have hs' : isSilent q.2 = false := by simpa using hs
      have hlm := hm q (by simp) hs'
      have hlen2 : (states.take m ++ List.replicate (m - states.length) f.zero).length = m := by
        simp; omega
      have hget : ∀ c < m, (states.take m ++ List.replicate (m - states.length) f.zero).getD c f.zero = st c := by
        intro c hc
        rw [← hst c hc]
        by_cases hcl : c < states.length
        · rw [List.getD, List.getElem?_append_left (by simp; omega), List.getElem?_take_of_lt hc]
          rfl
        · simp only [List.getD]
          rw [List.getElem?_append_right (by simp; omega), List.getElem?_eq_none (by omega : states.length ≤ c),
            List.getElem?_replicate_of_lt (by simp; omega)]
          rfl
      have hp : f.process N states q.1 q.2 =
          (((List.range m).map fun c => f.run q.1 (st c) ((List.range N).map fun i => sample q.2 c i)).map (·.1),
           ((List.range m).map fun c => f.run q.1 (st c) ((List.range N).map fun i => sample q.2 c i)).map
            (fun r => some r.2), true) := by
        have hmap : ((List.range m).map fun c =>
            f.run q.1 ((states.take m ++ List.replicate (m - states.length) f.zero).getD c f.zero)
              (Chan.data N (q.2.getD c none))) =
            (List.range m).map fun c => f.run q.1 (st c) ((List.range N).map fun i => sample q.2 c i) := by
          apply List.map_congr_left
          intro c hc
          rw [List.mem_range] at hc
          rw [hget c hc, data_sample hqq (by omega)]
        unfold Filt.process
        rw [if_neg (by simp [hs'])]
        simp only [hs', Bool.false_eq_true, if_false, hlm, hlen2, hmap]
      refine fin _ _ _ hp ?_ (Or.inl (by simp)) ?_
      · intro c hc
        simp [List.getD, hc]
      · have hlen' := hlen q.1 (st c) ((List.range N).map fun i => sample q.2 c i) hPq (by simp)
        rw [← map_getD_range hlen']
        apply List.map_congr_left
        intro i _
        rw [sample_out _ i hc]

/-! ### IIR filter -/

omit [IsStrictOrderedRing K] in
theorem iirRunX_append (t : K) (cs : List (K × K)) (xs ys : List (X K)) : ∀ st : List (X K),
    iirRunX t cs st (xs ++ ys) = ((iirRunX t cs (iirRunX t cs st xs).1 ys).1,
      (iirRunX t cs st xs).2 ++ (iirRunX t cs (iirRunX t cs st xs).1 ys).2) := by
  induction xs with
  | nil => intro st; rfl
  | cons x xs ih =>
    intro st
    simp only [List.cons_append, iirRunX, ih]

omit [IsStrictOrderedRing K] in
theorem iir_chan (t : K) (cs : List (K × K)) (N c : Nat) (qs : List (Quantum (X K))) : ∀ st : List (X K),
    (iirFilt t cs).chan st (chanOf N c (qs.map ((), ·))) = iirRunX t cs st (streamX N qs c) := by
  induction qs with
  | nil => intro st; rfl
  | cons q qs ih =>
    intro st
    have := ih ((iirRunX t cs st ((List.range N).map fun i => sample q c i)).1)
    have e : streamX N (q :: qs) c = ((List.range N).map fun i => sample q c i) ++ streamX N qs c := rfl
    rw [e, iirRunX_append, ← this]
    rfl

omit [IsStrictOrderedRing K] in
theorem iirRunX_length (t : K) (cs : List (K × K)) (xs : List (X K)) : ∀ st : List (X K),
    (iirRunX t cs st xs).2.length = xs.length := by
  induction xs with
  | nil => intro st; rfl
  | cons x xs ih => intro st; simp [iirRunX, ih]

omit [IsStrictOrderedRing K] in
theorem Inv.length {cs : List (K × K)} {st hx : List (X K)} {hy : List K} (h : Inv cs st hx hy) :
    st.length = cs.length + 1 := by
  induction cs generalizing st with
  | nil => rw [Inv] at h; subst h; rfl
  | cons c cs ih =>
    obtain ⟨s, st', rfl, -, h3⟩ := h
    simp [ih h3]

omit [IsStrictOrderedRing K] in
theorem shiftX_zero (cs : List (K × K)) : ∀ n : Nat,
    shiftX (.fin 0) (.fin 0) cs (List.replicate n (0 : X K)) = List.replicate n 0 := by
  induction cs with
  | nil => intro n; cases n <;> rfl
  | cons c cs ih =>
    intro n
    match n with
    | 0 => rfl
    | 1 => rfl
    | n + 2 =>
      have := ih (n + 1)
      simp only [List.replicate_succ] at this ⊢
      rw [shiftX, this]
      congr 1
      show _ = X.fin (0 : K)
      show X.add _ (X.fin 0) = _
      simp [X.mul, X.sub, X.neg, X.add]

omit [IsStrictOrderedRing K] in
theorem iirRunX_zero (t : K) (cs : List (K × K)) (n : Nat) : ∀ k : Nat,
    iirRunX t cs (List.replicate n (0 : X K)) (List.replicate k 0) = (List.replicate n 0, List.replicate k 0) := by
  intro k
  induction k with
  | zero => rfl
  | succ k ih =>
    have hy : ((X.mul (X.fin (cs.headD (0, 0)).1) 0).add ((List.replicate n (0 : X K)).headD 0)).flush t = .fin 0 := by
      have h0 : (List.replicate n (0 : X K)).headD 0 = .fin 0 := by cases n <;> rfl
      rw [h0]
      show X.flush t (X.add (X.mul _ (X.fin 0)) _) = _
      simp [X.mul, X.add, X.flush]
    have hs : iirStepX t cs (List.replicate n (0 : X K)) 0 = (List.replicate n 0, .fin 0) := by
      unfold iirStepX
      simp only [hy]
      rw [show (0 : X K) = X.fin 0 from rfl]
      exact congrArg (·, X.fin (0 : K)) (shiftX_zero cs.tail n)
    simp only [List.replicate_succ, iirRunX, hs, ih]
    rfl

/-- C93 for the IIR filter: with any samples at the input, the output is finite and obeys the difference equation wherever
the inputs of the equation are finite, across the borders of the quanta, provided that before silent quanta the inputs
that the filter remembers are finite (see `C93_negated_pause_iir`). Values flushed because they are too small are not
taken into account (`C93_iir_small` is the bound for one channel). -/
theorem C93_iir_partial {b a : List K} (ha : a ≠ []) (ha0 : a.getD 0 0 ≠ 0) {m N : Nat} (qs : List (Quantum (X K)))
    (hq : ∀ q ∈ qs, ∀ l, some l ∈ q → l.length = N) (hm : ∀ q ∈ qs, isSilent q = false → q.length = m)
    (hp : ∀ pre q post, qs = pre ++ q :: post → isSilent q = true → ∀ c < m, ∀ i < max b.length a.length - 1,
      i < (streamX N pre c).length → ∃ v, (streamX N pre c)[(streamX N pre c).length - 1 - i]? = some (X.fin v))
    (n0 c : Nat) (hc : c < m) :
    ∃ y : List K, streamX N ((iirFilt 0 (Verif.Filter.Iir.new b a).coeffs).runs N
        (List.replicate n0 (iirFilt 0 (Verif.Filter.Iir.new b a).coeffs).zero) (qs.map ((), ·))).2 c = y.map X.fin ∧
      y.length = (streamX N qs c).length ∧ ∀ k < y.length, Obeys 0 b a (streamX N qs c) y k := by
  have hnode := (iirFilt 0 (Verif.Filter.Iir.new b a).coeffs).node (N := N) (m := m) (fun _ => True)
    (fun k s l _ hl => by rw [← hl]; exact iirRunX_length _ _ _ _)
    (fun k _ => iirRunX_zero _ _ _ _)
    (by
      show (List.replicate _ (0 : X K)).any (X.isNormal 0) = false
      rw [List.any_eq_false]
      intro x hx
      rw [List.eq_of_mem_replicate hx]
      show ¬ (X.isNormal 0 (X.fin (0 : K)) = true)
      simp [X.isNormal])
    (qs.map ((), ·)) (fun _ _ => trivial)
    (by
      intro q hq' l hl
      obtain ⟨q', h1, rfl⟩ := List.mem_map.1 hq'
      exact hq q' h1 l hl)
    (by
      intro q hq' hs
      obtain ⟨q', h1, rfl⟩ := List.mem_map.1 hq'
      exact hm q' h1 hs)
    (List.replicate n0 (iirFilt 0 (Verif.Filter.Iir.new b a).coeffs).zero)
    (fun _ => (iirFilt 0 (Verif.Filter.Iir.new b a).coeffs).zero)
    (by
      intro c _
      simp only [List.getD]
      by_cases h : c < n0
      · rw [List.getElem?_replicate_of_lt h]; rfl
      · rw [List.getElem?_eq_none (by simpa using h)]; rfl)
    (Or.inr fun s hs => List.eq_of_mem_replicate hs)
    (by
      intro pre q post he hs c hc hl
      obtain ⟨pre', r, h1, h2, h3⟩ := List.map_eq_append_iff.1 he
      obtain ⟨q', post', rfl, rfl, h5⟩ := List.map_eq_cons_iff.1 h3
      subst h2 h1
      rw [iir_chan] at hl ⊢
      have hfin := (iir_obeys (le_refl (0 : K)) (b := b) ha ha0 (streamX N pre' c)).choose_spec.2.2.2
        (hp pre' q' post' rfl hs c hc)
      obtain ⟨p, cs, hcs⟩ := Verif.Filter.new_coeffs_cons (b := b) ha
      obtain ⟨_, _, _, hinv, _⟩ := iirRunX_spec (le_refl (0 : K)) p cs (streamX N pre' c) _ _ _ (Inv.rest cs)
      rw [hcs] at hl hfin ⊢
      have hl' : ∀ s ∈ (iirRunX 0 (p :: cs) (List.replicate (p :: cs).length 0) (streamX N pre' c)).1,
          X.isNormal 0 s = false := by
        have := List.any_eq_false.1 hl
        intro s hs
        simpa using this s hs
      show _ = List.replicate _ _
      rw [List.eq_replicate_iff]
      refine ⟨hinv.length, fun s hs => ?_⟩
      obtain ⟨v, rfl⟩ := hfin s hs
      have := hl' _ hs
      simp only [X.isNormal, abs_nonneg, and_true, decide_eq_false_iff_not, not_not] at this
      rw [this]
      rfl)
    c hc
  rw [iir_chan] at hnode
  obtain ⟨y, h1, h2, h3, -⟩ := iir_obeys (le_refl (0 : K)) (b := b) ha ha0 (streamX N qs c)
  refine ⟨y, ?_, h2, fun k hk => h3 k (by omega)⟩
  rw [hnode]
  exact h1

/-- C93 for one channel of the IIR filter with flushing of values below `t`: the output is finite, and the equation holds
with an error of at most `t`. -/
theorem C93_iir_small {t : K} (ht : 0 ≤ t) {b a : List K} (ha : a ≠ []) (ha0 : a.getD 0 0 ≠ 0) (xs : List (X K)) :
    ∃ y : List K, (iirRunX t (Verif.Filter.Iir.new b a).coeffs
        (List.replicate (Verif.Filter.Iir.new b a).coeffs.length 0) xs).2 = y.map X.fin ∧ y.length = xs.length ∧
      ∀ k < xs.length, Obeys t b a xs y k := by
  obtain ⟨y, h1, h2, h3, -⟩ := iir_obeys ht (b := b) ha ha0 xs
  exact ⟨y, h1, h2, h3⟩

/-! ### biquad filter -/

omit [IsStrictOrderedRing K] in
theorem bqRun_append (t : K) (xs ys : List (X K)) (ds : List (Coef K)) : ∀ (cs : List (Coef K)) (s : BQ K),
    cs.length = xs.length →
    bqRun t (cs ++ ds) s (xs ++ ys) = ((bqRun t ds (bqRun t cs s xs).1 ys).1,
      (bqRun t cs s xs).2 ++ (bqRun t ds (bqRun t cs s xs).1 ys).2) := by
  induction xs with
  | nil =>
    intro cs s h
    have : cs = [] := List.length_eq_zero_iff.1 h
    subst this
    cases ds <;> rfl
  | cons x xs ih =>
    intro cs s h
    cases cs with
    | nil => simp at h
    | cons c cs =>
      simp only [List.cons_append, bqRun, ih cs _ (by simpa using h)]

omit [IsStrictOrderedRing K] in
theorem bqRun_length (t : K) (xs : List (X K)) : ∀ (cs : List (Coef K)) (s : BQ K), cs.length = xs.length →
    (bqRun t cs s xs).2.length = xs.length := by
  induction xs with
  | nil => intro cs s h; cases cs <;> rfl
  | cons x xs ih =>
    intro cs s h
    cases cs with
    | nil => simp at h
    | cons c cs => simp [bqRun, ih cs _ (by simpa using h)]

omit [IsStrictOrderedRing K] in
theorem bq_chan (t : K) {N : Nat} (c : Nat) (qs : List (List (Coef K) × Quantum (X K))) (hk : ∀ q ∈ qs, q.1.length = N) :
    ∀ s : BQ K, (bqFilt t).chan s (chanOf N c qs) = bqRun t (qs.map (·.1)).flatten s (streamX N (qs.map (·.2)) c) := by
  induction qs with
  | nil => intro st; rfl
  | cons q qs ih =>
    intro st
    have := ih (fun x hx => hk x (by simp [hx])) ((bqRun t q.1 st ((List.range N).map fun i => sample q.2 c i)).1)
    unfold streamX at this ⊢
    rw [List.map_cons, List.flatten_cons, List.map_cons, List.map_cons, List.flatten_cons,
      bqRun_append _ _ _ _ _ _ (by rw [hk q (by simp)]; simp), ← this]
    rfl

omit [IsStrictOrderedRing K] in
theorem bqRun_zero (t : K) : ∀ (k : Nat) (cs : List (Coef K)), cs.length = k →
    bqRun t cs (⟨0, 0, 0, 0⟩ : BQ K) (List.replicate k 0) = (⟨0, 0, 0, 0⟩, List.replicate k 0) := by
  intro k
  induction k with
  | zero => intro cs h; cases cs <;> rfl
  | succ k ih =>
    intro cs h
    cases cs with
    | nil => simp at h
    | cons c cs =>
      have hs : bqStep t c (⟨0, 0, 0, 0⟩ : BQ K) 0 = (⟨0, 0, 0, 0⟩, 0) := by
        unfold bqStep
        rw [show (0 : X K) = X.fin 0 from rfl]
        simp [X.mul, X.add, X.sub, X.neg, X.flush]
      simp only [List.replicate_succ, bqRun, hs, ih cs (by simpa using h)]

theorem streamX_length (N : Nat) (qs : List (Quantum (X K))) (c : Nat) : (streamX N qs c).length = qs.length * N := by
  induction qs with
  | nil => simp [streamX]
  | cons q qs ih =>
    unfold streamX at ih ⊢
    rw [List.map_cons, List.flatten_cons, List.length_append, ih]
    simp
    ring

/-- C93 for the biquad filter, like `C93_iir_partial`; `qs` has the coefficients of the frames of the quanta. -/
theorem C93_biquad_partial {m N : Nat} (qs : List (List (Coef K) × Quantum (X K))) (hk : ∀ q ∈ qs, q.1.length = N)
    (hq : ∀ q ∈ qs, ∀ l, some l ∈ q.2 → l.length = N) (hm : ∀ q ∈ qs, isSilent q.2 = false → q.2.length = m)
    (hp : ∀ pre q post, qs = pre ++ q :: post → isSilent q.2 = true → ∀ c < m, ∀ i < 2,
      i < (streamX N (pre.map (·.2)) c).length →
      ∃ v, (streamX N (pre.map (·.2)) c)[(streamX N (pre.map (·.2)) c).length - 1 - i]? = some (X.fin v))
    (c : Nat) (hc : c < m) :
    ∃ y : List K, streamX N ((bqFilt (0 : K)).runs N [] qs).2 c = y.map X.fin ∧
      y.length = (streamX N (qs.map (·.2)) c).length ∧
      ∀ k < y.length, ObeysBiquad 0 (qs.map (·.1)).flatten (streamX N (qs.map (·.2)) c) y k := by
  have hfl : ∀ qs : List (List (Coef K) × Quantum (X K)), (∀ q ∈ qs, q.1.length = N) →
      (qs.map (·.1)).flatten.length = (streamX N (qs.map (·.2)) c).length := by
    intro qs hk
    rw [streamX_length]
    induction qs with
    | nil => simp
    | cons q qs ih =>
      simp only [List.map_cons, List.flatten_cons, List.length_append, List.length_cons]
      rw [ih (fun x hx => hk x (by simp [hx])), hk q (by simp)]
      ring
  have hfl' : ∀ (c : Nat) (qs : List (List (Coef K) × Quantum (X K))), (∀ q ∈ qs, q.1.length = N) →
      (qs.map (·.1)).flatten.length = (streamX N (qs.map (·.2)) c).length := by
    intro c' qs hk
    rw [hfl qs hk, streamX_length, streamX_length]
  have hnode := (bqFilt (0 : K)).node (N := N) (m := m) (fun k => k.length = N)
    (fun k s l h hl => by
      have := bqRun_length (0 : K) l k s (by omega)
      rw [← hl]; exact this)
    (fun k h => bqRun_zero _ _ _ h)
    (by
      show (X.isNormal 0 (X.fin (0 : K)) || X.isNormal 0 (X.fin (0 : K)) || X.isNormal 0 (X.fin (0 : K)) ||
        X.isNormal 0 (X.fin (0 : K))) = false
      simp [X.isNormal])
    qs hk hq hm [] (fun _ => (bqFilt 0).zero) (fun c _ => rfl) (Or.inr (by simp))
    (by
      intro pre q post he hs c hc hl
      have hkp : ∀ q ∈ pre, q.1.length = N := fun x hx => hk x (by rw [he]; simp [hx])
      rw [bq_chan _ _ _ hkp] at hl ⊢
      have := (bq_obeys (le_refl (0 : K)) (pre.map (·.1)).flatten (streamX N (pre.map (·.2)) c)
        (hfl' c pre hkp)).choose_spec.2.2.2 (hp pre q post he hs c hc)
      obtain ⟨x1, x2, y1, y2, h⟩ := this
      have h' : (bqRun 0 (pre.map (·.1)).flatten (bqFilt 0).zero (streamX N (pre.map (·.2)) c)).1 =
        (⟨.fin x1, .fin x2, .fin y1, .fin y2⟩ : BQ K) := h
      rw [h'] at hl ⊢
      have hl2 : (X.isNormal 0 (X.fin x1) || X.isNormal 0 (X.fin x2) || X.isNormal 0 (X.fin y1) ||
        X.isNormal 0 (X.fin y2)) = false := hl
      simp only [X.isNormal, abs_nonneg, and_true, Bool.or_eq_false_iff, decide_eq_false_iff_not, not_not] at hl2
      obtain ⟨⟨⟨rfl, rfl⟩, rfl⟩, rfl⟩ := hl2
      rfl)
    c hc
  rw [bq_chan _ _ _ hk] at hnode
  obtain ⟨y, h1, h2, h3, -⟩ := bq_obeys (le_refl (0 : K)) (qs.map (·.1)).flatten (streamX N (qs.map (·.2)) c) (hfl qs hk)
  refine ⟨y, ?_, h2, fun k hk => h3 k (by omega)⟩
  rw [hnode]
  exact h1

/-- C93 for one channel of the biquad filter with flushing of values below `t` -/
theorem C93_biquad_small {t : K} (ht : 0 ≤ t) (cs : List (Coef K)) (xs : List (X K)) (hl : cs.length = xs.length) :
    ∃ y : List K, (bqRun t cs ⟨0, 0, 0, 0⟩ xs).2 = y.map X.fin ∧ y.length = xs.length ∧
      ∀ k < xs.length, ObeysBiquad t cs xs y k := by
  obtain ⟨y, h1, h2, h3, -⟩ := bq_obeys ht cs xs hl
  exact ⟨y, h1, h2, h3⟩

end

/-! ### examples and counterexamples -/

/-- A one pole filter: an undefined and an infinite sample and the sample after them give zero, the filter goes on. -/
example : (iirRunX (0 : ℚ) (Verif.Filter.Iir.new [2] [2, -1]).coeffs [0, 0]
      [.fin 4, .nan, .inf false, .fin 2, .fin 2, .fin 0]).2 = [.fin 4, .fin 0, .fin 0, .fin 0, .fin 2, .fin 1] := by decide +kernel

/-- With flushing -/
example : (iirRunX (1 : ℚ) (Verif.Filter.Iir.new [2] [2, -1]).coeffs [0, 0] [.fin 4, .fin 0, .fin 0, .fin 0, .fin 0]).2 =
    [.fin 4, .fin 2, .fin 1, .fin 0, .fin 0] := by decide +kernel

example : (bqRun (0 : ℚ) (List.replicate 6 ⟨1, 1, 1, 0, -1/2⟩) ⟨0, 0, 0, 0⟩
      [.fin 4, .nan, .fin 0, .fin 0, .fin 2, .fin 0]).2 = [.fin 4, .fin 0, .fin 0, .fin 0, .fin 2, .fin 2] := by
  decide +kernel

/-- C93 is false when the input of an IIR filter pauses right after a sample that is not finite: the sample stays in the
filter however long the pause is, and falsifies the next sound. Two taps; the last output would be 1. -/
theorem C93_negated_pause_iir (pause : Nat) :
    ((iirFilt (0 : ℚ) (Verif.Filter.Iir.new [1, 1] [1]).coeffs).runs 2
      (List.replicate 2 (iirFilt (0 : ℚ) (Verif.Filter.Iir.new [1, 1] [1]).coeffs).zero)
      (((), [some [0, .nan]]) :: (List.replicate pause ((), silence) ++ [((), [some [.fin 1, .fin 1]])]))).2 =
    [some [0, 0]] :: (List.replicate pause silence ++ [[some [0, .fin 2]]]) := by
  have h1 : (iirFilt (0 : ℚ) (Verif.Filter.Iir.new [1, 1] [1]).coeffs).process 2
      (List.replicate 2 (iirFilt (0 : ℚ) (Verif.Filter.Iir.new [1, 1] [1]).coeffs).zero) () [some [0, .nan]] =
      ([[.nan, 0]], [some [0, 0]], true) := by decide +kernel
  have h2 : (iirFilt (0 : ℚ) (Verif.Filter.Iir.new [1, 1] [1]).coeffs).process 2 [[.nan, 0]] () silence =
      ([[.nan, 0]], silence, false) := by decide +kernel
  have h3 : ∃ s, (iirFilt (0 : ℚ) (Verif.Filter.Iir.new [1, 1] [1]).coeffs).process 2 [[.nan, 0]] ()
      [some [.fin 1, .fin 1]] = (s, [some [0, .fin 2]], true) := ⟨[[.fin 1, 0]], by decide +kernel⟩
  obtain ⟨s, h3⟩ := h3
  have hp : ∀ p : Nat, ((iirFilt (0 : ℚ) (Verif.Filter.Iir.new [1, 1] [1]).coeffs).runs 2 [[.nan, 0]]
      (List.replicate p ((), silence) ++ [((), [some [.fin 1, .fin 1]])])).2 =
      List.replicate p silence ++ [[some [0, .fin 2]]] := by
    intro p
    induction p with
    | zero => simp only [List.replicate_zero, List.nil_append, Filt.runs, h3]
    | succ p ih => simp only [List.replicate_succ, List.cons_append, Filt.runs, h2, ih]
  simp only [Filt.runs, h1, hp]

/-- The equation for the last quantum does not hold. -/
example : ¬ Obeys (0 : ℚ) [1, 1] [1] [0, .nan, 0, 0, .fin 1, .fin 1] [0, 0, 0, 0, 0, 2] 4 := by
  intro h
  have := h (fun i => if i = 4 then 1 else 0) (by decide)
  revert this
  decide +kernel

/-- C93 is false for the biquad filter in the same way: coefficients `b = (1, 1, 1)`; the output after the pause would be
1, 2. -/
theorem C93_negated_pause_biquad (pause : Nat) :
    ((bqFilt (0 : ℚ)).runs 2 [] (([⟨1, 1, 1, 0, 0⟩, ⟨1, 1, 1, 0, 0⟩], [some [0, .nan]]) ::
      (List.replicate pause ([⟨1, 1, 1, 0, 0⟩, ⟨1, 1, 1, 0, 0⟩], silence) ++
        [([⟨1, 1, 1, 0, 0⟩, ⟨1, 1, 1, 0, 0⟩], [some [.fin 1, .fin 1]])]))).2 =
    [some [0, 0]] :: (List.replicate pause silence ++ [[some [0, 0]]]) := by
  have h1 : (bqFilt (0 : ℚ)).process 2 [] [⟨1, 1, 1, 0, 0⟩, ⟨1, 1, 1, 0, 0⟩] [some [0, .nan]] =
      ([⟨.nan, 0, 0, 0⟩], [some [0, 0]], true) := by decide +kernel
  have h2 : (bqFilt (0 : ℚ)).process 2 [⟨.nan, 0, 0, 0⟩] [⟨1, 1, 1, 0, 0⟩, ⟨1, 1, 1, 0, 0⟩] silence =
      ([⟨.nan, 0, 0, 0⟩], silence, false) := by decide +kernel
  have h3 : (bqFilt (0 : ℚ)).process 2 [⟨.nan, 0, 0, 0⟩] [⟨1, 1, 1, 0, 0⟩, ⟨1, 1, 1, 0, 0⟩] [some [.fin 1, .fin 1]] =
      ([⟨.fin 1, .fin 1, 0, 0⟩], [some [0, 0]], true) := by decide +kernel
  have hp : ∀ p : Nat, ((bqFilt (0 : ℚ)).runs 2 [⟨.nan, 0, 0, 0⟩]
      (List.replicate p ([⟨1, 1, 1, 0, 0⟩, ⟨1, 1, 1, 0, 0⟩], silence) ++
        [([⟨1, 1, 1, 0, 0⟩, ⟨1, 1, 1, 0, 0⟩], [some [.fin 1, .fin 1]])])).2 =
      List.replicate p silence ++ [[some [0, 0]]] := by
    intro p
    induction p with
    | zero => simp only [List.replicate_zero, List.nil_append, Filt.runs, h3]
    | succ p ih => simp only [List.replicate_succ, List.cons_append, Filt.runs, h2, ih]
  simp only [Filt.runs, h1, hp]

/-- C93 is false for the samples that are output: they are checked before they are narrowed to `f32`, so that finite
input can give infinite output. A filter with the coefficient `10^39`. -/
theorem C93_negated_overflow :
    (iirRunX (0 : ℚ) (Verif.Filter.Iir.new [10 ^ 39] [1]).coeffs [0] [.fin 1]).2.map
      (X.narrow ((2 - 1 / 2 ^ 23) * 2 ^ 127)) = [.inf false] := by decide +kernel

end Verif.Nan
