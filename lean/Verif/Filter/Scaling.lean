import Verif.Mix.Scaling

/-!
# Powers of two and filters

The recursions of the biquad filter and of the IIR filter with a rounding `rd` after every operation (`f64`), and a rounding `out` of the
output (`f32`). Exponents are unbounded, so that the flushing of subnormal numbers to zero does nothing.
-/

namespace Verif.Filter

open Verif.Float

section
variable {K : Type} [Field K]

/-! ## The model -/

/-- the coefficients of a biquad filter, `/repo/src/node/biquad_filter.rs` l.18-26 -/
structure CoefR (K : Type) where
  b0 : K
  b1 : K
  b2 : K
  a1 : K
  a2 : K

/-- the state of a channel, biquad_filter.rs l.864-866 -/
structure StateR (K : Type) where
  x1 : K
  x2 : K
  y1 : K
  y2 : K

/-- one frame, biquad_filter.rs l.872-891, without the flushing of l.879-883 -/
def biquadStepR (rd out : K → K) (c : CoefR K) (s : StateR K) (x : K) : StateR K × K :=
  let y := rd (rd (rd (rd (rd (c.b0 * x) + rd (c.b1 * s.x1)) + rd (c.b2 * s.x2)) - rd (c.a1 * s.y1)) - rd (c.a2 * s.y2))
  (⟨x, s.x1, y, s.y1⟩, out y)

/-- the frames of a channel, with coefficients per frame, biquad_filter.rs l.868-894 -/
def biquadRunR (rd out : K → K) : List (CoefR K) → StateR K → List K → StateR K × List K
  | c :: cs, s, x :: xs =>
    let r := biquadStepR rd out c s x
    let q := biquadRunR rd out cs r.1 xs
    (q.1, r.2 :: q.2)
  | _, s, _ => (s, [])

/-- the update of the states, `/repo/src/node/iir_filter.rs` l.398-401 -/
def shiftR (rd : K → K) (x y : K) : List (K × K) → List K → List K
  | p :: cs, _ :: s1 :: ss => rd (rd (rd (p.1 * x) - rd (p.2 * y)) + s1) :: shiftR rd x y cs (s1 :: ss)
  | _, ss => ss

/-- one frame, iir_filter.rs l.387-409 (`mul_add` rounds once), without the flushing of l.392-395 -/
def iirStepR (rd out : K → K) (cs : List (K × K)) (st : List K) (x : K) : List K × K :=
  let y := rd ((cs.headD (0, 0)).1 * x + st.headD 0)
  (shiftR rd x y cs.tail st, out y)

/-- the frames of a channel, iir_filter.rs l.387-409 -/
def iirRunR (rd out : K → K) (cs : List (K × K)) : List K → List K → List K × List K
  | st, [] => (st, [])
  | st, x :: xs =>
    let r := iirStepR rd out cs st x
    let q := iirRunR rd out cs r.1 xs
    (q.1, r.2 :: q.2)

/-! ## Factors that commute with the roundings -/

/-- the state of a filter with louder input -/
def StateR.scale (c : K) (s : StateR K) : StateR K := ⟨c * s.x1, c * s.x2, c * s.y1, c * s.y2⟩

variable {rd out : K → K} {c : K} (hc : ∀ x, rd (c * x) = c * rd x)
include hc

theorem scale_biquad (ho : ∀ x, out (c * x) = c * out x) (cs : List (CoefR K)) (s : StateR K) (xs : List K) :
    biquadRunR rd out cs (s.scale c) (xs.map (c * ·)) =
      ((biquadRunR rd out cs s xs).1.scale c, (biquadRunR rd out cs s xs).2.map (c * ·)) := by
  induction cs generalizing s xs with
  | nil => rfl
  | cons d cs ih =>
    cases xs with
    | nil => rfl
    | cons x xs =>
      have e1 : ∀ a x : K, a * (c * x) = c * (a * x) := fun a x => by ring
      have : biquadStepR rd out d (s.scale c) (c * x) = ((biquadStepR rd out d s x).1.scale c, c * (biquadStepR rd out d s x).2) := by
        simp only [biquadStepR, StateR.scale, e1, hc, ← mul_add, ← mul_sub, ho]
      simp only [List.map_cons, biquadRunR, this, ih]

theorem scale_shift (x y : K) (cs : List (K × K)) (st : List K) :
    shiftR rd (c * x) (c * y) cs (st.map (c * ·)) = (shiftR rd x y cs st).map (c * ·) := by
  have e1 : ∀ a x : K, a * (c * x) = c * (a * x) := fun a x => by ring
  induction cs generalizing st with
  | nil => simp only [shiftR]
  | cons p cs ih =>
    match st with
    | [] => rfl
    | [_] => rfl
    | s0 :: s1 :: ss =>
      have := ih (s1 :: ss)
      simp only [List.map_cons] at this
      simp only [List.map_cons, shiftR, e1, hc, ← mul_add, ← mul_sub, this]

theorem scale_iir (ho : ∀ x, out (c * x) = c * out x) (cs : List (K × K)) (st xs : List K) :
    iirRunR rd out cs (st.map (c * ·)) (xs.map (c * ·)) =
      ((iirRunR rd out cs st xs).1.map (c * ·), (iirRunR rd out cs st xs).2.map (c * ·)) := by
  induction xs generalizing st with
  | nil => rfl
  | cons x xs ih =>
    have e1 : ∀ a x : K, a * (c * x) = c * (a * x) := fun a x => by ring
    have e2 : (st.map (c * ·)).headD 0 = c * st.headD 0 := by cases st <;> simp
    have : iirStepR rd out cs (st.map (c * ·)) (c * x) = ((iirStepR rd out cs st x).1.map (c * ·), c * (iirStepR rd out cs st x).2) := by
      simp only [iirStepR, e1, e2, ← mul_add, hc, ho, scale_shift hc]
    simp only [List.map_cons, iirRunR, this, ih]

end

theorem rnd_factor (p : Nat) (k : ℤ) {s : ℚ} (hs : s = 1 ∨ s = -1) (x : ℚ) : rnd p (s * 2 ^ k * x) = s * 2 ^ k * rnd p x := by
  rcases hs with rfl | rfl
  · rw [one_mul, rnd_scale]
  · rw [neg_one_mul, neg_mul, rnd_neg, rnd_scale, neg_mul]

/-- C121: a biquad filter that computes in `f64` and gives `f32` (or any other precisions `p` and `q`), from rest, with any coefficients that
may change per frame, as well as an IIR filter: input that is louder by a power of two, with the sign changed or not, gives output that is
louder by exactly this factor, to the last bit, after any number of frames of feedback. -/
theorem C121_filters (p q : Nat) (k : ℤ) {s : ℚ} (hs : s = 1 ∨ s = -1) (xs : List ℚ) :
    (∀ cs : List (CoefR ℚ), (biquadRunR (rnd p) (rnd q) cs ⟨0, 0, 0, 0⟩ (xs.map (s * 2 ^ k * ·))).2 =
      (biquadRunR (rnd p) (rnd q) cs ⟨0, 0, 0, 0⟩ xs).2.map (s * 2 ^ k * ·)) ∧
    ∀ (cs : List (ℚ × ℚ)) (n : Nat), (iirRunR (rnd p) (rnd q) cs (List.replicate n 0) (xs.map (s * 2 ^ k * ·))).2 =
      (iirRunR (rnd p) (rnd q) cs (List.replicate n 0) xs).2.map (s * 2 ^ k * ·) := by
  refine ⟨fun cs => ?_, fun cs n => ?_⟩
  · have := scale_biquad (rnd_factor p k hs) (rnd_factor q k hs) cs ⟨0, 0, 0, 0⟩ xs
    simp only [StateR.scale, mul_zero] at this
    rw [this]
  · have := scale_iir (rnd_factor p k hs) (rnd_factor q k hs) cs (List.replicate n 0) xs
    simp only [List.map_replicate, mul_zero] at this
    rw [this]

/-- C121: for other factors the bits differ, for a biquad filter that only passes on its input and the last output -/
theorem C121_negated_filter : (biquadRunR (rnd 53) (rnd 24) (List.replicate 3 ⟨1, 0, 0, -1, 0⟩) ⟨0, 0, 0, 0⟩ ([1, 2 ^ (-24 : ℤ), 0].map (3 * ·))).2 ≠
    (biquadRunR (rnd 53) (rnd 24) (List.replicate 3 ⟨1, 0, 0, -1, 0⟩) ⟨0, 0, 0, 0⟩ [1, 2 ^ (-24 : ℤ), 0]).2.map fun x => rnd 24 (3 * x) := by
  decide +kernel

/-- the output of that filter and of an IIR filter are not zero -/
example : (biquadRunR (rnd 53) (rnd 24) (List.replicate 3 ⟨1, 0, 0, -1, 0⟩) ⟨0, 0, 0, 0⟩ ([1, 1 / 3, 0].map (-1 * 2 ^ (-1 : ℤ) * ·))).2 ≠ [0, 0, 0] ∧
    (iirRunR (rnd 53) (rnd 24) [(1, 1), (1 / 3, -1 / 2)] (List.replicate 2 0) [1, 1 / 3, 0]).2 ≠ [0, 0, 0] := by
  decide +kernel

example : (biquadRunR (rnd 53) (rnd 24) (List.replicate 3 ⟨1, 0, 0, -1, 0⟩) ⟨0, 0, 0, 0⟩ ([1, 1 / 3, 0].map (-1 * 2 ^ (-1 : ℤ) * ·))).2 =
    (biquadRunR (rnd 53) (rnd 24) (List.replicate 3 ⟨1, 0, 0, -1, 0⟩) ⟨0, 0, 0, 0⟩ [1, 1 / 3, 0]).2.map (-1 * 2 ^ (-1 : ℤ) * ·) :=
  (C121_filters 53 24 (-1) (.inr rfl) _).1 _

end Verif.Filter
