import Verif.Param.OutputProps
import Verif.Param.StartProps
import Verif.Param.TargetProps

/-!
# C29 and C24: a target that has not started yet

A `set_target_at_time` in the future is evaluated for the time of the next quantum even if that is before its
start. The exponential then overflows; if the value and the target are equal, the result is NaN, and the
parameter takes its default value.
-/

namespace Verif.Param

section
variable {K : Type} [Field K] [LinearOrder K] [IsStrictOrderedRing K] [FloorRing K] [FloorSemiring K]

/-- The exponential function in `f64`, converted to `f32` (l.100): infinite from `lim` (88.7…) on. -/
def expFl (ex : K → K) (lim x : K) : Fl K := if lim ≤ x then .pinf else .fin (ex x)

/-- `a.mul_add(b, c)` for finite `a`, `c` and positive or infinite `b`: zero times infinity is NaN. -/
def mulAddFl (a : K) (b : Fl K) (c : K) : Fl K :=
  match b with
  | .fin x => .fin (a * x + c)
  | .pinf => if a = 0 then .nan else if 0 < a then .pinf else .ninf
  | .ninf => if a = 0 then .nan else if 0 < a then .ninf else .pinf
  | .nan => .nan

/-- `compute_set_target_sample`, param.rs l.92-101, on floating point numbers as far as infinities and NaN are
concerned -/
def tgtFl (ex : K → K) (lim T tau : K) (v0 v1 : Fl K) (t : K) : Fl K :=
  match v0, v1 with
  | .fin x0, .fin x1 => mulAddFl (x0 - x1) (expFl ex lim (-((t - T) / tau))) x1
  | _, _ => .nan

/-- `(end_value - value).abs() < SNAP_TO_TARGET`, l.1379-1382: false if a number is not finite -/
def snapFl (a b : Fl K) : Bool :=
  match a, b with
  | .fin x, .fin y => decide (|x - y| < 1 / 10 ^ 10)
  | _, _ => false

/-- The arithmetic `A`, with `set_target_at_time` as above. -/
def overflowing (A : Arith K (Fl K)) (ex : K → K) (lim : K) : Arith K (Fl K) :=
  { A with tgt := tgtFl ex lim, snap := snapFl }

/-- C29 is false for a target that is equal to the current value, and that starts two quanta and `lim` time
constants ahead or more: in the whole second quantum the node sees the default value of the parameter instead
of the current value, although nothing should change at all. -/
theorem C29_negated_nan {A : Arith K (Fl K)} {ex : K → K} {lim : K} {dt : K} (hdt : 0 < dt) {count : Nat}
    (hcount : 0 < count) {v : K} {c : Fl K} {T tau : K} (hT : ((2 * count : Nat) : K) * dt ≤ T)
    (hlim : lim ≤ (T - count * dt) / tau) {add : Fl K → Fl K → Fl K} (hadd : ∀ x, add .nan x = .nan)
    {dflt mn mx : K} {input : Input K} (hin : input.data.length = count) (hs : input.silent = true)
    {old : List (Fl K)} (hold : old.length = count) :
    ∃ s : Sys K (Fl K), run (overflowing A ex lim) dt count { p := { intrinsic := .fin v, current := c } }
        [.event { kind := .target tau, value := .fin v, time := T }, .block, .block] = .ok s ∧
      ∃ o, mixToOutput add dflt mn mx s.p.aRate s.p.buffer input old = some o ∧
        o.seen count = [.fin dflt] := by
  have hnan : (overflowing A ex lim).tgt T tau (.fin v) (.fin v) (count * dt) = .nan := by
    have : lim ≤ -((count * dt - T) / tau) := by
      rw [← neg_div, neg_sub]; exact hlim
    simp [overflowing, tgtFl, expFl, mulAddFl, this]
  obtain ⟨t, ht, hf, ha, hcase⟩ := target_first (A := overflowing A ex lim) hdt hcount (v := .fin v)
    (v1 := .fin v) (c := c) (tau := tau) hT
  obtain ⟨h1, h2⟩ : t.p.intrinsic = (overflowing A ex lim).tgt T tau (.fin v) (.fin v) (count * dt) ∧
      t.p.timeline = [{ kind := .target tau, value := .fin v, time := T }] := by
    rcases hcase with h | ⟨h, -⟩
    · exact h
    · rw [hnan] at h; cases h
  have hrun : run (overflowing A ex lim) dt count { p := { intrinsic := .fin v, current := c } }
      [.event { kind := .target tau, value := .fin v, time := T }, .block, .block] =
      step (overflowing A ex lim) dt count t .block := by
    rw [show [Op.event { kind := .target tau, value := Fl.fin v, time := T }, .block, .block] =
      [Op.event { kind := .target tau, value := Fl.fin v, time := T }, .block] ++ [.block] from rfl,
      run_append, ht]
    simp only [Res.bind, run]
    cases step (overflowing A ex lim) dt count t .block <;> rfl
  have hcon : isConstant t.p ⟨t.frame * dt, dt, count⟩ = true := by
    unfold isConstant
    have hnx : (⟨t.frame * dt, dt, count⟩ : Block K).next = ((2 * count : Nat) : K) * dt := by
      rw [hf]; simp only [Block.next]; push_cast; ring
    rw [h2, hnx]
    simpa [Ev.isRamp] using hT
  rw [hrun]
  simp only [step]
  rw [computeBuffer_const hcon]
  simp only [Res.bind]
  refine ⟨_, rfl, ?_⟩
  obtain ⟨i, is, hi⟩ : ∃ i is, input.data = i :: is := by
    cases hd : input.data with
    | nil => rw [hd] at hin; simp at hin; omega
    | cons i is => exact ⟨i, is, rfl⟩
  obtain ⟨x, xs, hx⟩ : ∃ x xs, old = x :: xs := by
    cases hd : old with
    | nil => rw [hd] at hold; simp at hold; omega
    | cons i is => exact ⟨i, is, rfl⟩
  simp only [mixToOutput, List.length_singleton, true_or, if_true, hs, List.getElem?_cons_zero, hi]
  refine ⟨_, rfl, ?_⟩
  rw [h1, hnan, hadd, hx]
  simp [Output.seen, fix]

end

/-- An arithmetic in which the target is passed by, as the exponential function does before the start. -/
abbrev awayArith : Arith ℚ ℚ := exact (fun _ => 2) (fun _ _ => 0) (-1000) 1000

/-- The buffer, if there was no panic. -/
def Res.buffer? (r : Res (Proc ℚ ℚ)) : Option (List ℚ) :=
  match r with
  | .ok p => some p.buffer
  | _ => none

/-- The state after an event that starts at frame 20, a quantum of 4 frames and a ramp that is added then. -/
def awayState : Option (Sys ℚ ℚ) :=
  match run awayArith 1 4 { p := { intrinsic := 0, current := 0 } }
    [.event { kind := .target 1, value := 1, time := 20 }, .block,
     .event { kind := .linear, value := 30, time := 30 }] with
  | .ok s => some s
  | _ => none

/-- C24 is false for a target that has not started and is followed by a ramp: the a-rate buffer collapses to a
single value, but the computation for all the frames yields different values. -/
theorem C24_negated_ramp :
    awayState.map (fun s => (s.p.aRate, s.p.buffer.length, isConstant s.p ⟨(s.frame : ℚ) * 1, 1, 4⟩)) =
      some (true, 4, true) ∧
    (awayState.bind fun s => (computeBuffer awayArith s.p ⟨s.frame * 1, 1, 4⟩).buffer?) = some [-1] ∧
    (awayState.bind fun s => (loop awayArith ⟨s.frame * 1, 1, 4⟩ 9 { s.p with buffer := [] }).buffer?) =
      some [-1, 5 / 26, 18 / 13, 67 / 26] := by
  decide +kernel

/-- Hypotheses of `C29_negated_nan` met, with the limit of `f32`: quanta of 128 frames at 1000 Hz, a value of
1/2, and a target of 1/2 in one second with a time constant of 1/200 seconds. -/
example : ((2 * 128 : Nat) : ℚ) * (1/1000) ≤ 1 ∧ (89 : ℚ) ≤ (1 - (128 : Nat) * (1/1000)) / (1/200) := by
  norm_num

end Verif.Param
