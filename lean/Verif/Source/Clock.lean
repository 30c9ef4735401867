import Verif.Source.ConstProps
import Verif.Source.BufferModel
import Verif.Float.Error
import Verif.Float.Mono
import Mathlib.Algebra.Order.Ring.Pow

/-!
# Scheduled sources with rounded times

The constant source (`/repo/src/node/constant_source.rs` l.190-266) and the gate of the oscillator
(`/repo/src/node/oscillator.rs` l.365-473, l.513-525: at which frames it is silent because of start and stop time) with the arithmetic of
times as in the code: the time of a quantum is `frame / sample_rate` (`/repo/src/render/thread.rs` l.360, l.401, l.492), that of a frame is accumulated. All operations take a
rounding `rd`, for `f64`: to 53 bits.
-/

namespace Verif.Source

open Float

section
variable {K V : Type} [Field K] [LinearOrder K] [Zero V]

/-! ## The model -/

/-- `current_time` of the scope, thread.rs l.360 -/
def beginOf (rd : K → K) (sr : K) (n : Nat) : K := rd (n / sr)

/-- `next_block_time`, constant_source.rs l.200-201, oscillator.rs l.377-380 -/
def endOf (rd : K → K) (sr : K) (count n : Nat) : K := rd (beginOf rd sr n + rd (rd (1 / sr) * count))

/-- `current_time` in the loop over the frames, constant_source.rs l.232-250, oscillator.rs l.412, l.441-459 -/
def timeOf (rd : K → K) (sr : K) (n : Nat) : Nat → K
  | 0 => beginOf rd sr n
  | j + 1 => rd (timeOf rd sr n j + rd (1 / sr))

/-- `process` of the constant source, l.190-266, as `Const.process` -/
def Const.processR (rd : K → K) (sr : K) (s : Const K) (count : Nat) (offset : List V) : List V × Const K × Bool :=
  let now : WithTop K := (beginOf rd sr s.frame : K)
  let next : WithTop K := (endOf rd sr count s.frame : K)
  if next ≤ s.start then
    if s.stop ≤ next then ([], s.sendEnded, false)
    else ([], s, decide (s.start ≠ ⊤))
  else
    let out :=
      if offset.length = 1 ∧ s.start ≤ now ∧ next ≤ s.stop then
        List.replicate count (offset.headD 0)
      else
        (List.range count).map fun (i : Nat) =>
          let t : WithTop K := (timeOf rd sr s.frame i : K)
          if t < s.start ∨ s.stop ≤ t then 0 else (offset[i % offset.length]?).getD 0
    if next < s.stop then (out, s, true) else (out, s.sendEnded, false)

/-- One call or one quantum; calls as in `Const.step`. The drop of the renderer is left to the exact model. -/
def Const.stepR (rd : K → K) (sr : K) (count : Nat) (s : Const K) : ConstOp K V → Option (List V × Const K)
  | .block offset =>
    if s.alive then
      let r := s.processR rd sr count offset
      some (r.1, { r.2.1 with frame := s.frame + count })
    else some ([], { s with frame := s.frame + count })
  | op => Const.step (1 / sr) count s op

def Const.runR (rd : K → K) (sr : K) (count : Nat) : Const K → List (ConstOp K V) → Option (Const K)
  | s, [] => some s
  | s, op :: ops => (Const.stepR rd sr count s op).bind fun r => Const.runR rd sr count r.2 ops

/-- The frames of a quantum at which an oscillator is not silenced by its start and stop times, and the start time afterwards. `scalar`: the
fast path is possible (constant frequency below Nyquist), l.423-440. `started` is set at the first such frame. -/
def oscGate (rd : K → K) (sr : K) (count n : Nat) (scalar started : Bool) (start stop : WithTop K) : List Bool × WithTop K :=
  let now : WithTop K := (beginOf rd sr n : K)
  let next : WithTop K := (endOf rd sr count n : K)
  if stop ≤ now then (List.replicate count false, start)
  else if next ≤ start then (List.replicate count false, start)
  else
    let start := if started = false ∧ start < now then now else start
    if scalar = true ∧ started = true ∧ start ≤ now ∧ next ≤ stop then (List.replicate count true, start)
    else
      ((List.range count).map fun i =>
        let t : WithTop K := (timeOf rd sr n i : K)
        !decide (t < start ∨ stop ≤ t), start)

/-- with exact arithmetic this is the model of `ConstModel` -/
theorem processR_id [CharZero K] (sr : K) (s : Const K) (count : Nat) (offset : List V) :
    s.processR id sr count offset = s.process (1 / sr) count offset := by
  have ht : ∀ i, timeOf id sr s.frame i = s.frame * (1 / sr) + i * (1 / sr) := by
    intro i
    induction i with
    | zero => simp [timeOf, beginOf, div_eq_mul_inv]
    | succ i ih => rw [timeOf, ih]; push_cast; simp only [id]; ring
  have hb : beginOf id sr s.frame = s.frame * (1 / sr) := by simp [beginOf, div_eq_mul_inv]
  have he : endOf id sr count s.frame = s.frame * (1 / sr) + 1 / sr * count := by rw [endOf, hb]; rfl
  unfold Const.processR Const.process
  simp only [ht, hb, he]

/-! ## The clock -/

variable [IsStrictOrderedRing K]

/-- Specification: rounding to nearest of relative error `u` -/
structure Rounds (rd : K → K) (u : K) : Prop where
  near : Near rd u
  mono : Monotone rd
  idem : ∀ x, rd (rd x) = rd x
  nonneg : 0 ≤ u
  le : u ≤ 1 / 8

/-- Specification: at the quantum that begins with frame `n` a frame is longer than the errors of rounding -/
def Calm (u : K) (count n : Nat) : Prop := (1 + u) ^ count * (n + count - 1) < (1 - u) ^ 3 * (n + count)

theorem _root_.Verif.Float.Near.ge' {rd : K → K} {u : K} (h : Near rd u) {x : K} (hx : 0 ≤ x) : (1 - u) * x ≤ rd x := by
  have := (abs_le.1 (h x)).1
  rw [abs_of_nonneg hx] at this
  linarith

section
variable {rd : K → K} {u : K} (hr : Rounds rd u) {sr : K} (hsr : 0 < sr)
include hr hsr

theorem timeOf_nonneg (n j : Nat) : 0 ≤ timeOf rd sr n j := by
  have h0 : 0 ≤ rd (1 / sr) := hr.near.nonneg (by linarith [hr.le]) (by positivity)
  induction j with
  | zero => exact hr.near.nonneg (by linarith [hr.le]) (by positivity)
  | succ j ih => exact hr.near.nonneg (by linarith [hr.le]) (by positivity)

theorem timeOf_le (n j : Nat) : timeOf rd sr n j ≤ (1 + u) ^ (j + 1) * ((n + j : Nat) / sr) := by
  have hu := hr.nonneg
  have h1 : rd (1 / sr) ≤ (1 + u) * (1 / sr) := hr.near.le (by positivity)
  have h0 : 0 ≤ rd (1 / sr) := hr.near.nonneg (by linarith [hr.le]) (by positivity)
  induction j with
  | zero => simpa [timeOf, beginOf] using hr.near.le (x := (n : K) / sr) (by positivity)
  | succ j ih =>
    rw [timeOf]
    refine (hr.near.le (add_nonneg (timeOf_nonneg hr hsr n j) h0)).trans ?_
    have h2 : (1 + u) * (1 / sr) ≤ (1 + u) ^ (j + 1) * (1 / sr) := by
      gcongr
      exact le_self_pow₀ (by linarith) (by omega)
    rw [show ((n + (j + 1) : Nat) : K) / sr = (n + j : Nat) / sr + 1 / sr by push_cast; ring, pow_succ' _ (j + 1), mul_assoc]
    refine mul_le_mul_of_nonneg_left ?_ (by linarith)
    rw [mul_add]
    linarith

theorem timeOf_ge (n j : Nat) : (1 - u) ^ (j + 1) * ((n + j : Nat) / sr) ≤ timeOf rd sr n j := by
  have hu := hr.nonneg
  have hu1 : 0 ≤ 1 - u := by linarith [hr.le]
  have h1 : (1 - u) * (1 / sr) ≤ rd (1 / sr) := hr.near.ge' (by positivity)
  have h0 : 0 ≤ rd (1 / sr) := hr.near.nonneg (by linarith [hr.le]) (by positivity)
  induction j with
  | zero => simpa [timeOf, beginOf] using hr.near.ge' (x := (n : K) / sr) (by positivity)
  | succ j ih =>
    rw [timeOf]
    refine le_trans ?_ (hr.near.ge' (add_nonneg (timeOf_nonneg hr hsr n j) h0))
    have h2 : (1 - u) ^ (j + 1) * (1 / sr) ≤ (1 - u) * (1 / sr) := by
      gcongr
      exact pow_le_of_le_one hu1 (by linarith) (by omega)
    rw [show ((n + (j + 1) : Nat) : K) / sr = (n + j : Nat) / sr + 1 / sr by push_cast; ring, pow_succ' _ (j + 1), mul_assoc]
    refine mul_le_mul_of_nonneg_left ?_ hu1
    rw [mul_add]
    linarith

theorem begin_le (n j : Nat) : beginOf rd sr n ≤ timeOf rd sr n j := by
  have h0 : 0 ≤ rd (1 / sr) := hr.near.nonneg (by linarith [hr.le]) (by positivity)
  induction j with
  | zero => exact le_rfl
  | succ j ih =>
    rw [timeOf]
    have := hr.mono (show beginOf rd sr n ≤ timeOf rd sr n j + rd (1 / sr) by linarith)
    rwa [show rd (beginOf rd sr n) = beginOf rd sr n from hr.idem _] at this

theorem lt_end {count n j : Nat} (hc : Calm u count n) (hj : j < count) : timeOf rd sr n j < endOf rd sr count n := by
  have hu := hr.nonneg
  have hu1 : 0 ≤ 1 - u := by linarith [hr.le]
  have hu2 : 1 - u ≤ 1 := by linarith
  have h1 := timeOf_le hr hsr n j
  have h2 : (1 + u) ^ (j + 1) * ((n + j : Nat) / sr) ≤ (1 + u) ^ count * ((n + count - 1) / sr) := by
    have : ((n + j : Nat) : K) ≤ n + count - 1 := by
      have : (n + j + 1 : Nat) ≤ n + count := by omega
      have : ((n + j + 1 : Nat) : K) ≤ ((n + count : Nat) : K) := by exact_mod_cast this
      push_cast at this ⊢
      linarith
    gcongr
    · linarith
    · exact hj
  have h3 : (1 - u) ^ 3 * ((n + count) / sr) ≤ endOf rd sr count n := by
    have e1 : (1 - u) * ((n : K) / sr) ≤ beginOf rd sr n := hr.near.ge' (by positivity)
    have e2 : (1 - u) * (1 / sr) ≤ rd (1 / sr) := hr.near.ge' (by positivity)
    have p1 : 0 ≤ beginOf rd sr n := le_trans (by positivity) e1
    have p2 : 0 ≤ rd (1 / sr) := le_trans (by positivity) e2
    have e3 : (1 - u) * (rd (1 / sr) * count) ≤ rd (rd (1 / sr) * count) := hr.near.ge' (by positivity)
    have p3 : 0 ≤ rd (rd (1 / sr) * count) := le_trans (by positivity) e3
    have e4 : (1 - u) * (beginOf rd sr n + rd (rd (1 / sr) * count)) ≤ endOf rd sr count n := hr.near.ge' (by positivity)
    have e5 : (1 - u) * ((1 - u) * (1 / sr) * count) ≤ (1 - u) * (rd (1 / sr) * count) := by gcongr
    have e6 : (1 - u) * ((1 - u) * (n / sr)) ≤ (1 - u) * ((n : K) / sr) := by
      rw [← mul_assoc]
      gcongr
      nlinarith
    have e7 : (1 - u) * ((1 - u) * ((1 - u) * (n / sr)) + (1 - u) * ((1 - u) * (1 / sr) * count)) ≤ endOf rd sr count n := by
      refine le_trans ?_ e4
      gcongr
      · exact e6.trans e1
      · exact e5.trans e3
    refine le_trans (le_of_eq ?_) e7
    ring
  refine lt_of_le_of_lt (h1.trans h2) (lt_of_lt_of_le ?_ h3)
  rw [← mul_div_assoc, ← mul_div_assoc]
  exact (div_lt_div_iff_of_pos_right hsr).2 hc

/-- the time of a frame is off by less than a frame -/
theorem time_close {count n j : Nat} (hc : Calm u count n) (hj : j < count) : |timeOf rd sr n j * sr - (n + j : Nat)| < 1 := by
  have hu := hr.nonneg
  have hu1 : 0 ≤ 1 - u := by linarith [hr.le]
  have hu2 : 1 - u ≤ 1 := by linarith
  have h1 := mul_le_mul_of_nonneg_right (timeOf_le hr hsr n j) hsr.le
  have h2 := mul_le_mul_of_nonneg_right (timeOf_ge hr hsr n j) hsr.le
  rw [mul_assoc, div_mul_cancel₀ _ hsr.ne'] at h1 h2
  set i : K := ((n + j : Nat) : K) with hi
  have hi0 : 0 ≤ i := Nat.cast_nonneg _
  have hin : i ≤ n + count - 1 := by
    have : (n + j + 1 : Nat) ≤ n + count := by omega
    have : ((n + j + 1 : Nat) : K) ≤ ((n + count : Nat) : K) := by exact_mod_cast this
    rw [hi]
    push_cast at this ⊢
    linarith
  have hP : (1 + u) ^ (j + 1) ≤ (1 + u) ^ count := pow_le_pow_right₀ (by linarith) hj
  have hP1 : 1 ≤ (1 + u) ^ (j + 1) := one_le_pow₀ (by linarith)
  have b1 := one_add_mul_le_pow (by linarith : -2 ≤ u) (j + 1)
  have b2 := one_add_mul_le_pow (by linarith : -2 ≤ -u) (j + 1)
  rw [← sub_eq_add_neg] at b2
  have hb : 1 - (1 - u) ^ (j + 1) ≤ (1 + u) ^ (j + 1) - 1 := by linarith
  -- the error in frames
  have hlt : ((1 + u) ^ (j + 1) - 1) * i < 1 := by
    have c1 : (1 + u) ^ count * (n + count - 1) < n + count := by
      refine lt_of_lt_of_le hc ?_
      have : (1 - u) ^ 3 ≤ 1 := pow_le_one₀ hu1 hu2
      have hp : (0 : K) ≤ n + count := by positivity
      nlinarith
    have c2 : ((1 + u) ^ (j + 1) - 1) * i ≤ ((1 + u) ^ count - 1) * (n + count - 1) := by
      apply mul_le_mul _ hin hi0
      · linarith
      · linarith
    linarith
  rw [abs_lt]
  constructor
  · have := mul_le_mul_of_nonneg_right hb hi0
    linarith
  · linarith

end

/-! ## Start and stop -/

theorem stepR_state {rd : K → K} {sr : K} {count : Nat} {s s' : Const K} {op : ConstOp K V} {out : List V}
    (h : Const.stepR rd sr count s op = some (out, s')) :
    (match op with
      | .start t => s.hasStart = false ∧ 0 ≤ t ∧ s' = { s with hasStart := true, start := t }
      | .stop t => s.hasStart = true ∧ 0 ≤ t ∧ s' = { s with stop := t }
      | .block _ => s'.start = s.start ∧ s'.stop = s.stop ∧ s'.hasStart = s.hasStart ∧
          s'.frame = s.frame + count ∧ s'.alive = s.alive
      | .drop => s'.start = s.start ∧ s'.stop = s.stop ∧ s'.hasStart = s.hasStart ∧ s'.frame = s.frame ∧
          s'.alive = false) := by
  have he : ∀ q : Const K, q.sendEnded.start = q.start ∧ q.sendEnded.stop = q.stop ∧
      q.sendEnded.hasStart = q.hasStart ∧ q.sendEnded.frame = q.frame ∧ q.sendEnded.alive = q.alive := by
    intro q; unfold Const.sendEnded; split <;> simp
  cases op with
  | start t => exact step_state (V := V) (op := .start t) (dt := 1 / sr) (count := count) h
  | stop t => exact step_state (V := V) (op := .stop t) (dt := 1 / sr) (count := count) h
  | drop => exact step_state (V := V) (op := .drop) (dt := 1 / sr) (count := count) h
  | block offset =>
    simp only [Const.stepR] at h
    split at h
    · cases h
      simp only [Const.processR]
      split
      · split <;> simp [he]
      · split <;> simp [he]
    · cases h; simp

theorem runR_state {rd : K → K} {sr : K} {count : Nat} {s s' : Const K} {ops : List (ConstOp K V)}
    (h : Const.runR rd sr count s ops = some s') :
    s'.start = (if s.hasStart then s.start else orTime s.start (startOf ops)) ∧
    s'.stop = orTime s.stop (stopOf ops) ∧
    s'.frame = s.frame + framesOf count ops ∧ (noDrop ops → s'.alive = s.alive) := by
  induction ops generalizing s with
  | nil => cases h; simp [startOf, stopOf, framesOf]
  | cons op ops ih =>
    rw [Const.runR] at h
    cases hs : Const.stepR rd sr count s op with
    | none => rw [hs] at h; cases h
    | some r =>
      obtain ⟨out, t⟩ := r
      rw [hs] at h
      obtain ⟨i1, i2, i3, i4⟩ := ih h
      have := stepR_state hs
      cases op with
      | start a =>
        obtain ⟨h1, h2, rfl⟩ := this
        simp only [if_true] at i1 i2 i3 i4
        simp [startOf, stopOf, framesOf, noDrop, h1, i1, i2, i3]
        exact i4
      | stop b =>
        obtain ⟨h1, h2, rfl⟩ := this
        simp only [h1] at i1 i2 i3 i4 ⊢
        simp only [startOf, stopOf, framesOf, noDrop]
        refine ⟨i1, ?_, i3, i4⟩
        rw [i2]
        cases stopOf ops <;> rfl
      | block o =>
        obtain ⟨h1, h2, h3, h4, h5⟩ := this
        rw [h1, h3] at i1
        rw [h2] at i2
        rw [h4] at i3
        rw [h5] at i4
        simp only [startOf, stopOf, framesOf, noDrop]
        exact ⟨i1, i2, by omega, i4⟩
      | drop =>
        obtain ⟨h1, h2, h3, h4, h5⟩ := this
        rw [h1, h3] at i1
        rw [h2] at i2
        rw [h4] at i3
        simp only [startOf, stopOf, framesOf, noDrop]
        exact ⟨i1, i2, i3, False.elim⟩

theorem plays_iff {start stop : Option K} {t : K} :
    Plays start stop t ↔ orTime ⊤ start ≤ (t : WithTop K) ∧ (t : WithTop K) < orTime ⊤ stop := by
  unfold Plays
  cases start <;> cases stop <;> simp

open Classical in
/-- the samples of a quantum of a constant source -/
theorem processR_spec {rd : K → K} {u : K} (hr : Rounds rd u) {sr : K} (hsr : 0 < sr) {count : Nat} {s : Const K} {offset : List V}
    (hc : Calm u count s.frame) (hlen : offset.length = 1 ∨ offset.length = count) {i : Nat} (hi : i < count) :
    ((s.processR rd sr count offset).1[i]?).getD 0 =
      if s.start ≤ (timeOf rd sr s.frame i : K) ∧ ((timeOf rd sr s.frame i : K) : WithTop K) < s.stop then
        (if offset.length = 1 then offset.headD 0 else (offset[i]?).getD 0) else 0 := by
  have hb : ((beginOf rd sr s.frame : K) : WithTop K) ≤ (timeOf rd sr s.frame i : K) := by exact_mod_cast begin_le hr hsr s.frame i
  have he : ((timeOf rd sr s.frame i : K) : WithTop K) < (endOf rd sr count s.frame : K) := by exact_mod_cast lt_end hr hsr hc hi
  have hv : (offset[i % offset.length]?).getD 0 = (if offset.length = 1 then offset.headD 0 else (offset[i]?).getD 0) := by
    split
    · rename_i h1
      rw [h1, Nat.mod_one]
      cases offset <;> simp
    · rename_i h1
      rw [hlen.resolve_left h1, Nat.mod_eq_of_lt hi]
  unfold Const.processR
  dsimp only
  by_cases h1 : ((endOf rd sr count s.frame : K) : WithTop K) ≤ s.start
  · rw [if_pos h1]
    have : ¬ s.start ≤ (timeOf rd sr s.frame i : K) := not_le.2 (he.trans_le h1)
    rw [if_neg (c := s.start ≤ (timeOf rd sr s.frame i : K) ∧ _) (fun h => this h.1)]
    split <;> simp
  · rw [if_neg h1]
    have key : ((if offset.length = 1 ∧ s.start ≤ ((beginOf rd sr s.frame : K) : WithTop K) ∧ ((endOf rd sr count s.frame : K) : WithTop K) ≤ s.stop then
        List.replicate count (offset.headD 0)
      else (List.range count).map fun (i : Nat) =>
        if ((timeOf rd sr s.frame i : K) : WithTop K) < s.start ∨ s.stop ≤ ((timeOf rd sr s.frame i : K) : WithTop K) then 0
        else (offset[i % offset.length]?).getD 0)[i]?).getD 0 =
      if s.start ≤ (timeOf rd sr s.frame i : K) ∧ ((timeOf rd sr s.frame i : K) : WithTop K) < s.stop then
        (if offset.length = 1 then offset.headD 0 else (offset[i]?).getD 0) else 0 := by
      by_cases h2 : offset.length = 1 ∧ s.start ≤ ((beginOf rd sr s.frame : K) : WithTop K) ∧ ((endOf rd sr count s.frame : K) : WithTop K) ≤ s.stop
      · rw [if_pos h2, if_pos ⟨h2.2.1.trans hb, he.trans_le h2.2.2⟩, if_pos h2.1]
        simp [List.getElem?_replicate, hi]
      · rw [if_neg h2]
        rw [List.getElem?_map, List.getElem?_range hi, Option.map_some, Option.getD_some, hv]
        by_cases h3 : s.start ≤ (timeOf rd sr s.frame i : K) ∧ ((timeOf rd sr s.frame i : K) : WithTop K) < s.stop
        · rw [if_pos h3, if_neg (by rw [not_or, not_lt, not_le]; exact h3)]
        · rw [if_neg h3, if_pos (by rw [not_and_or, not_le, not_lt] at h3; exact h3)]
    split <;> exact key

/-- the gate of an oscillator -/
theorem oscGate_spec {rd : K → K} {u : K} (hr : Rounds rd u) {sr : K} (hsr : 0 < sr) {count n : Nat} (hc : Calm u count n) (scalar started : Bool)
    (start stop : WithTop K) {i : Nat} (hi : i < count) :
    (oscGate rd sr count n scalar started start stop).1[i]? =
      some (decide (start ≤ (timeOf rd sr n i : K) ∧ ((timeOf rd sr n i : K) : WithTop K) < stop)) := by
  have hb : ((beginOf rd sr n : K) : WithTop K) ≤ (timeOf rd sr n i : K) := by exact_mod_cast begin_le hr hsr n i
  have he : ((timeOf rd sr n i : K) : WithTop K) < (endOf rd sr count n : K) := by exact_mod_cast lt_end hr hsr hc hi
  unfold oscGate
  dsimp only
  by_cases h1 : stop ≤ ((beginOf rd sr n : K) : WithTop K)
  · rw [if_pos h1, decide_eq_false (fun h => absurd h.2 (not_lt.2 (h1.trans hb)))]
    simp [List.getElem?_replicate, hi]
  · rw [if_neg h1]
    by_cases h2 : ((endOf rd sr count n : K) : WithTop K) ≤ start
    · rw [if_pos h2, decide_eq_false (fun h => absurd h.1 (not_le.2 (he.trans_le h2)))]
      simp [List.getElem?_replicate, hi]
    · rw [if_neg h2]
      have hs : ∀ x : WithTop K, x = (if started = false ∧ start < ((beginOf rd sr n : K) : WithTop K) then ((beginOf rd sr n : K) : WithTop K) else start) →
          (x ≤ (timeOf rd sr n i : K) ↔ start ≤ (timeOf rd sr n i : K)) := by
        intro x hx
        split at hx
        · rename_i h3
          subst hx
          exact ⟨fun _ => h3.2.le.trans hb, fun _ => hb⟩
        · rw [hx]
      generalize hx : (if started = false ∧ start < ((beginOf rd sr n : K) : WithTop K) then ((beginOf rd sr n : K) : WithTop K) else start) = x at *
      have hs := hs x rfl
      by_cases h4 : scalar = true ∧ started = true ∧ x ≤ ((beginOf rd sr n : K) : WithTop K) ∧ ((endOf rd sr count n : K) : WithTop K) ≤ stop
      · rw [if_pos h4, decide_eq_true ⟨hs.1 (h4.2.2.1.trans hb), he.trans_le h4.2.2.2⟩]
        simp [List.getElem?_replicate, hi]
      · rw [if_neg h4]
        dsimp only
        rw [List.getElem?_map, List.getElem?_range hi, Option.map_some]
        congr 1
        rw [← decide_not]
        refine decide_eq_decide.2 ?_
        rw [not_or, not_lt, not_le, hs]

/-! ## The claims -/

open Classical in
/-- C118, samples with rounded times: after any calls of start and stop and any number of quanta, frame `i` of the next quantum has the value
of the offset parameter if its accumulated time is in `[start, stop)`, and is zero otherwise. That time is off by less than a frame. -/
theorem C118_samples {rd : K → K} {u : K} (hr : Rounds rd u) {sr : K} (hsr : 0 < sr) {count : Nat} {ops : List (ConstOp K V)} {s s' : Const K}
    {offset out : List V} (hnd : noDrop ops) (h : Const.runR rd sr count {} ops = some s) (hc : Calm u count (framesOf count ops))
    (hlen : offset.length = 1 ∨ offset.length = count)
    (h' : Const.stepR rd sr count s (.block offset) = some (out, s')) {i : Nat} (hi : i < count) :
    (out[i]?).getD 0 =
      (if Plays (startOf ops) (stopOf ops) (timeOf rd sr (framesOf count ops) i) then
        (if offset.length = 1 then offset.headD 0 else (offset[i]?).getD 0)
      else 0) ∧
    |timeOf rd sr (framesOf count ops) i * sr - (framesOf count ops + i : Nat)| < 1 := by
  obtain ⟨r1, r2, r3, r4⟩ := runR_state h
  simp only [Bool.false_eq_true, if_false, Nat.zero_add] at r1 r2 r3
  have hal : s.alive = true := r4 hnd
  simp only [Const.stepR, hal, if_true] at h'
  cases h'
  refine ⟨?_, time_close hr hsr hc hi⟩
  rw [← r3] at hc ⊢
  rw [processR_spec hr hsr hc hlen hi, r1, r2]
  exact if_congr plays_iff.symm rfl rfl

/-- C118, start and stop are off by at most one frame: a frame plays if the start time is at least a frame earlier and the stop time at
least a frame later; it is silent if the start time is at least a frame later, or the stop time at least a frame earlier. -/
theorem C118_frame {rd : K → K} {u : K} (hr : Rounds rd u) {sr : K} (hsr : 0 < sr) {count : Nat} {ops : List (ConstOp K V)} {s s' : Const K}
    {offset out : List V} (hnd : noDrop ops) (h : Const.runR rd sr count {} ops = some s) (hc : Calm u count (framesOf count ops))
    (hlen : offset.length = 1 ∨ offset.length = count)
    (h' : Const.stepR rd sr count s (.block offset) = some (out, s')) {i : Nat} (hi : i < count) {a : K} (ha : startOf ops = some a) :
    ((a * sr + 1 ≤ (framesOf count ops + i : Nat) ∧ ∀ b, stopOf ops = some b → ((framesOf count ops + i : Nat) : K) + 1 ≤ b * sr) →
      (out[i]?).getD 0 = if offset.length = 1 then offset.headD 0 else (offset[i]?).getD 0) ∧
    ((((framesOf count ops + i : Nat) : K) + 1 ≤ a * sr ∨ ∃ b, stopOf ops = some b ∧ b * sr + 1 ≤ (framesOf count ops + i : Nat)) →
      (out[i]?).getD 0 = 0) := by
  obtain ⟨h1, h2⟩ := C118_samples hr hsr hnd h hc hlen h' hi
  obtain ⟨h3, h4⟩ := abs_lt.1 h2
  constructor
  · rintro ⟨c1, c2⟩
    rw [h1, if_pos]
    refine ⟨⟨a, ha, ?_⟩, fun b hb => ?_⟩
    · exact le_of_mul_le_mul_right (by linarith) hsr
    · have := c2 b hb
      exact lt_of_mul_lt_mul_right (by linarith) hsr.le
  · intro hor
    rw [h1, if_neg]
    rintro ⟨⟨a', ha', p1⟩, p2⟩
    rw [ha] at ha'
    cases ha'
    rcases hor with c | ⟨b, hb, c⟩
    · have := mul_le_mul_of_nonneg_right p1 hsr.le
      linarith
    · have := mul_lt_mul_of_pos_right (p2 b hb) hsr
      linarith

end

section
variable {K V : Type} [Field K] [LinearOrder K] [IsStrictOrderedRing K] [AddMonoid V]

/-- C118, handover: one constant source stops at a time `t`, another one starts at `t`. Together they play in every quantum what a single
source plays: no frame is lost and none is played twice, for every `t` between start and stop, and every rounding of times. -/
theorem C118_handover {rd : K → K} {u : K} (hr : Rounds rd u) {sr : K} (hsr : 0 < sr) {count : Nat} {opsA opsB opsC : List (ConstOp K V)}
    {a b c a' b' c' : Const K} {offset outA outB outC : List V} (hndA : noDrop opsA) (hndB : noDrop opsB) (hndC : noDrop opsC)
    (hA : Const.runR rd sr count {} opsA = some a) (hB : Const.runR rd sr count {} opsB = some b) (hC : Const.runR rd sr count {} opsC = some c)
    (hfA : framesOf count opsA = framesOf count opsC) (hfB : framesOf count opsB = framesOf count opsC) (hc : Calm u count (framesOf count opsC))
    (hlen : offset.length = 1 ∨ offset.length = count) {t t0 : K} (hstart : startOf opsC = some t0) (hstartA : startOf opsA = some t0)
    (hstopA : stopOf opsA = some t) (hstartB : startOf opsB = some t) (hstopB : stopOf opsB = stopOf opsC) (h0 : t0 ≤ t)
    (h1 : ∀ z, stopOf opsC = some z → t ≤ z)
    (hA' : Const.stepR rd sr count a (.block offset) = some (outA, a')) (hB' : Const.stepR rd sr count b (.block offset) = some (outB, b'))
    (hC' : Const.stepR rd sr count c (.block offset) = some (outC, c')) {i : Nat} (hi : i < count) :
    (outA[i]?).getD 0 + (outB[i]?).getD 0 = (outC[i]?).getD 0 := by
  classical
  have eA := (C118_samples hr hsr hndA hA (by rw [hfA]; exact hc) hlen hA' hi).1
  have eB := (C118_samples hr hsr hndB hB (by rw [hfB]; exact hc) hlen hB' hi).1
  have eC := (C118_samples hr hsr hndC hC hc hlen hC' hi).1
  rw [eA, eB, eC, hfA, hfB, hstart, hstartA, hstopA, hstartB, hstopB]
  generalize timeOf rd sr (framesOf count opsC) i = x
  generalize (if offset.length = 1 then offset.headD 0 else (offset[i]?).getD 0) = v
  by_cases hx : x < t
  · have e1 : ¬ Plays (some t) (stopOf opsC) x := by
      rintro ⟨⟨y, hy, hyx⟩, -⟩
      cases hy
      exact absurd hx (not_lt.2 hyx)
    rw [if_neg e1, add_zero]
    refine if_congr ?_ rfl rfl
    exact ⟨fun h => ⟨h.1, fun z hz => hx.trans_le (h1 z hz)⟩, fun h => ⟨h.1, fun z hz => by cases hz; exact hx⟩⟩
  · have e1 : ¬ Plays (some t0) (some t) x := fun h => hx (h.2 t rfl)
    rw [if_neg e1, zero_add]
    refine if_congr ?_ rfl rfl
    exact ⟨fun h => ⟨⟨t0, rfl, h0.trans (not_lt.1 hx)⟩, h.2⟩, fun h => ⟨⟨t, rfl, not_lt.1 hx⟩, h.2⟩⟩

/-- C118, handover between an oscillator and a constant source: the oscillator stops at `t` and the constant source starts at `t`, or the other
way round. In every frame of the time in between the other end points, exactly one of them plays. (`gate` of the oscillator; the constant source
plays when its output is the offset, here 1.) -/
theorem C118_kinds {rd : K → K} {u : K} (hr : Rounds rd u) {sr : K} (hsr : 0 < sr) {count n : Nat} (hc : Calm u count n) (scalar started : Bool)
    {s : Const K} (hs : s.frame = n) {start stop : WithTop K} {i : Nat} (hi : i < count) :
    (s.start = stop → start ≤ (timeOf rd sr n i : K) → ((timeOf rd sr n i : K) : WithTop K) < s.stop →
      (((oscGate rd sr count n scalar started start stop).1[i]? = some true) ↔ ((s.processR rd sr count [(1 : K)]).1[i]?).getD 0 = 0)) ∧
    (s.stop = start → s.start ≤ (timeOf rd sr n i : K) → ((timeOf rd sr n i : K) : WithTop K) < stop →
      (((oscGate rd sr count n scalar started start stop).1[i]? = some true) ↔ ((s.processR rd sr count [(1 : K)]).1[i]?).getD 0 = 0)) := by
  subst hs
  rw [oscGate_spec hr hsr hc scalar started start stop hi, processR_spec hr hsr hc (Or.inl rfl) hi]
  constructor
  · intro h1 h2 h3
    rw [h1]
    by_cases h : ((timeOf rd sr s.frame i : K) : WithTop K) < stop
    · rw [if_neg (by rw [not_and_or]; exact Or.inl (not_le.2 h))]
      simp [h, h2]
    · rw [if_pos ⟨not_lt.1 h, h3⟩]
      simp [h]
  · intro h1 h2 h3
    rw [h1]
    by_cases h : ((timeOf rd sr s.frame i : K) : WithTop K) < start
    · rw [if_pos ⟨h2, h⟩]
      simp [not_le.2 h]
    · rw [if_neg (by rw [not_and_or]; exact Or.inr h)]
      simp [not_lt.1 h, h3]

end

/-! ## Double precision -/

/-- rounding to `p` bits -/
theorem rounds_rnd {p : Nat} (hp : 3 ≤ p) : Rounds (rnd p) ((2 : ℚ) ^ (-(p : ℤ))) := by
  refine ⟨rnd_near p, rnd_mono (by omega), fun x => rnd_of_isFloat (by omega) (rnd_nearest (by omega) x).1, by positivity, ?_⟩
  calc (2 : ℚ) ^ (-(p : ℤ)) ≤ 2 ^ (-(3 : ℤ)) := zpow_le_zpow_right₀ (by norm_num) (by omega)
    _ = 1 / 8 := by norm_num

/-- the clock of `f64` is good for 10^13 frames, six years at 48 kHz -/
theorem calm_f64 {n : Nat} (hn : n ≤ 10 ^ 13) : Calm ((2 : ℚ) ^ (-(53 : ℕ) : ℤ)) 128 n := by
  have hn : (n : ℚ) ≤ 10 ^ 13 := by exact_mod_cast hn
  have h0 : (0 : ℚ) ≤ n := Nat.cast_nonneg n
  have e : ((2 : ℚ) ^ (-(53 : ℕ) : ℤ)) = 1 / 2 ^ 53 := by norm_num
  have h1 : (1 + 1 / 2 ^ 53 : ℚ) ^ 128 ≤ 1 + 2 / 10 ^ 14 := by norm_num
  have h2 : (1 - 1 / 10 ^ 14 : ℚ) ≤ (1 - 1 / 2 ^ 53) ^ 3 := by norm_num
  unfold Calm
  rw [e]
  push_cast
  have p1 : (0 : ℚ) ≤ n + 128 - 1 := by linarith
  have p2 : (0 : ℚ) ≤ n + 128 := by linarith
  calc (1 + 1 / 2 ^ 53 : ℚ) ^ 128 * (n + 128 - 1) ≤ (1 + 2 / 10 ^ 14) * (n + 128 - 1) := mul_le_mul_of_nonneg_right h1 p1
    _ < (1 - 1 / 10 ^ 14) * (n + 128) := by nlinarith
    _ ≤ (1 - 1 / 2 ^ 53) ^ 3 * (n + 128) := mul_le_mul_of_nonneg_right h2 p2

/-- C118 is false between a buffer source and a constant source: the buffer source computes the time of frame `i` as `block_time + i * dt`
(`/repo/src/node/audio_buffer_source.rs` l.647, l.666-671), the constant source accumulates. At 44.1 kHz, the buffer source stops at frame 13
(the time of which is `f64 (13 / 44100)`), and a constant source that starts at this time starts a frame later: frame 13 is lost. -/
theorem C118_negated_kinds :
    f64 (13 / 44100) ≤ f64 (beginOf f64 44100 0 + f64 (13 * f64 (1 / 44100))) ∧
    ((({ start := (f64 (13 / 44100) : ℚ) } : Const ℚ).processR f64 44100 128 [(7 : ℚ)]).1[13]?).getD 0 = 0 ∧
    ((({ start := (f64 (13 / 44100) : ℚ) } : Const ℚ).processR f64 44100 128 [(7 : ℚ)]).1[14]?).getD 0 = 7 := by
  decide +kernel

/-- 48 kHz, and `almost::equal` with a relative tolerance of 2^(-26) -/
def clockEnv : BufEnv ℚ := ⟨48000, 48000, 128, fun a b => decide (|a - b| ≤ max |a| |b| / 2 ^ 26), fun a => decide (|a| ≤ 1 / 2 ^ 26)⟩

/-- C118 is false between two buffer sources, because a start time that is almost reached is taken as reached
(`/repo/src/node/audio_buffer_source.rs` l.649-653), a stop time is not. At 48 kHz the time of frame 5 is just before `f64 (5 / 48000)`: a source that
stops then (`a`) still plays at frame 5, and so does one that starts then (`b`, from its first frame). The frame is played twice. -/
theorem C118_negated_buffers :
    let now := f64 (beginOf f64 48000 0 + f64 (5 * f64 (1 / 48000)))
    let stop : ℚ := f64 (5 / 48000)
    let env (stop : WithTop ℚ) : SlowEnv ℚ := ⟨stop, ⊤, false, 0, 0, 1, 1, 48000⟩
    let a : Slow ℚ := ⟨(0 : ℚ), 0, 5 / 48000, ((5 / 48000 : ℚ) : WithTop ℚ), true, false⟩
    let b : Slow ℚ := ⟨stop, 0, 0, (0 : ℚ), false, false⟩
    now < stop ∧
    (Slow.frame clockEnv (env stop) now a).toOption.map (·.2) = some (some (5, 0)) ∧
    (Slow.frame clockEnv (env ⊤) now b).toOption.map (·.2) = some (some (0, 0)) := by
  decide +kernel

/-- the first frames of the next quantum at 48 kHz -/
def clockDemo (ops : List (ConstOp ℚ ℚ)) : Option (List ℚ) :=
  (Const.runR f64 48000 128 {} ops).bind fun s => (Const.stepR f64 48000 128 s (.block [7])).map fun r => r.1.take 8

/-- Sources with `f64`, at 48 kHz: one stops and another one starts at frame 5, whose accumulated time is before it. In this frame the first one
still plays and the second one does not play yet; so it is with a parameter that changes within the quantum. -/
example : timeOf f64 48000 0 5 < f64 (5 / 48000) ∧ clockDemo [.start 0, .stop (f64 (5 / 48000))] = some [7, 7, 7, 7, 7, 7, 0, 0] ∧
    clockDemo [.start (f64 (5 / 48000))] = some [0, 0, 0, 0, 0, 0, 7, 7] ∧ clockDemo [.start 0] = some [7, 7, 7, 7, 7, 7, 7, 7] := by
  decide +kernel

/-- the hypotheses of C118 hold for them -/
example : Rounds f64 ((2 : ℚ) ^ (-(53 : ℕ) : ℤ)) ∧ Calm ((2 : ℚ) ^ (-(53 : ℕ) : ℤ)) 128 0 ∧
    startOf ([.start 0, .stop (f64 (5 / 48000))] : List (ConstOp ℚ ℚ)) = some 0 := ⟨rounds_rnd (by norm_num), calm_f64 (by norm_num), rfl⟩

end Verif.Source
