import Verif.Source.ConstModel
import Verif.Float.Round
import Mathlib.Algebra.Order.Field.Rat
import Mathlib.Tactic.Linarith
import Mathlib.Tactic.Positivity
import Mathlib.Tactic.Ring
import Mathlib.Tactic.NormNum

/-!
# C32: the constant source is sample accurate and ends once
-/

namespace Verif.Source

section
variable {K V : Type} [Field K] [LinearOrder K] [Zero V]

/-! ## Specification: start and stop time according to the calls -/

/-- The time of the (only) call of `start`. -/
def startOf : List (ConstOp K V) → Option K
  | [] => none
  | .start t :: _ => some t
  | _ :: ops => startOf ops

/-- The time of the last call of `stop`. -/
def stopOf : List (ConstOp K V) → Option K
  | [] => none
  | .stop t :: ops => (stopOf ops).orElse fun _ => some t
  | _ :: ops => stopOf ops

/-- Number of frames rendered. -/
def framesOf (count : Nat) : List (ConstOp K V) → Nat
  | [] => 0
  | .block _ :: ops => count + framesOf count ops
  | _ :: ops => framesOf count ops

/-- no drop of the renderer -/
def noDrop : List (ConstOp K V) → Prop
  | [] => True
  | .drop :: _ => False
  | _ :: ops => noDrop ops

/-- The frame at time `t` is played: not before the start time, before the stop time. -/
def Plays (start stop : Option K) (t : K) : Prop :=
  (∃ a, start = some a ∧ a ≤ t) ∧ (∀ b, stop = some b → t < b)

/-! ## Invariant -/

theorem step_state {dt : K} {count : Nat} {s s' : Const K} {op : ConstOp K V} {out : List V}
    (h : Const.step dt count s op = some (out, s')) :
    (match op with
      | .start t => s.hasStart = false ∧ 0 ≤ t ∧ s' = { s with hasStart := true, start := t }
      | .stop t => s.hasStart = true ∧ 0 ≤ t ∧ s' = { s with stop := t }
      | .block _ => s'.start = s.start ∧ s'.stop = s.stop ∧ s'.hasStart = s.hasStart ∧
          s'.frame = s.frame + count ∧ s'.alive = s.alive
      | .drop => s'.start = s.start ∧ s'.stop = s.stop ∧ s'.hasStart = s.hasStart ∧ s'.frame = s.frame ∧
          s'.alive = false) := by
  have he : ∀ q : Const K, q.sendEnded.start = q.start ∧ q.sendEnded.stop = q.stop ∧
      q.sendEnded.hasStart = q.hasStart ∧ q.sendEnded.frame = q.frame ∧ q.sendEnded.alive = q.alive := by
    intro q; unfold Const.sendEnded; split <;> simp
  cases op with
  | start t =>
    simp only [Const.step] at h
    split at h
    · cases h
    · rename_i hc
      push Not at hc
      cases h
      exact ⟨by simpa using hc.1, hc.2, rfl⟩
  | stop t =>
    simp only [Const.step] at h
    split at h
    · cases h
    · rename_i hc
      push Not at hc
      cases h
      exact ⟨by simpa using hc.1, hc.2, rfl⟩
  | block offset =>
    simp only [Const.step] at h
    split at h
    · cases h
      simp only [Const.process]
      split
      · split <;> simp [he]
      · split <;> simp [he]
    · cases h; simp
  | drop =>
    simp only [Const.step] at h
    split at h
    · cases h
      dsimp only
      split <;> simp [he]
    · cases h
      simp_all

/-- a time, or a default -/
def orTime (d : WithTop K) : Option K → WithTop K
  | none => d
  | some a => a

@[simp] theorem orTime_none (d : WithTop K) : orTime d none = d := rfl
@[simp] theorem orTime_some (d : WithTop K) (a : K) : orTime d (some a) = a := rfl

theorem run_state {dt : K} {count : Nat} {s s' : Const K} {ops : List (ConstOp K V)}
    (h : Const.run dt count s ops = some s') :
    s'.start = (if s.hasStart then s.start else orTime s.start (startOf ops)) ∧
    s'.stop = orTime s.stop (stopOf ops) ∧
    s'.frame = s.frame + framesOf count ops ∧ (noDrop ops → s'.alive = s.alive) ∧
    s'.hasStart = (s.hasStart || (startOf ops).isSome) ∧ (s.hasStart = true → startOf ops = none) := by
  induction ops generalizing s with
  | nil => cases h; simp [startOf, stopOf, framesOf]
  | cons op ops ih =>
    rw [Const.run] at h
    cases hs : Const.step dt count s op with
    | none => rw [hs] at h; cases h
    | some r =>
      obtain ⟨out, t⟩ := r
      rw [hs] at h
      obtain ⟨i1, i2, i3, i4, i5, i6⟩ := ih h
      have := step_state hs
      cases op with
      | start a =>
        obtain ⟨h1, h2, rfl⟩ := this
        simp only [if_true] at i1 i2 i3 i4 i5 i6
        simp [startOf, stopOf, framesOf, noDrop, h1, i1, i2, i3, i5]
        exact i4
      | stop b =>
        obtain ⟨h1, h2, rfl⟩ := this
        simp only [h1] at i1 i2 i3 i4 i5 i6 ⊢
        simp only [startOf, stopOf, framesOf, noDrop]
        refine ⟨i1, ?_, i3, i4, i5, i6⟩
        rw [i2]
        cases stopOf ops <;> rfl
      | block o =>
        obtain ⟨h1, h2, h3, h4, h5⟩ := this
        rw [h1, h3] at i1
        rw [h2] at i2
        rw [h3] at i5 i6
        rw [h4] at i3
        rw [h5] at i4
        simp only [startOf, stopOf, framesOf, noDrop]
        exact ⟨i1, i2, by omega, i4, i5, i6⟩
      | drop =>
        obtain ⟨h1, h2, h3, h4, h5⟩ := this
        rw [h1, h3] at i1
        rw [h2] at i2
        rw [h3] at i5 i6
        rw [h4] at i3
        simp only [startOf, stopOf, framesOf, noDrop]
        exact ⟨i1, i2, i3, False.elim, i5, i6⟩

variable [IsStrictOrderedRing K]

open Classical in
/-- C32, samples: after any calls of start and stop and any number of quanta, frame `i` of the next quantum,
at time `t`, has the value of the offset parameter if `start ≤ t < stop`, with the times of the calls so far,
and is zero otherwise. (`out = []` stands for a silent quantum.) -/
theorem C32_samples {dt : K} (hdt : 0 < dt) {count : Nat} {ops : List (ConstOp K V)} {s s' : Const K}
    {offset out : List V} (hnd : noDrop ops) (h : Const.run dt count {} ops = some s)
    (hlen : offset.length = 1 ∨ offset.length = count)
    (h' : Const.step dt count s (.block offset) = some (out, s')) {i : Nat} (hi : i < count) :
    ((out[i]?).getD 0 =
      if Plays (startOf ops) (stopOf ops) ((framesOf count ops + i : Nat) * dt) then
        (if offset.length = 1 then offset.headD 0 else (offset[i]?).getD 0)
      else 0) ∧ (out = [] ∨ out.length = count) := by
  obtain ⟨r1, r2, r3, r4, r5, r6⟩ := run_state h
  simp only [Bool.false_eq_true, if_false, Nat.zero_add] at r1 r2 r3
  have hal : s.alive = true := r4 hnd
  simp only [Const.step, hal, if_true] at h'
  cases h'
  -- the condition in terms of the state
  have ht : ((framesOf count ops + i : Nat) : K) * dt = s.frame * dt + i * dt := by
    rw [r3]; push_cast; ring
  have hplay : Plays (startOf ops) (stopOf ops) ((framesOf count ops + i : Nat) * dt) ↔
      s.start ≤ ((s.frame * dt + i * dt : K) : WithTop K) ∧
        ((s.frame * dt + i * dt : K) : WithTop K) < s.stop := by
    rw [ht, r1, r2]
    unfold Plays
    constructor
    · rintro ⟨⟨a, ha, hle⟩, h2⟩
      rw [ha]
      refine ⟨by exact WithTop.coe_le_coe.2 hle, ?_⟩
      cases hb : stopOf ops with
      | none => exact WithTop.coe_lt_top _
      | some b => exact WithTop.coe_lt_coe.2 (h2 b hb)
    · rintro ⟨h1, h2⟩
      constructor
      · cases ha : startOf ops with
        | none => rw [ha] at h1; exact absurd (top_le_iff.1 h1) (WithTop.coe_ne_top)
        | some a => rw [ha] at h1; exact ⟨a, rfl, WithTop.coe_le_coe.1 h1⟩
      · intro b hb
        rw [hb] at h2
        exact WithTop.coe_lt_coe.1 h2
  have hle_next : ((s.frame * dt + i * dt : K) : WithTop K) < ((s.frame * dt + dt * count : K) : WithTop K) := by
    apply WithTop.coe_lt_coe.2
    have : (i : K) < count := by exact_mod_cast hi
    nlinarith
  have hnow : ((s.frame * dt : K) : WithTop K) ≤ ((s.frame * dt + i * dt : K) : WithTop K) := by
    apply WithTop.coe_le_coe.2
    have : (0 : K) ≤ i * dt := by positivity
    linarith
  by_cases hst : ((s.frame * dt + dt * count : K) : WithTop K) ≤ s.start
  · have hout : (s.process dt count offset).1 = [] := by
      simp only [Const.process]
      rw [if_pos hst]
      split <;> rfl
    rw [hout]
    refine ⟨?_, .inl rfl⟩
    rw [if_neg]
    · simp
    · rw [hplay]
      rintro ⟨h1, _⟩
      exact absurd (lt_of_lt_of_le hle_next hst) (not_lt.2 h1)
  · have hout : (s.process dt count offset).1 =
        if offset.length = 1 ∧ s.start ≤ ((s.frame * dt : K) : WithTop K) ∧
            ((s.frame * dt + dt * count : K) : WithTop K) ≤ s.stop then
          List.replicate count (offset.headD 0)
        else
          (List.range count).map fun (i : Nat) =>
            if ((s.frame * dt + i * dt : K) : WithTop K) < s.start ∨
                s.stop ≤ ((s.frame * dt + i * dt : K) : WithTop K) then 0
            else (offset[i % offset.length]?).getD 0 := by
      simp only [Const.process]
      rw [if_neg hst]
      split <;> rfl
    rw [hout]
    split
    · rename_i hc
      refine ⟨?_, .inr (by simp)⟩
      rw [if_pos (hplay.2 ⟨le_trans hc.2.1 hnow, lt_of_lt_of_le hle_next hc.2.2⟩), if_pos hc.1]
      simp [hi]
    · refine ⟨?_, .inr (by simp)⟩
      rw [List.getElem?_map, List.getElem?_range hi]
      simp only [Option.map_some, Option.getD_some]
      by_cases hp : s.start ≤ ((s.frame * dt + i * dt : K) : WithTop K) ∧
        ((s.frame * dt + i * dt : K) : WithTop K) < s.stop
      · rw [if_pos (hplay.2 hp), if_neg (by
          push Not
          exact hp)]
        rcases hlen with h1 | h1
        · rw [if_pos h1, h1, Nat.mod_one]
          cases offset with
          | nil => simp at h1
          | cons a l => rfl
        · by_cases h1' : offset.length = 1
          · rw [if_pos h1', h1', Nat.mod_one]
            cases offset with
            | nil => simp at h1'
            | cons a l => rfl
          · rw [if_neg h1', Nat.mod_eq_of_lt (by omega)]
      · rw [if_neg (fun h => hp (hplay.1 h)), if_pos (by
          by_contra hc
          push Not at hc
          exact hp hc)]

/-! ## The ended event -/

omit [IsStrictOrderedRing K] in
theorem events_inv {dt : K} {count : Nat} {s s' : Const K} {ops : List (ConstOp K V)}
    (hi : s.events = s.ended.toNat) (h : Const.run dt count s ops = some s') :
    (s'.events = s'.ended.toNat) ∧ (s.ended = true → s'.ended = true) := by
  induction ops generalizing s with
  | nil => cases h; exact ⟨hi, id⟩
  | cons op ops ih =>
    rw [Const.run] at h
    cases hs : Const.step dt count s op with
    | none => rw [hs] at h; cases h
    | some r =>
      obtain ⟨out, t⟩ := r
      rw [hs] at h
      have hsend : ∀ q : Const K, (q.events = q.ended.toNat) →
          (q.sendEnded.events = q.sendEnded.ended.toNat) ∧ q.sendEnded.ended = true := by
        intro q hq
        unfold Const.sendEnded
        split
        · rename_i he; exact ⟨hq, he⟩
        · rename_i he; simp [he] at hq; simp [hq]
      have key : (t.events = t.ended.toNat) ∧ (s.ended = true → t.ended = true) := by
        cases op with
        | start a =>
          have := step_state hs
          obtain ⟨_, _, rfl⟩ := this
          exact ⟨hi, id⟩
        | stop a =>
          have := step_state hs
          obtain ⟨_, _, rfl⟩ := this
          exact ⟨hi, id⟩
        | block o =>
          simp only [Const.step] at hs
          split at hs
          · cases hs
            obtain ⟨e1, e2⟩ := hsend s hi
            unfold Const.process
            dsimp only
            split
            · split
              · exact ⟨e1, fun _ => e2⟩
              · exact ⟨hi, id⟩
            · split
              · exact ⟨hi, id⟩
              · exact ⟨e1, fun _ => e2⟩
          · cases hs; exact ⟨hi, id⟩
        | drop =>
          simp only [Const.step] at hs
          split at hs
          · cases hs
            obtain ⟨e1, e2⟩ := hsend s hi
            dsimp only
            split
            · exact ⟨e1, fun _ => e2⟩
            · exact ⟨hi, id⟩
          · cases hs; exact ⟨hi, id⟩
      obtain ⟨i1, i2⟩ := ih key.1 h
      exact ⟨i1, fun h => i2 (key.2 h)⟩

omit [IsStrictOrderedRing K] in
/-- C32: in every history the ended event is sent at most once. -/
theorem C32_once {dt : K} {count : Nat} {s : Const K} {ops : List (ConstOp K V)}
    (h : Const.run dt count {} ops = some s) : s.events ≤ 1 := by
  have := (events_inv (by simp) h).1
  rw [this]
  cases s.ended <;> simp

omit [IsStrictOrderedRing K] in
/-- C32: when the ended event is sent, the source was started, and either the quantum reaches the stop time,
or the renderer is dropped at or after the start (or stop) time. -/
theorem C32_ended_only {dt : K} {count : Nat} {s s' : Const K} {ops : List (ConstOp K V)} {op : ConstOp K V}
    {out : List V} (h : Const.run dt count {} ops = some s)
    (h' : Const.step dt count s op = some (out, s')) (hev : s'.events ≠ s.events) :
    (startOf ops).isSome ∧
    ((∃ offset b, op = .block offset ∧ stopOf ops = some b ∧ b ≤ framesOf count ops * dt + dt * count) ∨
      (op = .drop ∧ ((∃ a, startOf ops = some a ∧ a ≤ framesOf count ops * dt) ∨
        ∃ b, stopOf ops = some b ∧ b ≤ framesOf count ops * dt))) := by
  obtain ⟨r1, r2, r3, r4, r5, r6⟩ := run_state h
  simp only [Bool.false_eq_true, if_false, Nat.zero_add] at r1 r2 r3
  -- a stop needs a start
  have hss : ∀ (ops : List (ConstOp K V)) (q q' : Const K), Const.run dt count q ops = some q' →
      (stopOf ops).isSome → q.hasStart = true ∨ (startOf ops).isSome := by
    intro ops
    induction ops with
    | nil => intro q q' _ h; simp [stopOf] at h
    | cons op ops ih =>
      intro q q' h hst
      rw [Const.run] at h
      cases hs : Const.step dt count q op with
      | none => rw [hs] at h; cases h
      | some r =>
        obtain ⟨out, t⟩ := r
        rw [hs] at h
        have hst' := step_state hs
        cases op with
        | start a => simp [startOf]
        | stop b => exact .inl hst'.1
        | block o =>
          obtain ⟨h1, h2, h3, h4, h5⟩ := hst'
          have := ih t q' h hst
          rw [h3] at this
          exact this
        | drop =>
          obtain ⟨h1, h2, h3, h4, h5⟩ := hst'
          have := ih t q' h hst
          rw [h3] at this
          exact this
  have hstop : ∀ x : K, s.stop ≤ (x : WithTop K) → ∃ b, stopOf ops = some b ∧ b ≤ x := by
    intro x hx
    rw [r2] at hx
    cases hb : stopOf ops with
    | none => rw [hb] at hx; exact absurd (top_le_iff.1 hx) WithTop.coe_ne_top
    | some b => rw [hb] at hx; exact ⟨b, rfl, WithTop.coe_le_coe.1 hx⟩
  have hstart : ∀ x : K, s.start ≤ (x : WithTop K) → ∃ a, startOf ops = some a ∧ a ≤ x := by
    intro x hx
    rw [r1] at hx
    cases hb : startOf ops with
    | none => rw [hb] at hx; exact absurd (top_le_iff.1 hx) WithTop.coe_ne_top
    | some b => rw [hb] at hx; exact ⟨b, rfl, WithTop.coe_le_coe.1 hx⟩
  have hstarted : ∀ b, stopOf ops = some b → (startOf ops).isSome := by
    intro b hb
    rcases hss ops {} s h (by rw [hb]; rfl) with h1 | h1
    · simp at h1
    · exact h1
  cases op with
  | start a =>
    obtain ⟨_, _, rfl⟩ := step_state h'
    exact absurd rfl hev
  | stop a =>
    obtain ⟨_, _, rfl⟩ := step_state h'
    exact absurd rfl hev
  | block o =>
    have hle : s.stop ≤ ((s.frame * dt + dt * count : K) : WithTop K) := by
      simp only [Const.step] at h'
      split at h'
      · cases h'
        simp only [Const.process] at hev
        split at hev
        · split at hev
          · assumption
          · exact absurd rfl hev
        · split at hev
          · exact absurd rfl hev
          · rename_i hc; exact not_lt.1 hc
      · cases h'; exact absurd rfl hev
    rw [r3] at hle
    obtain ⟨b, hb, hb'⟩ := hstop _ hle
    exact ⟨hstarted b hb, .inl ⟨o, b, rfl, hb, hb'⟩⟩
  | drop =>
    simp only [Const.step] at h'
    split at h'
    · cases h'
      split at hev
      · rename_i hc
        rcases hc.2 with h1 | h1
        · rw [r3] at h1
          obtain ⟨a, ha, ha'⟩ := hstart _ h1
          exact ⟨by rw [ha]; rfl, .inr ⟨rfl, .inl ⟨a, ha, ha'⟩⟩⟩
        · rw [r3] at h1
          obtain ⟨b, hb, hb'⟩ := hstop _ h1
          exact ⟨hstarted b hb, .inr ⟨rfl, .inr ⟨b, hb, hb'⟩⟩⟩
      · exact absurd rfl hev
    · cases h'; exact absurd rfl hev

omit [IsStrictOrderedRing K] in
/-- C32: the ended event has been sent after the quantum that reaches the stop time. -/
theorem C32_ended_sent {dt : K} {count : Nat} {s s' : Const K} {ops : List (ConstOp K V)} {offset out : List V}
    (hnd : noDrop ops) (h : Const.run dt count {} ops = some s) {b : K} (hb : stopOf ops = some b)
    (hle : b ≤ framesOf count ops * dt + dt * count)
    (h' : Const.step dt count s (.block offset) = some (out, s')) : s'.events = 1 := by
  obtain ⟨r1, r2, r3, r4, r5, r6⟩ := run_state h
  have hi := (events_inv (by simp) h).1
  have hal : s.alive = true := r4 hnd
  have hstop : s.stop ≤ ((s.frame * dt + dt * count : K) : WithTop K) := by
    rw [r2, hb, r3]
    simp only [Nat.zero_add]
    exact WithTop.coe_le_coe.2 hle
  have hsend : s.sendEnded.events = 1 := by
    unfold Const.sendEnded
    split
    · rename_i he; simpa [he] using hi
    · rename_i he; simp [he] at hi; simp [hi]
  simp only [Const.step, hal, if_true] at h'
  cases h'
  have hp : (s.process dt count offset).2.1 = s.sendEnded := by
    unfold Const.process
    dsimp only
    by_cases h1 : ((s.frame * dt + dt * count : K) : WithTop K) ≤ s.start
    · rw [if_pos h1, if_pos hstop]
    · rw [if_neg h1, if_neg (not_lt.2 hstop)]
  simp only [hp]
  exact hsend

/-- C32, tail time: if `process` returns false (the node may be freed once the control side has dropped it),
then without further calls all later quanta are silent. -/
theorem C32_tail {dt : K} (hdt : 0 < dt) {count : Nat} {ops more : List (ConstOp K V)} {s t t' : Const K}
    {offset out : List V} (hnd : noDrop ops)
    (h : Const.run dt count {} ops = some s) (hret : (s.process dt count offset).2.2 = false)
    (hmore : ∀ op ∈ more, ∃ o : List V, op = .block o ∧ (o.length = 1 ∨ o.length = count))
    (hm : Const.run dt count s (.block offset :: more) = some t) {o : List V}
    (ho : o.length = 1 ∨ o.length = count)
    (h' : Const.step dt count t (.block o) = some (out, t')) {i : Nat} (hi : i < count) :
    (out[i]?).getD 0 = 0 := by
  have hrun : Const.run dt count {} (ops ++ .block offset :: more) = some t := by
    have gen : ∀ (as bs : List (ConstOp K V)) (q u w : Const K), Const.run dt count q as = some u →
        Const.run dt count u bs = some w → Const.run dt count q (as ++ bs) = some w := by
      intro as
      induction as with
      | nil => intro bs q u w h1 h2; cases h1; exact h2
      | cons a as ih =>
        intro bs q u w h1 h2
        rw [Const.run] at h1
        rw [List.cons_append, Const.run]
        cases hs : Const.step dt count q a with
        | none => rw [hs] at h1; cases h1
        | some r => rw [hs] at h1; exact ih bs r.2 u w h1 h2
    exact gen _ _ _ _ _ h hm
  have hmore' : startOf (ops ++ .block offset :: more) = startOf ops ∧
      stopOf (ops ++ .block offset :: more) = stopOf ops ∧
      framesOf count ops + count ≤ framesOf count (ops ++ .block offset :: more) ∧
      noDrop (ops ++ .block offset :: more) := by
    have hm0 : startOf more = none ∧ stopOf more = none ∧ noDrop more := by
      clear hm hrun
      induction more with
      | nil => exact ⟨rfl, rfl, trivial⟩
      | cons op more ih =>
        obtain ⟨o, rfl, _⟩ := hmore op (by simp)
        exact ih fun x hx => hmore x (by simp [hx])
    clear hm hrun h
    induction ops with
    | nil => exact ⟨hm0.1, hm0.2.1, by simp [framesOf], hm0.2.2⟩
    | cons op ops ih =>
      cases op with
      | start a =>
        obtain ⟨i1, i2, i3, i4⟩ := ih hnd
        exact ⟨rfl, i2, i3, i4⟩
      | stop b =>
        obtain ⟨i1, i2, i3, i4⟩ := ih hnd
        exact ⟨i1, by simp [stopOf, i2], i3, i4⟩
      | block o =>
        obtain ⟨i1, i2, i3, i4⟩ := ih hnd
        exact ⟨i1, i2, by simp only [List.cons_append, framesOf]; omega, i4⟩
      | drop => exact hnd.elim
  obtain ⟨m1, m2, m3, m4⟩ := hmore'
  have := (C32_samples hdt m4 hrun ho h' hi).1
  rw [this, if_neg]
  rw [m1, m2]
  obtain ⟨r1, r2, r3, r4, r5, r6⟩ := run_state h
  simp only [Bool.false_eq_true, if_false, Nat.zero_add] at r1 r2 r3
  rintro ⟨⟨a, ha, hat⟩, hb⟩
  rw [ha, orTime_some] at r1
  -- the stop time is reached
  have hstop : s.stop ≤ ((s.frame * dt + dt * count : K) : WithTop K) := by
    simp only [Const.process] at hret
    split at hret
    · split at hret
      · assumption
      · rw [r1] at hret
        simp at hret
    · split at hret
      · cases hret
      · rename_i hc; exact not_lt.1 hc
  rw [r2, r3] at hstop
  cases hb' : stopOf ops with
  | none => rw [hb'] at hstop; exact absurd (top_le_iff.1 hstop) WithTop.coe_ne_top
  | some b =>
    rw [hb'] at hstop
    have h1 : b ≤ framesOf count ops * dt + dt * count := WithTop.coe_le_coe.1 hstop
    have h2 := hb b hb'
    have h3 : ((framesOf count ops + count : Nat) : K) ≤
        (framesOf count (ops ++ .block offset :: more) + i : Nat) := by
      exact_mod_cast le_trans m3 (Nat.le_add_right _ _)
    have h4 := mul_le_mul_of_nonneg_right h3 hdt.le
    push_cast at h4 h2
    nlinarith

end

/-! ## Witnesses -/

/-- The output of the last quantum, and the number of ended events. -/
def constDemo (ops : List (ConstOp ℚ ℚ)) (last : List ℚ) : Option (List ℚ × Nat) :=
  match Const.run 1 4 {} ops with
  | some s => (Const.step 1 4 s (.block last)).map fun r => (r.1, r.2.events)
  | none => none

/-- Start at 1.5, stop at 5.25; and a call that is rejected. -/
example : constDemo [.start (3/2)] [7] = some ([0, 0, 7, 7], 0) ∧
    constDemo [.start (3/2), .stop (21/4), .block [7]] [7, 8, 9, 10] = some ([7, 8, 0, 0], 1) ∧
    constDemo [.stop 3] [7] = none := by decide +kernel

/-- In double precision the claim fails by a frame: the time of a frame is accumulated (`current_time += dt`),
while the time of frame `n` is `n / sampleRate`. A source started at frame 5 (at 48 kHz, in the first quantum)
is still silent at that frame. -/
theorem C32_negated_rounding :
    let f64 := Verif.Float.rnd 53
    let dt := f64 (1 / 48000)
    let acc : Nat → ℚ := Nat.rec 0 fun _ t => f64 (t + dt)
    acc 5 < f64 (5 / 48000) := by
  decide +kernel

/-- The samples follow the last call of `stop` even after the source has ended: a source that has ended (the
event was sent) plays again after another call of `stop` with a later time, and no second event follows. In
the Web Audio specification such a call has no effect. -/
theorem C32_negated_restart :
    constDemo [.start 0, .stop 2, .block [7]] [7] = some ([0, 0, 0, 0], 1) ∧
    constDemo [.start 0, .stop 2, .block [7], .block [7], .stop 100] [7] = some ([7, 7, 7, 7], 1) := by
  decide +kernel

end Verif.Source
