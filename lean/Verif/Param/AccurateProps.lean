import Verif.Param.WalkProofs
import Mathlib.Data.List.Chain

/-!
# C26, C27: sample accuracy of set value events and linear ramps
-/

namespace Verif.Param

section
variable {K V : Type} [Field K] [LinearOrder K] [IsStrictOrderedRing K] [FloorSemiring K]

/-! ## Scheduling before rendering -/

theorem sort_append_singleton {l : List (Ev K V)} (h : Sorted l) (e : Ev K V) :
    sort (l ++ [e]) = l.filter (fun q => q.time ≤ e.time) ++ e :: l.filter fun q => e.time < q.time := by
  induction l with
  | nil => rfl
  | cons a l ih =>
    obtain ⟨h1, h2⟩ := List.pairwise_cons.1 h
    have : sort (a :: l ++ [e]) = List.orderedInsert (fun a b => a.time ≤ b.time) a (sort (l ++ [e])) := rfl
    rw [this, ih h2]
    by_cases ha : a.time ≤ e.time
    · have ins : ∀ m : List (Ev K V), (∀ x ∈ m, a.time ≤ x.time) →
          m.orderedInsert (fun a b => a.time ≤ b.time) a = a :: m := by
        intro m hm
        cases m with
        | nil => rfl
        | cons x m => rw [List.orderedInsert_cons, if_pos (hm x (by simp))]
      rw [ins]
      · simp [ha, not_lt.2 ha]
      · intro x hx
        rcases List.mem_append.1 hx with hx | hx
        · exact h1 x (List.mem_filter.1 hx).1
        · rcases List.mem_cons.1 hx with rfl | hx
          · exact ha
          · exact h1 x (List.mem_filter.1 hx).1
    · have he : l.filter (fun q => q.time ≤ e.time) = [] := by
        rw [List.filter_eq_nil_iff]
        intro x hx hle
        exact ha (le_trans (h1 x hx) (by simpa using hle))
      have hall : l.filter (fun q => e.time < q.time) = l := by
        rw [List.filter_eq_self]
        intro x hx
        simpa using lt_of_lt_of_le (not_le.1 ha) (h1 x hx)
      rw [he, hall]
      have hal : l.orderedInsert (fun a b => a.time ≤ b.time) a = a :: l := by
        cases l with
        | nil => rfl
        | cons x m => rw [List.orderedInsert_cons, if_pos (h1 x (by simp))]
      simp only [List.nil_append, List.orderedInsert_cons, if_neg ha]
      rw [hal]
      simp [List.filter_cons, ha, not_le.1 ha, he, hall]

theorem overlaps_simple {l : List (Ev K V)} (h : Steps l) {e : Ev K V}
    (hk : e.kind = .setValueAtTime ∨ e.isRamp = true) : overlaps l e = false := by
  have : (l.any fun q => match q.kind with
      | .curve dur _ => decide (q.time < e.time) && decide (e.time < q.time + dur)
      | _ => false) = false := by
    rw [List.any_eq_false]
    intro x hx
    rcases h x hx with ⟨hx | hx, _⟩ | hx | hx <;> simp [hx]
  unfold overlaps
  rcases hk with hk | hk
  · simp only [hk]; exact this
  · unfold Ev.isRamp at hk
    split at hk
    · rename_i hk'; simp only [hk']; exact this
    · rename_i hk'; simp only [hk']; exact this
    · cases hk

/-- Scheduling a set value event, or a ramp after another event, inserts it in the timeline. -/
theorem handle_simple {p : Proc K V} (hs : Steps p.timeline) {e : Ev K V}
    (hk : e.kind = .setValueAtTime ∨ (e.isRamp = true ∧ p.timeline ≠ [])) :
    handle p e = .ok { p with timeline := sort (p.timeline ++ [e]) } := by
  have ho := overlaps_simple hs (e := e) (hk.imp id And.left)
  have hi : insert p e = .ok { p with timeline := sort (p.timeline ++ [e]) } := by
    unfold insert
    rw [ho]
    have h1 : implicit p e = [] := by
      unfold implicit
      rcases hk with hk | hk
      · simp [hk]
      · rw [if_neg hk.2]
    have h2 : setIntrinsic p e = p.intrinsic := by
      unfold setIntrinsic
      rcases hk with hk | ⟨hk, _⟩
      · simp [hk]
      · unfold Ev.isRamp at hk
        split at hk <;> simp_all
    simp [h1, h2]
  unfold handle
  rcases hk with hk | ⟨hk, _⟩
  · simp only [hk]; exact hi
  · unfold Ev.isRamp at hk
    split at hk
    · rename_i hk'; simp only [hk']; exact hi
    · rename_i hk'; simp only [hk']; exact hi
    · cases hk

/-- A list of set value events, linear ramps and exponential ramps (from and to values that allow an
exponential ramp) in time order, starting with a set value event. -/
structure Schedule (A : Arith K V) (es : List (Ev K V)) : Prop where
  simple : Simple es
  plain : ∀ e ∈ es, e.cancelTime = none
  sorted : Sorted es
  head : ∀ e, es.head? = some e → e.kind = .setValueAtTime
  exps : es.IsChain fun e0 e1 => e1.kind = .exponential → A.noRamp e0.value e1.value = false

omit [IsStrictOrderedRing K] [FloorSemiring K] in
theorem stop_plain {e : Ev K V} (h : e.cancelTime = none) : e.stop = e.time := by simp [Ev.stop, h]

omit [LinearOrder K] [IsStrictOrderedRing K] [FloorSemiring K] in
theorem settle_plain {A : Arith K V} {last : Option (Ev K V)} {e : Ev K V} (h : e.cancelTime = none) :
    settle A last e = e := by simp [settle, h]

omit [IsStrictOrderedRing K] [FloorSemiring K] in
theorem sortedStop_plain {l : List (Ev K V)} (hp : ∀ e ∈ l, e.cancelTime = none) (h : Sorted l) :
    SortedStop l := by
  refine List.Pairwise.imp_of_mem ?_ h
  intro a b ha hb hab
  rw [stop_plain (hp a ha), stop_plain (hp b hb)]
  exact hab

omit [LinearOrder K] [IsStrictOrderedRing K] [FloorSemiring K] in
theorem consume_plain {A : Arith K V} {v : V} {last : Option (Ev K V)} {l : List (Ev K V)} {e : Ev K V}
    (h : ∀ x ∈ l ++ [e], x.cancelTime = none) : consume A v last (l ++ [e]) = (e.value, some e) := by
  induction l generalizing v last with
  | nil => simp [consume, settle_plain (h e (by simp))]
  | cons a l ih => exact ih fun x hx => h x (by simp at hx ⊢; tauto)

theorem Schedule.init {A : Arith K V} {es : List (Ev K V)} {e : Ev K V} (h : Schedule A (es ++ [e])) :
    Schedule A es :=
  ⟨fun x hx => h.simple x (by simp [hx]), fun x hx => h.plain x (by simp [hx]),
    (List.pairwise_append.1 h.sorted).1,
    fun x hx => h.head x (by
      cases es with
      | nil => simp at hx
      | cons a es => simpa using hx),
    h.exps.left_of_append⟩

theorem Schedule.linked {A : Arith K V} {es : List (Ev K V)} (h : Schedule A es) : Linked A none es := by
  have gen : ∀ l e0, (∀ e ∈ e0 :: l, e.cancelTime = none) →
      (e0 :: l).IsChain (fun a b => b.kind = .exponential → A.noRamp a.value b.value = false) →
      Linked A (some e0) l := by
    intro l
    induction l with
    | nil => intros; trivial
    | cons e l ih =>
      intro e0 hp he
      rw [List.isChain_cons_cons] at he
      refine ⟨fun hr => ⟨e0, rfl, he.1⟩, ?_⟩
      rw [settle_plain (hp e (by simp))]
      exact ih e (fun x hx => hp x (by simp at hx ⊢; tauto)) he.2
  cases es with
  | nil => trivial
  | cons e es =>
    refine ⟨fun hr => ?_, ?_⟩
    · have := h.head e rfl
      simp [Ev.isRamp, this] at hr
    · rw [settle_plain (h.plain e (by simp))]
      exact gen es e h.plain h.exps

theorem run_append {A : Arith K V} {dt : K} {count : Nat} (s : Sys K V) (as bs : List (Op K V)) :
    run A dt count s (as ++ bs) = (run A dt count s as).bind fun t => run A dt count t bs := by
  induction as generalizing s with
  | nil => rfl
  | cons a as ih =>
    simp only [List.cons_append, run]
    cases step A dt count s a with
    | ok t => simp only [Res.bind]; exact ih t
    | panic => rfl
    | fuel => rfl

theorem run_schedule {A : Arith K V} {dt : K} {count : Nat} {es : List (Ev K V)} (h : Schedule A es)
    (v c : V) : run A dt count { p := { intrinsic := v, current := c } } (es.map Op.event) =
      .ok { p := { intrinsic := v, current := c, timeline := es } } := by
  induction es using List.reverseRecOn with
  | nil => rfl
  | append_singleton es e ih =>
    rw [List.map_append, run_append, ih h.init]
    simp only [Res.bind, List.map_cons, List.map_nil, run, step]
    rw [handle_simple]
    · simp only [Res.bind]
      congr 1
      rw [sort_eq h.sorted]
    · exact h.init.simple.steps
    · rcases h.simple e (by simp) with ⟨hk, _⟩ | hk | hk
      · exact .inl hk
      · refine .inr ⟨by simp [Ev.isRamp, hk], ?_⟩
        rintro (rfl : es = [])
        have := h.head e (by simp)
        rw [hk] at this
        cases this
      · refine .inr ⟨by simp [Ev.isRamp, hk], ?_⟩
        rintro (rfl : es = [])
        have := h.head e (by simp)
        rw [hk] at this
        cases this

/-- The state while the events `es` are rendered: `es` consists of the ones that were processed and the
timeline. -/
structure Rendering (A : Arith K V) (dt : K) (v : V) (es : List (Ev K V)) (s : Sys K V) : Prop where
  simple : Steps es
  sorted : SortedStop es
  linked : Linked A none es
  aRate : s.p.aRate = true
  split : ∃ done, es = done ++ s.p.timeline ∧
    After A v none done s.p.intrinsic s.p.last s.p.timeline ∧ ∀ e ∈ done, e.stop ≤ s.frame * dt
  ahead : ∀ e ∈ s.p.timeline, s.frame * dt ≤ e.stop

theorem Rendering.linked' {A : Arith K V} {dt : K} {v : V} {es : List (Ev K V)} {s : Sys K V}
    (h : Rendering A dt v es s) : Linked A s.p.last s.p.timeline := by
  obtain ⟨done, h1, h2, h3⟩ := h.split
  rw [h2.1]
  apply linked_append
  rw [← h1]
  exact h.linked

theorem denote_ramp {A : Arith K V} {dt : K} {n : Nat} {v w : V} {last : Option (Ev K V)}
    {l : List (Ev K V)} (hl : Linked A last l) (h : (∃ e, l.head? = some e ∧ e.isRamp = true) ∨ v = w) :
    denote A dt n v last l = denote A dt n w last l := by
  rcases h with ⟨e, he, hr⟩ | rfl
  · cases l with
    | nil => simp at he
    | cons a l =>
      simp only [List.head?_cons, Option.some.injEq] at he
      subst he
      obtain ⟨l0, hl0, _⟩ := hl.1 hr
      simp [denote, before, hr, hl0]
  · rfl

theorem Rendering.value {A : Arith K V} {dt : K} (hdt : 0 < dt) {v : V} {es : List (Ev K V)} {s : Sys K V}
    (h : Rendering A dt v es s) {m : Nat} (hm : s.frame ≤ m) :
    denote A dt m s.p.intrinsic s.p.last s.p.timeline = denote A dt m v none es := by
  have hl := h.linked'
  obtain ⟨done, h1, h2, h3⟩ := h.split
  rw [h1, denote_consume, ← h2.1]
  · exact denote_ramp hl h2.2
  · intro e he
    refine frameOf_le hdt (le_trans (h3 e he) ?_)
    exact mul_le_mul_of_nonneg_right (by exact_mod_cast hm) hdt.le

theorem rendering_block {A : Arith K V} {dt : K} (hdt : 0 < dt) {count : Nat} (hcount : 2 ≤ count)
    {v : V} {es : List (Ev K V)} {s s' : Sys K V} (hr : Rendering A dt v es s)
    (h : step A dt count s .block = .ok s') :
    Rendering A dt v es s' ∧ s'.frame = s.frame + count ∧
      ∀ j < count, s'.p.valueAt j = some (denote A dt (s.frame + j) v none es) := by
  simp only [step] at h
  cases hc : computeBuffer A s.p ⟨s.frame * dt, dt, count⟩ with
  | panic => rw [hc] at h; cases h
  | fuel => rw [hc] at h; cases h
  | ok p' =>
    rw [hc] at h
    simp only [Res.bind] at h
    cases h
    obtain ⟨pre, h1, h2, h3⟩ := hr.split
    have hsub : s.p.timeline <:+ es := ⟨pre, h1.symm⟩
    obtain ⟨w1, w2, w3, w4, w5, w6, done, w7, w8, w9⟩ := computeBuffer_walk hdt hcount hr.aRate
      (fun e he => hr.simple e (hsub.subset he)) (hr.sorted.sublist hsub.sublist) hr.linked'
      (by
        intro e he h0
        have := hr.ahead e he
        rw [h0] at this
        by_contra hne
        have : (0 : K) < s.frame * dt := mul_pos (by exact_mod_cast Nat.pos_of_ne_zero hne) hdt
        linarith) hc
    refine ⟨⟨hr.simple, hr.sorted, hr.linked, w4, ⟨pre ++ done, ?_, ⟨?_, ?_⟩, ?_⟩, w6⟩, rfl, ?_⟩
    · rw [h1, w7, List.append_assoc]
    · rw [w8.1, consume_append, ← h2.1]
      cases done with
      | nil => rfl
      | cons e done => rfl
    · rcases w8.2 with hh | hh
      · exact .inl hh
      · rw [hh, consume_append, ← h2.1]
        simp only
        cases done with
        | nil =>
          rcases h2.2 with h2 | h2
          · left
            simpa [w7] using h2
          · right
            simpa [consume] using h2
        | cons e done => exact .inr rfl
    · intro e he
      rcases List.mem_append.1 he with he | he
      · refine le_trans (h3 e he) ?_
        exact mul_le_mul_of_nonneg_right (by exact_mod_cast Nat.le_add_right _ _) hdt.le
      · exact w9 e he
    · intro j hj
      rw [w1 j hj, hr.value hdt (by omega)]

/-- Rendering `k` quanta -/
theorem rendering_run {A : Arith K V} {dt : K} (hdt : 0 < dt) {count : Nat} (hcount : 2 ≤ count)
    {v : V} {es : List (Ev K V)} {k : Nat} {t s : Sys K V} (hr : Rendering A dt v es t)
    (h : run A dt count t (List.replicate k .block) = .ok s) :
    Rendering A dt v es s ∧ s.frame = t.frame + k * count := by
  induction k generalizing t with
  | zero => cases h; exact ⟨hr, by simp⟩
  | succ k ih =>
    rw [List.replicate_succ, run] at h
    cases hst : step A dt count t .block with
    | panic => rw [hst] at h; cases h
    | fuel => rw [hst] at h; cases h
    | ok t' =>
      rw [hst] at h
      obtain ⟨r1, r2, _⟩ := rendering_block hdt hcount hr hst
      obtain ⟨i1, i2⟩ := ih r1 h
      refine ⟨i1, ?_⟩
      rw [i2, r2]
      ring

/-- Rendering `k + 1` quanta: the value of every frame of the last one. -/
theorem rendering_blocks {A : Arith K V} {dt : K} (hdt : 0 < dt) {count : Nat} (hcount : 2 ≤ count)
    {v : V} {es : List (Ev K V)} {k : Nat} {t s : Sys K V} (hr : Rendering A dt v es t)
    (h : run A dt count t (List.replicate (k + 1) .block) = .ok s) :
    ∀ j < count, s.p.valueAt j = some (denote A dt (t.frame + k * count + j) v none es) := by
  intro j hj
  rw [List.replicate_succ', run_append] at h
  cases hst : run A dt count t (List.replicate k .block) with
  | panic => rw [hst] at h; cases h
  | fuel => rw [hst] at h; cases h
  | ok t' =>
    rw [hst] at h
    simp only [Res.bind, run] at h
    obtain ⟨r1, r2⟩ := rendering_run hdt hcount hr hst
    cases hst' : step A dt count t' .block with
    | panic => rw [hst'] at h; cases h
    | fuel => rw [hst'] at h; cases h
    | ok t'' =>
      rw [hst'] at h
      cases h
      rw [(rendering_block hdt hcount r1 hst').2.2 j hj, r2]

/-- The state after scheduling the events. -/
theorem rendering_start {A : Arith K V} {dt : K} {v c : V} {es : List (Ev K V)} (hes : Schedule A es)
    (hpos : ∀ e ∈ es, 0 ≤ e.time) :
    Rendering A dt v es { p := { intrinsic := v, current := c, timeline := es } } :=
  ⟨hes.simple.steps, sortedStop_plain hes.plain hes.sorted, hes.linked, rfl,
    ⟨[], rfl, ⟨rfl, .inr rfl⟩, by simp⟩, fun e he => by
      rw [stop_plain (hes.plain e he)]
      simpa using hpos e he⟩

/-- After scheduling `es` and rendering `k + 1` quanta: the value of every frame of the last one. -/
theorem run_blocks {A : Arith K V} {dt : K} (hdt : 0 < dt) {count : Nat} (hcount : 2 ≤ count)
    {v c : V} {es : List (Ev K V)} (hes : Schedule A es) (hpos : ∀ e ∈ es, 0 ≤ e.time) {k : Nat} {s : Sys K V}
    (h : run A dt count { p := { intrinsic := v, current := c } }
      (es.map Op.event ++ List.replicate (k + 1) .block) = .ok s) :
    ∀ j < count, s.p.valueAt j = some (denote A dt (k * count + j) v none es) := by
  rw [run_append, run_schedule hes] at h
  simp only [Res.bind] at h
  have := rendering_blocks hdt hcount (rendering_start hes hpos) h
  simpa using this

theorem denote_skip (A : Arith K V) {dt : K} (hdt : 0 < dt) {n : Nat} {v : V} {last : Option (Ev K V)}
    {xs : List (Ev K V)} {e : Ev K V} {ys : List (Ev K V)} (hs : Sorted (xs ++ e :: ys))
    (hp : ∀ x ∈ xs ++ [e], x.cancelTime = none) (hn : frameOf dt e.time ≤ n) :
    denote A dt n v last (xs ++ e :: ys) = denote A dt n e.value (some e) ys := by
  have : xs ++ e :: ys = (xs ++ [e]) ++ ys := by simp
  rw [this, denote_consume, consume_plain hp]
  intro x hx
  rw [stop_plain (hp x hx)]
  refine le_trans (frameOf_mono hdt ?_) hn
  rw [this] at hs
  rcases List.mem_append.1 hx with hx | hx
  · exact (List.pairwise_append.1 (List.pairwise_append.1 hs).1).2.2 x hx e (by simp)
  · simp at hx; subst hx; exact le_rfl

/-- C26, C27: set value events and linear ramps scheduled in time order (starting with a set value event)
are sample accurate up to the rounding of event times to frames, for any event times, in every quantum:
from the frame of an event until the frame of the next one the value is the one of the event, or follows
the line to the next event if that is a linear ramp. `A.lin` is the formula of the line, see
`C27_exact_partial`. -/
theorem C26_C27_frames {A : Arith K V} {dt : K} (hdt : 0 < dt) {count : Nat} (hcount : 2 ≤ count)
    {v c : V} {es : List (Ev K V)} (hes : Schedule A es) (hpos : ∀ e ∈ es, 0 ≤ e.time) {k : Nat} {s : Sys K V}
    (h : run A dt count { p := { intrinsic := v, current := c } }
      (es.map Op.event ++ List.replicate (k + 1) .block) = .ok s)
    {j : Nat} (hj : j < count) :
    -- before the first event
    ((∀ e ∈ es, k * count + j < frameOf dt e.time) → s.p.valueAt j = some v) ∧
    -- after the last event
    (∀ xs e0, es = xs ++ [e0] → frameOf dt e0.time ≤ k * count + j → s.p.valueAt j = some e0.value) ∧
    -- between two events
    (∀ xs e0 e1 ys, es = xs ++ e0 :: e1 :: ys → frameOf dt e0.time ≤ k * count + j →
      k * count + j < frameOf dt e1.time →
      (e1.kind = .setValueAtTime → s.p.valueAt j = some e0.value) ∧
      (e1.kind = .linear → s.p.valueAt j = some
        (A.lin e0.time (e1.time - e0.time) e0.value e1.value ((k * count + j : Nat) * dt))) ∧
      (e1.kind = .exponential → s.p.valueAt j = some
        (A.exp e0.time (e1.time - e0.time) e0.value e1.value ((k * count + j : Nat) * dt)))) := by
  have hv := run_blocks hdt hcount hes hpos h j hj
  refine ⟨?_, ?_, ?_⟩
  · intro hall
    rw [hv]
    cases es with
    | nil => rfl
    | cons e es =>
      rw [denote, if_pos (by rw [stop_plain (hes.plain e (by simp))]; exact hall e (by simp))]
      simp [before, Ev.isRamp, hes.head e (by simp)]
  · rintro xs e0 rfl hn
    rw [hv, denote_skip A hdt hes.sorted (fun x hx => hes.plain x (by simp at hx ⊢; tauto)) hn]
    rfl
  · rintro xs e0 e1 ys rfl hn0 hn1
    rw [hv, denote_skip A hdt hes.sorted (fun x hx => hes.plain x (by simp at hx ⊢; tauto)) hn0, denote,
      if_pos (by rw [stop_plain (hes.plain e1 (by simp))]; exact hn1)]
    refine ⟨?_, ?_, ?_⟩ <;> intro hk <;> simp [before, Ev.isRamp, Ev.ramp, hk]

/-! ## Set value events scheduled while rendering -/

/-- Histories of set value events and quanta of an a-rate parameter in which each event is scheduled no
later than its time (the frame counter is the first argument). -/
def InTime (dt : K) (count : Nat) : Nat → List (Op K V) → Prop
  | _, [] => True
  | n, .event e :: ops => e.kind = .setValueAtTime ∧ e.cancelTime = none ∧ (n : K) * dt ≤ e.time ∧
      InTime dt count n ops
  | _, .rate _ :: _ => False
  | n, .block :: ops => InTime dt count (n + count) ops

/-- The events of a history in the order they were scheduled. -/
def eventsOf : List (Op K V) → List (Ev K V)
  | [] => []
  | .event e :: ops => e :: eventsOf ops
  | .rate _ :: ops => eventsOf ops
  | .block :: ops => eventsOf ops

/-- Specification: `w` is the value at frame `n`, given the events `L` in the order they were scheduled:
the value of the last event (the latest time; for equal times the one scheduled last) among those whose
time, rounded to frames, is not after `n`; the initial value `v` if there is none. -/
def ValueAtFrame (dt : K) (v : V) (L : List (Ev K V)) (n : Nat) (w : V) : Prop :=
  (∃ X e Y, L = X ++ e :: Y ∧ frameOf dt e.time ≤ n ∧
    (∀ x ∈ X, frameOf dt x.time ≤ n → x.time ≤ e.time) ∧
    (∀ y ∈ Y, frameOf dt y.time ≤ n → y.time < e.time) ∧ w = e.value) ∨
  ((∀ x ∈ L, n < frameOf dt x.time) ∧ w = v)

/-- The last event of `l` due at frame `n`. -/
theorem denote_sets (A : Arith K V) {dt : K} (hdt : 0 < dt) {n : Nat} {v : V} {last : Option (Ev K V)}
    {l : List (Ev K V)} (hs : Sorted l) (hk : ∀ e ∈ l, e.kind = .setValueAtTime ∧ e.cancelTime = none) :
    denote A dt n v last l =
      (((l.filter fun e => frameOf dt e.time ≤ n).getLast?).map (·.value)).getD v := by
  induction l generalizing v last with
  | nil => rfl
  | cons e l ih =>
    obtain ⟨h1, h2⟩ := List.pairwise_cons.1 hs
    obtain ⟨he, hc⟩ := hk e (by simp)
    rw [denote, stop_plain hc, settle_plain hc]
    split
    · rename_i hlt
      have : (e :: l).filter (fun e => frameOf dt e.time ≤ n) = [] := by
        rw [List.filter_eq_nil_iff]
        intro x hx
        have : frameOf dt e.time ≤ frameOf dt x.time := by
          rcases List.mem_cons.1 hx with rfl | hx
          · exact le_rfl
          · exact frameOf_mono hdt (h1 x hx)
        simp only [decide_eq_true_eq]
        omega
      rw [this]
      simp [before, Ev.isRamp, he]
    · rename_i hle
      rw [ih h2 (fun x hx => hk x (by simp [hx]))]
      rw [List.filter_cons_of_pos (by simpa using hle), List.getLast?_cons]
      simp

/-- The state after such a history: pending events and the value for each later frame. -/
structure SetsInv (A : Arith K V) (dt : K) (v : V) (L : List (Ev K V)) (s : Sys K V) : Prop where
  aRate : s.p.aRate = true
  simple : Steps s.p.timeline
  sets : ∀ e ∈ s.p.timeline, e.kind = .setValueAtTime ∧ e.cancelTime = none
  sorted : Sorted s.p.timeline
  ahead : ∀ e ∈ s.p.timeline, s.frame * dt ≤ e.time
  mem : ∀ e ∈ s.p.timeline, e ∈ L
  past : ∀ e ∈ L, e ∈ s.p.timeline ∨ e.time ≤ s.frame * dt
  value : ∀ n, s.frame ≤ n →
    ValueAtFrame dt v L n (denote A dt n s.p.intrinsic s.p.last s.p.timeline)

theorem SetsInv.event {A : Arith K V} {dt : K} (hdt : 0 < dt) {count : Nat} {v : V} {L : List (Ev K V)}
    {s s' : Sys K V} (hi : SetsInv A dt v L s) {e : Ev K V} (hk : e.kind = .setValueAtTime)
    (hc : e.cancelTime = none) (ht : s.frame * dt ≤ e.time)
    (h : step A dt count s (.event e) = .ok s') : SetsInv A dt v (L ++ [e]) s' := by
  simp only [step, handle_simple hi.simple (.inl hk), Res.bind] at h
  cases h
  have hs' : ∀ x, x ∈ sort (s.p.timeline ++ [e]) ↔ x ∈ s.p.timeline ∨ x = e := by
    intro x; rw [mem_sort]; simp
  have hk' : ∀ x ∈ sort (s.p.timeline ++ [e]), x.kind = .setValueAtTime ∧ x.cancelTime = none := by
    intro x hx
    rcases (hs' x).1 hx with hx | rfl
    · exact hi.sets x hx
    · exact ⟨hk, hc⟩
  refine ⟨hi.aRate, ?_, hk', sorted_sort _, ?_, ?_, ?_, ?_⟩
  · exact fun x hx => .inl ⟨.inl (hk' x hx).1, (hk' x hx).2⟩
  · intro x hx
    rcases (hs' x).1 hx with hx | rfl
    · exact hi.ahead x hx
    · exact ht
  · intro x hx
    rcases (hs' x).1 hx with hx | rfl
    · simp [hi.mem x hx]
    · simp
  · intro x hx
    rcases List.mem_append.1 hx with hx | hx
    · rcases hi.past x hx with hx | hx
      · exact .inl ((hs' x).2 (.inl hx))
      · exact .inr hx
    · simp at hx
      exact .inl ((hs' x).2 (.inr hx))
  · intro n hn
    have hold := hi.value n hn
    rw [denote_sets A hdt hi.sorted hi.sets] at hold
    rw [denote_sets A hdt (sorted_sort _) hk', sort_append_singleton hi.sorted]
    rw [List.filter_append, List.filter_cons]
    -- events after the new one
    by_cases hafter : ∃ y ∈ s.p.timeline, e.time < y.time ∧ frameOf dt y.time ≤ n
    · obtain ⟨y, hy, hyt, hyn⟩ := hafter
      have he : frameOf dt e.time ≤ n := le_trans (frameOf_mono hdt hyt.le) hyn
      -- the last pending event that is due is after the new one, as before
      have hsame : ((s.p.timeline.filter (fun q => q.time ≤ e.time)).filter (fun e => frameOf dt e.time ≤ n) ++
            (if decide (frameOf dt e.time ≤ n) = true then
              e :: (s.p.timeline.filter fun q => e.time < q.time).filter (fun e => frameOf dt e.time ≤ n)
            else (s.p.timeline.filter fun q => e.time < q.time).filter
              (fun e => frameOf dt e.time ≤ n))).getLast? =
          (s.p.timeline.filter fun e => frameOf dt e.time ≤ n).getLast? := by
        conv_rhs => rw [← split_sorted hi.sorted e.time, List.filter_append]
        have hne : (s.p.timeline.filter fun q => e.time < q.time).filter
            (fun e => frameOf dt e.time ≤ n) ≠ [] := by
          intro h0
          have : y ∈ (s.p.timeline.filter fun q => e.time < q.time).filter
            (fun e => frameOf dt e.time ≤ n) := by
            rw [List.mem_filter, List.mem_filter]
            simp [hy, hyt, hyn]
          rw [h0] at this
          simp at this
        rw [if_pos (by simpa using he), List.getLast?_append, List.getLast?_append, List.getLast?_cons]
        rw [List.getLast?_eq_getLast_of_ne_nil hne]
        rfl
      rw [hsame]
      rcases hold with ⟨X, w, Y, hL, h1, h2, h3, h4⟩ | ⟨h1, _⟩
      · left
        refine ⟨X, w, Y ++ [e], by rw [hL]; simp, h1, h2, ?_, h4⟩
        intro x hx hxn
        rcases List.mem_append.1 hx with hx | hx
        · exact h3 x hx hxn
        · simp at hx
          subst hx
          -- `y` is in `L`
          have hyL := hi.mem y hy
          rw [hL] at hyL
          have : y.time ≤ w.time := by
            rcases List.mem_append.1 hyL with hyL | hyL
            · exact h2 y hyL hyn
            · rcases List.mem_cons.1 hyL with rfl | hyL
              · exact le_rfl
              · exact (h3 y hyL hyn).le
          exact lt_of_lt_of_le hyt this
      · exact absurd (h1 y (hi.mem y hy)) (by omega)
    · have hnil : (s.p.timeline.filter fun q => e.time < q.time).filter
          (fun e => frameOf dt e.time ≤ n) = [] := by
        rw [List.filter_eq_nil_iff]
        intro x hx hxn
        rw [List.mem_filter] at hx
        exact hafter ⟨x, hx.1, by simpa using hx.2, by simpa using hxn⟩
      rw [hnil]
      by_cases he : frameOf dt e.time ≤ n
      · rw [if_pos (by simpa using he)]
        left
        refine ⟨L, e, [], rfl, he, ?_, by simp, by simp⟩
        intro x hx hxn
        rcases hi.past x hx with hx | hx
        · by_contra hlt
          exact hafter ⟨x, hx, not_le.1 hlt, hxn⟩
        · exact le_trans hx ht
      · rw [if_neg (by simpa using he), List.append_nil]
        have hsame : (s.p.timeline.filter (fun q => q.time ≤ e.time)).filter (fun e => frameOf dt e.time ≤ n) =
            s.p.timeline.filter fun e => frameOf dt e.time ≤ n := by
          conv_rhs => rw [← split_sorted hi.sorted e.time, List.filter_append, hnil, List.append_nil]
        rw [hsame]
        rcases hold with ⟨X, w, Y, hL, h1, h2, h3, h4⟩ | ⟨h1, h2⟩
        · left
          refine ⟨X, w, Y ++ [e], by rw [hL]; simp, h1, h2, ?_, h4⟩
          intro x hx hxn
          rcases List.mem_append.1 hx with hx | hx
          · exact h3 x hx hxn
          · simp at hx
            subst hx
            exact absurd hxn he
        · right
          refine ⟨?_, h2⟩
          intro x hx
          rcases List.mem_append.1 hx with hx | hx
          · exact h1 x hx
          · simp at hx; subst hx; omega

omit [LinearOrder K] [IsStrictOrderedRing K] [FloorSemiring K] in
theorem linked_sets {A : Arith K V} {l : List (Ev K V)}
    (h : ∀ e ∈ l, e.kind = .setValueAtTime ∧ e.cancelTime = none) {last : Option (Ev K V)} :
    Linked A last l := by
  induction l generalizing last with
  | nil => trivial
  | cons e l ih =>
    refine ⟨fun hr => ?_, ih fun x hx => h x (by simp [hx])⟩
    simp [Ev.isRamp, (h e (by simp)).1] at hr

theorem SetsInv.block {A : Arith K V} {dt : K} (hdt : 0 < dt) {count : Nat} (hcount : 2 ≤ count) {v : V}
    {L : List (Ev K V)} {s s' : Sys K V} (hi : SetsInv A dt v L s)
    (h : step A dt count s .block = .ok s') :
    SetsInv A dt v L s' ∧ s'.frame = s.frame + count ∧
      ∀ j < count, ∃ w, s'.p.valueAt j = some w ∧ ValueAtFrame dt v L (s.frame + j) w := by
  simp only [step] at h
  cases hc : computeBuffer A s.p ⟨s.frame * dt, dt, count⟩ with
  | panic => rw [hc] at h; cases h
  | fuel => rw [hc] at h; cases h
  | ok p' =>
    rw [hc] at h
    simp only [Res.bind] at h
    cases h
    obtain ⟨w1, w2, w3, w4, w5, w6, done, w7, w8, w9⟩ := computeBuffer_walk hdt hcount hi.aRate hi.simple
      (sortedStop_plain (fun e he => (hi.sets e he).2) hi.sorted) (linked_sets hi.sets)
      (by
        intro e he h0
        rw [stop_plain (hi.sets e he).2] at h0
        have := hi.ahead e he
        rw [h0] at this
        by_contra hne
        have : (0 : K) < s.frame * dt := mul_pos (by exact_mod_cast Nat.pos_of_ne_zero hne) hdt
        linarith) hc
    refine ⟨⟨w4, fun e he => hi.simple e (w5.subset he), fun e he => hi.sets e (w5.subset he),
      hi.sorted.sublist w5.sublist, fun e he => by
        rw [← stop_plain (hi.sets e (w5.subset he)).2]; exact w6 e he, fun e he => hi.mem e (w5.subset he), ?_, ?_⟩, rfl, ?_⟩
    · intro e he
      by_cases hp : e ∈ p'.timeline
      · exact .inl hp
      · right
        rcases hi.past e he with h1 | h1
        · rw [← stop_plain (hi.sets e h1).2]
          refine w9 e ?_
          rw [w7] at h1
          exact (List.mem_append.1 h1).resolve_right hp
        · refine le_trans h1 ?_
          simp only
          have : (s.frame : K) ≤ (s.frame + count : Nat) := by exact_mod_cast Nat.le_add_right _ _
          exact mul_le_mul_of_nonneg_right this hdt.le
    · intro n hn
      simp only at hn
      simp only [w2 n hn]
      exact hi.value n (by omega)
    · intro j hj
      exact ⟨_, w1 j hj, hi.value _ (by omega)⟩

/-- C26: with only set value events, scheduled at any time no later than their own time, the value at any
frame of any quantum is that of the last event whose time (rounded to frames) is not after this frame, the
initial value if there is none, however the scheduling calls and the quanta interleave. Missing: events
scheduled later than their time (`C26_negated_late`), the rounding (`C26_negated_rounding`). -/
theorem C26_sets_partial {A : Arith K V} {dt : K} (hdt : 0 < dt) {count : Nat} (hcount : 2 ≤ count)
    {v c : V} {ops : List (Op K V)} (hin : InTime dt count 0 ops) {s s' : Sys K V}
    (h : run A dt count { p := { intrinsic := v, current := c } } ops = .ok s)
    (h' : step A dt count s .block = .ok s') {j : Nat} (hj : j < count) :
    ∃ w, s'.p.valueAt j = some w ∧ ValueAtFrame dt v (eventsOf ops) (s.frame + j) w := by
  have gen : ∀ ops (t : Sys K V) L, SetsInv A dt v L t → InTime dt count t.frame ops →
      run A dt count t ops = .ok s → SetsInv A dt v (L ++ eventsOf ops) s := by
    intro ops
    induction ops with
    | nil => intro t L ht _ h; cases h; simpa [eventsOf] using ht
    | cons op ops ih =>
      intro t L ht hin h
      rw [run] at h
      cases hst : step A dt count t op with
      | panic => rw [hst] at h; cases h
      | fuel => rw [hst] at h; cases h
      | ok t' =>
        rw [hst] at h
        cases op with
        | event e =>
          obtain ⟨i1, i2, i3, i4⟩ := hin
          have hf : t'.frame = t.frame := by
            simp only [step, handle_simple ht.simple (.inl i1), Res.bind] at hst
            cases hst; rfl
          have := ih t' (L ++ [e]) (ht.event hdt i1 i2 i3 hst) (by rw [hf]; exact i4) h
          simpa [eventsOf] using this
        | rate a => exact hin.elim
        | block =>
          obtain ⟨b1, b2, _⟩ := ht.block hdt hcount hst
          exact ih t' L b1 (by rw [b2]; exact hin) h
  have hs := gen ops { p := { intrinsic := v, current := c } } []
    ⟨rfl, by intro e he; simp at he, by simp, List.Pairwise.nil, by simp, by simp,
      by simp, fun n _ => .inr ⟨by simp, rfl⟩⟩ hin h
  exact (hs.block hdt hcount h').2.2 j hj

/-! ## Exact arithmetic -/

end

section exact
variable {K : Type} [Field K] [LinearOrder K] [IsStrictOrderedRing K] [FloorSemiring K]

variable [FloorRing K] in
/-- C27: in a schedule of set value events and linear ramps in time order, with event `(t0, v0)` directly
before the linear ramp `(t1, v1)`, the value of the frame at time `t` is exactly
`v0 + (v1 - v0) (t - t0) / (t1 - t0)` if `t0 ≤ t` and `t + dt/2 < t1` (`t < t1` if `t1` is the time of a
frame), in particular between `v0` and `v1`, and `v1` from `t1` on, until the next event. Missing: the
half frame before `t1` (`C27_negated_end`), the half frame before `t0` (`C27_negated_start`), events in
another order than their times. -/
theorem C27_exact_partial {ex : K → K} {pw : K → K → K} {mn mx dt : K} (hdt : 0 < dt) {count : Nat}
    (hcount : 2 ≤ count) {v c : K} {es : List (Ev K K)} (hes : Schedule (exact ex pw mn mx) es) (hpos : ∀ e ∈ es, 0 ≤ e.time)
    {k : Nat} {s : Sys K K}
    (h : run (exact ex pw mn mx) dt count { p := { intrinsic := v, current := c } }
      (es.map Op.event ++ List.replicate (k + 1) .block) = .ok s)
    {j : Nat} (hj : j < count) {xs ys : List (Ev K K)} {e0 e1 : Ev K K} (hsplit : es = xs ++ e0 :: e1 :: ys)
    (hk : e1.kind = .linear) {t : K} (ht : t = (k * count + j : Nat) * dt) :
    (e0.time ≤ t → (t + dt / 2 < e1.time ∨ (t < e1.time ∧ ∃ m : Nat, e1.time = m * dt)) →
      s.p.valueAt j = some (e0.value + (e1.value - e0.value) * ((t - e0.time) / (e1.time - e0.time))) ∧
      ∃ x, s.p.valueAt j = some x ∧ min e0.value e1.value ≤ x ∧ x ≤ max e0.value e1.value) ∧
    (e1.time ≤ t → (∀ e2 ys', ys = e2 :: ys' → e2.kind = .setValueAtTime ∧ t + dt / 2 < e2.time) →
      s.p.valueAt j = some e1.value) := by
  have hf := C26_C27_frames hdt hcount hes hpos h hj
  refine ⟨?_, ?_⟩
  · intro h0 h1
    have hn0 : frameOf dt e0.time ≤ k * count + j := frameOf_le hdt (by rw [← ht]; exact h0)
    have hlt : t < e1.time := by
      rcases h1 with h1 | h1
      · linarith
      · exact h1.1
    have hn1 : k * count + j < frameOf dt e1.time := by
      rcases h1 with h1 | ⟨h1, m, hm⟩
      · exact le_frameOf hdt (by rw [← ht]; linarith)
      · rw [hm, frameOf_nat hdt]
        rw [hm, ht] at h1
        exact_mod_cast lt_of_mul_lt_mul_right h1 hdt.le
    have hv := (hf.2.2 xs e0 e1 ys hsplit hn0 hn1).2.1 hk
    have hd : 0 < e1.time - e0.time := by linarith
    have hval : s.p.valueAt j =
        some (e0.value + (e1.value - e0.value) * ((t - e0.time) / (e1.time - e0.time))) := by
      rw [hv, ← ht]
      simp only [exact]
      congr 1
      ring
    refine ⟨hval, _, hval, ?_⟩
    have hp0 : 0 ≤ (t - e0.time) / (e1.time - e0.time) := div_nonneg (by linarith) hd.le
    have hp1 : (t - e0.time) / (e1.time - e0.time) ≤ 1 := by
      rw [div_le_one hd]; linarith
    generalize (t - e0.time) / (e1.time - e0.time) = φ at *
    rcases le_total e0.value e1.value with hle | hle
    · rw [min_eq_left hle, max_eq_right hle]
      constructor <;> nlinarith
    · rw [min_eq_right hle, max_eq_left hle]
      constructor <;> nlinarith
  · intro h1 h2
    have hn1 : frameOf dt e1.time ≤ k * count + j := frameOf_le hdt (by rw [← ht]; exact h1)
    cases ys with
    | nil => exact hf.2.1 (xs ++ [e0]) e1 (by rw [hsplit]; simp) hn1
    | cons e2 ys' =>
      obtain ⟨g1, g2⟩ := h2 e2 ys' rfl
      exact (hf.2.2 (xs ++ [e0]) e1 e2 ys' (by rw [hsplit]; simp) hn1
        (le_frameOf hdt (by rw [← ht]; linarith))).1 g1

end exact

/-! ## Witnesses -/

/-- Exact arithmetic on the rationals (no `exp` and `powf` needed). -/
abbrev qArith : Arith ℚ ℚ := exact (fun _ => 0) (fun _ _ => 0) (-1000) 1000

/-- The processor after the operations, with a quantum of 4 frames. -/
def demo (dt : ℚ) (ops : List (Op ℚ ℚ)) : Option (Proc ℚ ℚ) :=
  match run qArith dt 4 { p := { intrinsic := 0, current := 0 } } ops with
  | .ok s => some s.p
  | _ => none

def setAt (v t : ℚ) : Op ℚ ℚ := .event { kind := .setValueAtTime, value := v, time := t }
def linAt (v t : ℚ) : Op ℚ ℚ := .event { kind := .linear, value := v, time := t }

/-- C26 fails off the sample grid: an event at 1.4 frames is in effect at frame 1 already. -/
theorem C26_negated_rounding :
    (demo 1 [setAt 5 (7/5), .block]).map (·.buffer) = some [0, 5, 5, 5] := by decide +kernel

/-- C26 fails for an event scheduled later than its time: it overrides a later event that was processed
in time. -/
theorem C26_negated_late :
    (demo 1 [setAt 5 2, .block, setAt 7 1, .block]).map (·.buffer) = some [7, 7, 7, 7] := by
  decide +kernel

/-- C27 fails in the half frame before the end of the ramp: for a ramp from (0, 0) to (3.4, 34) the value
at frame 3 is the end value, not 30. -/
theorem C27_negated_end :
    (demo 1 [setAt 0 0, linAt 34 (17/5), .block]).map (·.buffer) = some [0, 10, 20, 34] := by
  decide +kernel

/-- C27 fails in the half frame before the start of the ramp: from (0.4, 4) to (3.4, 34) the value at
frame 0 is 0, which is not between the values of the two events (and not the value before them). -/
theorem C27_negated_start :
    (demo 1 [setAt 1 0, setAt 4 (2/5), linAt 34 (17/5), .block]).map (·.buffer) =
      some [0, 10, 20, 34] := by decide +kernel

/-- Hypotheses of the theorems met: a schedule with ramps across quanta, and its values. -/
example : (demo (1/2) [setAt 1 0, linAt 9 4, setAt 3 5, .block, .block, .block]).map (·.buffer) =
    some [9, 9, 3, 3] ∧
    (demo (1/2) [setAt 1 0, linAt 9 4, setAt 3 5, .block, .block]).map (·.buffer) = some [5, 6, 7, 8] := by
  decide +kernel

example : Schedule qArith [(⟨.setValueAtTime, 1, 0, none⟩ : Ev ℚ ℚ), ⟨.linear, 9, 4, none⟩,
    ⟨.setValueAtTime, 3, 5, none⟩] :=
  ⟨by simp [Simple], by simp, by norm_num [Sorted], by simp, by simp⟩

example : InTime (V := ℚ) (1 : ℚ) 4 0 [setAt 5 2, .block, setAt 7 4, setAt 8 6, .block] ∧
    (demo 1 [setAt 5 2, .block, setAt 7 4, setAt 8 6, .block]).map (·.buffer) = some [7, 7, 8, 8] := by
  refine ⟨?_, by decide +kernel⟩
  norm_num [InTime, setAt]

end Verif.Param
