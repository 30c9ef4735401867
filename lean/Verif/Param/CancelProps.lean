import Verif.Param.StartProps

/-!
# C30, C31: cancelling scheduled values
-/

namespace Verif.Param

section
variable {K V : Type} [Field K] [LinearOrder K] [IsStrictOrderedRing K] [FloorSemiring K]

/-! ## Lists -/

omit [IsStrictOrderedRing K] [FloorSemiring K] in
theorem split_lt {l : List (Ev K V)} (h : Sorted l) (t : K) :
    l.filter (fun q => q.time < t) ++ l.filter (fun q => t ≤ q.time) = l := by
  induction l with
  | nil => rfl
  | cons a l ih =>
    obtain ⟨h1, h2⟩ := List.pairwise_cons.1 h
    by_cases ha : a.time < t
    · simp [ha, not_le.2 ha, ih h2]
    · have hnil : l.filter (fun q => q.time < t) = [] := by
        rw [List.filter_eq_nil_iff]
        intro x hx
        have := h1 x hx
        simp only [decide_eq_true_eq]
        exact fun hlt => ha (lt_of_le_of_lt this hlt)
      have := ih h2
      rw [hnil] at this
      simp only [List.nil_append] at this
      simp [ha, not_lt.1 ha, hnil, this]

omit [LinearOrder K] [IsStrictOrderedRing K] [FloorSemiring K] in
theorem linked_left {A : Arith K V} {last : Option (Ev K V)} {a b : List (Ev K V)}
    (h : Linked A last (a ++ b)) : Linked A last a := by
  induction a generalizing last with
  | nil => trivial
  | cons e a ih => exact ⟨h.1, ih h.2⟩

omit [LinearOrder K] [IsStrictOrderedRing K] [FloorSemiring K] in
theorem linked_append' {A : Arith K V} {v : V} {last : Option (Ev K V)} {a b : List (Ev K V)}
    (h1 : Linked A last a) (h2 : Linked A (consume A v last a).2 b) : Linked A last (a ++ b) := by
  induction a generalizing v last with
  | nil => exact h2
  | cons e a ih => exact ⟨h1.1, ih h1.2 h2⟩

omit [IsStrictOrderedRing K] [FloorSemiring K] in
theorem Schedule.prefix {A : Arith K V} {as bs : List (Ev K V)} (h : Schedule A (as ++ bs)) : Schedule A as :=
  ⟨fun x hx => h.simple x (by simp [hx]), fun x hx => h.plain x (by simp [hx]),
    (List.pairwise_append.1 h.sorted).1,
    fun x hx => h.head x (by
      cases as with
      | nil => simp at hx
      | cons a as => simpa using hx),
    h.exps.left_of_append⟩

theorem run_cases {A : Arith K V} {dt : K} {count : Nat} {t s : Sys K V} {as bs : List (Op K V)}
    (h : run A dt count t (as ++ bs) = .ok s) :
    ∃ u, run A dt count t as = .ok u ∧ run A dt count u bs = .ok s := by
  rw [run_append] at h
  cases hu : run A dt count t as with
  | ok u => rw [hu] at h; exact ⟨u, rfl, h⟩
  | panic => rw [hu] at h; cases h
  | fuel => rw [hu] at h; cases h

theorem run_cons_cases {A : Arith K V} {dt : K} {count : Nat} {t s : Sys K V} {op : Op K V} {ops : List (Op K V)}
    (h : run A dt count t (op :: ops) = .ok s) :
    ∃ u, step A dt count t op = .ok u ∧ run A dt count u ops = .ok s := by
  rw [run] at h
  cases hu : step A dt count t op with
  | ok u => rw [hu] at h; exact ⟨u, rfl, h⟩
  | panic => rw [hu] at h; cases h
  | fuel => rw [hu] at h; cases h

/-- Without a ramp after them, later events have no influence on frames before them. -/
theorem denote_drop (A : Arith K V) (dt : K) {n : Nat} {v : V} {last : Option (Ev K V)}
    {as bs : List (Ev K V)} (h : ∀ b, bs.head? = some b → b.isRamp = false ∧ n < frameOf dt b.stop) :
    denote A dt n v last (as ++ bs) = denote A dt n v last as := by
  induction as generalizing v last with
  | nil =>
    cases bs with
    | nil => rfl
    | cons b bs =>
      obtain ⟨h1, h2⟩ := h b rfl
      simp [denote, h2, before, h1]
  | cons a as ih =>
    simp only [List.cons_append, denote]
    split
    · rfl
    · exact ih

/-! ## C30 -/

omit [IsStrictOrderedRing K] in
/-- C30: `cancelScheduledValues(t)` removes exactly the pending events with time `≥ t` and keeps the order
of the others, for all timelines. -/
theorem C30_timeline {p p' : Proc K V} {e : Ev K V} (hk : e.kind = .cancel) (h : handle p e = .ok p') :
    p'.timeline = p.timeline.filter fun q => q.time < e.time := by
  simp only [handle, hk] at h
  cases hp : p.timeline with
  | nil => rw [hp] at h; cases h; simp [hp]
  | cons c rest =>
    rw [hp] at h
    simp only at h
    split at h
    · split at h
      · cases h
      · cases h; rfl
    · cases h; rfl

/-- The state after `cancelScheduledValues(t)` while a schedule is rendered: as if the events from `t` on had
not been scheduled. -/
theorem Rendering.cancel {A : Arith K V} {dt : K} {count : Nat} {v : V} {es : List (Ev K V)}
    (hes : Schedule A es) {s s' : Sys K V} (hr : Rendering A dt v es s) {e : Ev K V} (hk : e.kind = .cancel)
    (ht : s.frame * dt < e.time) (h : step A dt count s (.event e) = .ok s') :
    Rendering A dt v (es.filter fun q => q.time < e.time) s' ∧ s'.frame = s.frame := by
  obtain ⟨done, h1, h2, h3⟩ := hr.split
  have hl := hr.linked'
  have hplain : ∀ x ∈ s.p.timeline, x.cancelTime = none := fun x hx => hes.plain x (by rw [h1]; simp [hx])
  have hplaind : ∀ x ∈ done, x.cancelTime = none := fun x hx => hes.plain x (by rw [h1]; simp [hx])
  have hsort : Sorted s.p.timeline := hes.sorted.sublist (by rw [h1]; exact List.sublist_append_right _ _)
  have hdone : done.filter (fun q => q.time < e.time) = done := by
    rw [List.filter_eq_self]
    intro x hx
    have := h3 x hx
    rw [stop_plain (hplaind x hx)] at this
    simpa using lt_of_le_of_lt this ht
  have hes' : es.filter (fun q => q.time < e.time) =
      done ++ s.p.timeline.filter fun q => q.time < e.time := by
    rw [h1, List.filter_append, hdone]
  have hpre : Schedule A (es.filter fun q => q.time < e.time) :=
    Schedule.prefix (bs := es.filter fun q => e.time ≤ q.time) (by rw [split_lt hes.sorted]; exact hes)
  have mk : ∀ w, ((∃ x, (s.p.timeline.filter fun q => q.time < e.time).head? = some x ∧ x.isRamp = true) ∨
      w = (consume A v none done).1) →
      Rendering A dt v (es.filter fun q => q.time < e.time)
        ⟨{ s.p with intrinsic := w, timeline := s.p.timeline.filter fun q => q.time < e.time }, s.frame⟩ := by
    intro w hw
    exact ⟨hpre.simple.steps, sortedStop_plain hpre.plain hpre.sorted, hpre.linked, hr.aRate,
      ⟨done, hes', ⟨h2.1, hw⟩, h3⟩, fun x hx => hr.ahead x (List.mem_filter.1 hx).1⟩
  simp only [step, handle, hk] at h
  cases hp : s.p.timeline with
  | nil =>
    rw [hp] at h
    simp only [Res.bind] at h
    cases h
    have := mk s.p.intrinsic (by
      rcases h2.2 with ⟨x, hx, _⟩ | h2
      · rw [hp] at hx; simp at hx
      · exact .inr h2)
    rw [hp] at this
    simp only [List.filter_nil] at this
    rw [show s = ⟨{ s.p with timeline := [] }, s.frame⟩ by rw [← hp]]
    exact ⟨this, rfl⟩
  | cons c rest =>
    rw [hp] at h hsort hl
    simp only at h
    by_cases hc : (c.isRamp && decide (e.time ≤ c.time)) = true
    · rw [if_pos hc] at h
      simp only [Bool.and_eq_true, decide_eq_true_eq] at hc
      cases hlast : s.p.last with
      | none => rw [hlast] at h; cases h
      | some l0 =>
        rw [hlast] at h
        simp only [Res.bind] at h
        cases h
        have := mk l0.value (.inr (by
          have h2' := h2.1
          rw [hlast] at h2'
          cases done with
          | nil => cases h2'
          | cons d done =>
            obtain ⟨x, hx⟩ := consume_some A v none (a := d :: done) (by simp)
            rw [hx] at h2' ⊢
            cases h2'
            rfl))
        rw [hp] at this
        simp only [hlast] at this
        exact ⟨this, rfl⟩
    · rw [if_neg hc] at h
      simp only [Res.bind] at h
      cases h
      have := mk s.p.intrinsic (by
        rcases h2.2 with ⟨x, hx, hxr⟩ | h2
        · rw [hp] at hx
          simp only [List.head?_cons, Option.some.injEq] at hx
          subst hx
          left
          refine ⟨c, ?_, hxr⟩
          rw [hp, List.filter_cons_of_pos]
          · rfl
          · simpa [hxr] using hc
        · exact .inr h2)
      rw [hp] at this
      exact ⟨this, rfl⟩

/-- C30 for the values: schedule `es` (set value events and ramps in time order), render `k` quanta, call
`cancelScheduledValues(t)` with `t` after the current time, render `m + 1` quanta. Every frame rendered after
the call has the value it has when only the events of `es` with time `< t` are scheduled. Missing: target and
curve events, and `t` in the past; the second half of the claim is `C30_unaffected_partial`. -/
theorem C30_values_partial {A : Arith K V} {dt : K} (hdt : 0 < dt) {count : Nat} (hcount : 2 ≤ count)
    {v c : V} {es : List (Ev K V)} (hes : Schedule A es) (hpos : ∀ e ∈ es, 0 ≤ e.time) {k m : Nat}
    {s s' : Sys K V} {e : Ev K V} (hk : e.kind = .cancel) (ht : ((k * count : Nat) : K) * dt < e.time)
    (h : run A dt count { p := { intrinsic := v, current := c } }
      (es.map Op.event ++ (List.replicate k .block ++ (.event e :: List.replicate (m + 1) .block))) = .ok s)
    (h' : run A dt count { p := { intrinsic := v, current := c } }
      ((es.filter fun q => q.time < e.time).map Op.event ++ List.replicate (k + m + 1) .block) = .ok s')
    {j : Nat} (hj : j < count) : s.p.valueAt j = s'.p.valueAt j := by
  obtain ⟨t1, r1, h⟩ := run_cases h
  rw [run_schedule hes] at r1
  cases r1
  obtain ⟨t2, r2, h⟩ := run_cases h
  obtain ⟨q1, q2⟩ := rendering_run hdt hcount (rendering_start hes hpos) r2
  obtain ⟨t3, hst, h⟩ := run_cons_cases h
  have hf2 : t2.frame = k * count := by rw [q2]; simp
  obtain ⟨q3, q4⟩ := q1.cancel hes hk (by rw [hf2]; exact ht) hst
  rw [rendering_blocks hdt hcount q3 h j hj]
  have hpre : Schedule A (es.filter fun q => q.time < e.time) :=
    Schedule.prefix (bs := es.filter fun q => e.time ≤ q.time) (by rw [split_lt hes.sorted]; exact hes)
  rw [run_blocks hdt hcount hpre (fun x hx => hpos x (List.mem_filter.1 hx).1) h' j hj, q4, hf2]
  congr 2
  ring

/-- C30, values before the cancel time: in the situation of `C30_values_partial` the frames (at least half a
frame) before `t` have the value they have without the call, unless the first event that is removed is a ramp
(then `C30_negated_ramp`). -/
theorem C30_unaffected_partial {A : Arith K V} {dt : K} (hdt : 0 < dt) {count : Nat} (hcount : 2 ≤ count)
    {v c : V} {as bs : List (Ev K V)} (hes : Schedule A (as ++ bs)) (hpos : ∀ e ∈ as ++ bs, 0 ≤ e.time)
    {k m : Nat} {s s' : Sys K V} {e : Ev K V} (hk : e.kind = .cancel)
    (ht : ((k * count : Nat) : K) * dt < e.time)
    (has : ∀ a ∈ as, a.time < e.time) (hbs : ∀ b ∈ bs, e.time ≤ b.time)
    (hhead : ∀ b, bs.head? = some b → b.isRamp = false)
    (h : run A dt count { p := { intrinsic := v, current := c } }
      ((as ++ bs).map Op.event ++ (List.replicate k .block ++ (.event e :: List.replicate (m + 1) .block))) =
        .ok s)
    (h' : run A dt count { p := { intrinsic := v, current := c } }
      ((as ++ bs).map Op.event ++ List.replicate (k + m + 1) .block) = .ok s')
    {j : Nat} (hj : j < count) (hn : (((k + m) * count + j : Nat) : K) * dt < e.time - dt / 2) :
    s.p.valueAt j = s'.p.valueAt j := by
  obtain ⟨t1, r1, h⟩ := run_cases h
  rw [run_schedule hes] at r1
  cases r1
  obtain ⟨t2, r2, h⟩ := run_cases h
  obtain ⟨q1, q2⟩ := rendering_run hdt hcount (rendering_start hes hpos) r2
  obtain ⟨t3, hst, h⟩ := run_cons_cases h
  have hf2 : t2.frame = k * count := by rw [q2]; simp
  obtain ⟨q3, q4⟩ := q1.cancel hes hk (by rw [hf2]; exact ht) hst
  rw [rendering_blocks hdt hcount q3 h j hj, run_blocks hdt hcount hes hpos h' j hj, q4, hf2,
    ← Nat.add_mul]
  congr 1
  have hf : (as ++ bs).filter (fun q => q.time < e.time) = as := by
    rw [List.filter_append, List.filter_eq_self.2, List.filter_eq_nil_iff.2]
    · simp
    · intro b hb; simpa using hbs b hb
    · intro a ha; simpa using has a ha
  rw [hf]
  symm
  apply denote_drop
  intro b hb
  have hmem : b ∈ bs := List.mem_of_head? hb
  refine ⟨hhead b hb, ?_⟩
  rw [stop_plain (hes.plain b (by simp [hmem]))]
  exact lt_of_lt_of_le (le_frameOf hdt hn) (frameOf_mono hdt (hbs b hmem))

/-! ## C31 -/

/-- A schedule with the hold at `tc` applied: the events up to `tc`, then the ramp towards the next event
(if it is a ramp), which ends at `tc`. -/
def holdList (as bs : List (Ev K V)) (tc : K) : List (Ev K V) :=
  as ++ match bs with
    | [] => []
    | b :: _ => if b.isRamp then [{ b with cancelTime := some tc }] else []

omit [IsStrictOrderedRing K] in
theorem cancelHold_simple {tl : List (Ev K V)} (hs : Steps tl) (hp : ∀ e ∈ tl, e.cancelTime = none) {tc : K} :
    cancelHold tl tc = holdList (tl.filter fun q => q.time ≤ tc) (tl.filter fun q => tc < q.time) tc := by
  unfold cancelHold holdList
  dsimp only
  have hb : (tl.filter fun q => q.time ≤ tc).filter (fun q => q.cancelTime.getD q.time ≤ tc) =
      tl.filter fun q => q.time ≤ tc := by
    rw [List.filter_eq_self]
    intro x hx
    rw [List.mem_filter] at hx
    simpa [hp x hx.1] using hx.2
  cases ha : tl.filter (fun q => tc < q.time) with
  | nil =>
    simp only [List.append_nil]
    cases hl : (tl.filter fun q => q.time ≤ tc).getLast? with
    | none => simpa using hb
    | some e1 =>
      simp only
      have hmem : e1 ∈ tl := (List.mem_filter.1 (List.mem_of_getLast? hl)).1
      have hne : tl.filter (fun q => q.time ≤ tc) ≠ [] := by
        intro h0; rw [h0] at hl; simp at hl
      rw [List.getLast?_eq_getLast_of_ne_nil hne] at hl
      cases hl
      rcases hs _ hmem with ⟨hk | hk, _⟩ | hk | hk <;> simp only [hk] <;>
        rw [List.dropLast_append_getLast hne] <;> exact hb
  | cons e2 more =>
    simp only
    have hmore : ∀ x ∈ e2 :: more, ¬ x.time ≤ tc ∧ x.cancelTime = none := by
      intro x hx
      rw [← ha, List.mem_filter] at hx
      exact ⟨not_le.2 (by simpa using hx.2), hp x hx.1⟩
    have hmore' : more.filter (fun q => q.cancelTime.getD q.time ≤ tc) = [] := by
      rw [List.filter_eq_nil_iff]
      intro x hx
      simp [(hmore x (by simp [hx])).2, not_le.1 (hmore x (by simp [hx])).1]
    rw [List.filter_append, hb]
    congr 1
    split
    · rw [List.filter_cons_of_pos (by simp), hmore']
    · rw [List.filter_cons_of_neg (by simp [(hmore e2 (by simp)).2, not_le.1 (hmore e2 (by simp)).1]), hmore']

/-- The state after `cancelAndHoldAtTime(tc)` while a schedule is rendered. -/
theorem Rendering.hold {A : Arith K V} {dt : K} {count : Nat} {v : V} {as bs : List (Ev K V)}
    (hes : Schedule A (as ++ bs)) {s s' : Sys K V} (hr : Rendering A dt v (as ++ bs) s) {e : Ev K V}
    (hk : e.kind = .cancelHold) (ht : s.frame * dt ≤ e.time) (has : ∀ a ∈ as, a.time ≤ e.time)
    (hbs : ∀ b ∈ bs, e.time < b.time) (h : step A dt count s (.event e) = .ok s') :
    Rendering A dt v (holdList as bs e.time) s' ∧ s'.frame = s.frame ∧ Sorted s'.p.timeline ∧
      ∀ x ∈ s'.p.timeline, ∃ y ∈ as ++ bs, x.time = y.time := by
  obtain ⟨done, h1, h2, h3⟩ := hr.split
  have hplain : ∀ x ∈ s.p.timeline, x.cancelTime = none := fun x hx => hes.plain x (by rw [h1]; simp [hx])
  have hplaind : ∀ x ∈ done, x.cancelTime = none := fun x hx => hes.plain x (by rw [h1]; simp [hx])
  have hsort : Sorted s.p.timeline := hes.sorted.sublist (by rw [h1]; exact List.sublist_append_right _ _)
  have hsimple : Steps s.p.timeline := fun x hx => hes.simple.steps x (by rw [h1]; simp [hx])
  simp only [step, handle, hk, Res.bind, sort_eq hsort, cancelHold_simple hsimple hplain] at h
  cases h
  -- the two halves
  have hdone : ∀ x ∈ done, x.time ≤ e.time := by
    intro x hx
    have := h3 x hx
    rw [stop_plain (hplaind x hx)] at this
    exact le_trans this ht
  have hA : as = done ++ s.p.timeline.filter fun q => q.time ≤ e.time := by
    have := congrArg (List.filter fun q : Ev K V => q.time ≤ e.time) h1
    rw [List.filter_append, List.filter_append, List.filter_eq_self.2 (fun a ha => by simpa using has a ha),
      List.filter_eq_nil_iff.2 (fun b hb => by simpa using hbs b hb),
      List.filter_eq_self.2 (fun d hd => by simpa using hdone d hd), List.append_nil] at this
    exact this
  have hB : bs = s.p.timeline.filter fun q => e.time < q.time := by
    have := congrArg (List.filter fun q : Ev K V => e.time < q.time) h1
    rw [List.filter_append, List.filter_append, List.filter_eq_nil_iff.2 (fun a ha => by simpa using has a ha),
      List.filter_eq_self.2 (fun b hb => by simpa using hbs b hb),
      List.filter_eq_nil_iff.2 (fun d hd => by simpa using hdone d hd), List.nil_append, List.nil_append] at this
    exact this
  have hlist : holdList as bs e.time = done ++ holdList (s.p.timeline.filter fun q => q.time ≤ e.time)
      (s.p.timeline.filter fun q => e.time < q.time) e.time := by
    rw [← hB, hA]
    simp only [holdList, List.append_assoc]
  have hpre : Schedule A as := Schedule.prefix hes
  have hlinked : Linked A none (as ++ bs) := hes.linked
  have hmem : ∀ x ∈ holdList as bs e.time, x ∈ as ∨
      ∃ b ∈ bs, b.isRamp = true ∧ x = { b with cancelTime := some e.time } := by
    intro x hx
    unfold holdList at hx
    rcases List.mem_append.1 hx with hx | hx
    · exact .inl hx
    · cases bs with
      | nil => simp at hx
      | cons b bs =>
        simp only at hx
        split at hx
        · rename_i hb
          simp at hx
          exact .inr ⟨b, by simp, hb, hx⟩
        · simp at hx
  have hsort' : Sorted (holdList (s.p.timeline.filter fun q => q.time ≤ e.time)
      (s.p.timeline.filter fun q => e.time < q.time) e.time) := by
    unfold holdList Sorted
    rw [List.pairwise_append]
    refine ⟨hsort.sublist List.filter_sublist, ?_, ?_⟩
    · cases s.p.timeline.filter fun q => e.time < q.time with
      | nil => simp
      | cons b bs => simp only; split <;> simp
    · intro a ha x hx
      cases hf : s.p.timeline.filter fun q => e.time < q.time with
      | nil => rw [hf] at hx; simp at hx
      | cons b bs =>
        rw [hf] at hx
        simp only at hx
        split at hx
        · simp at hx
          subst hx
          have h1 : b ∈ s.p.timeline.filter fun q => e.time < q.time := by rw [hf]; simp
          rw [List.mem_filter] at ha h1
          have ha := ha.2
          have h1 := h1.2
          simp only [decide_eq_true_eq] at ha h1
          exact le_trans ha h1.le
        · simp at hx
  refine ⟨⟨?_, ?_, ?_, hr.aRate, ⟨done, hlist, ⟨h2.1, ?_⟩, h3⟩, ?_⟩, rfl, hsort', ?_⟩
  rotate_right
  · intro x hx
    rcases hmem x (by rw [hlist]; simp only at hx; simp [hx]) with hx' | ⟨b, hb, hbr, rfl⟩
    · exact ⟨x, by simp [hx'], rfl⟩
    · exact ⟨b, by simp [hb], rfl⟩
  · intro x hx
    rcases hmem x hx with hx | ⟨b, hb, hbr, rfl⟩
    · exact hpre.simple.steps x hx
    · right
      unfold Ev.isRamp at hbr
      split at hbr
      · left; assumption
      · right; assumption
      · cases hbr
  · unfold holdList SortedStop
    rw [List.pairwise_append]
    refine ⟨sortedStop_plain hpre.plain hpre.sorted, ?_, ?_⟩
    · cases bs with
      | nil => simp
      | cons b bs => simp only; split <;> simp
    · intro a ha x hx
      cases bs with
      | nil => simp at hx
      | cons b bs =>
        simp only at hx
        split at hx
        · simp at hx
          subst hx
          rw [stop_plain (hpre.plain a ha)]
          exact has a ha
        · simp at hx
  · unfold holdList
    apply linked_append' (v := v) (linked_left hlinked)
    have := linked_append (v := v) hlinked
    cases bs with
    | nil => trivial
    | cons b bs =>
      simp only
      split
      · exact ⟨this.1, trivial⟩
      · trivial
  · rcases h2.2 with ⟨x, hx, hxr⟩ | h2
    · left
      cases hp : s.p.timeline with
      | nil => rw [hp] at hx; simp at hx
      | cons c rest =>
        rw [hp] at hx
        simp only [List.head?_cons, Option.some.injEq] at hx
        subst hx
        by_cases hc : c.time ≤ e.time
        · refine ⟨c, ?_, hxr⟩
          simp only [holdList]
          rw [List.filter_cons_of_pos (by simpa using hc)]
          rfl
        · rw [hp] at hsort
          have hnil : (c :: rest).filter (fun q => q.time ≤ e.time) = [] := by
            rw [List.filter_eq_nil_iff]
            intro y hy
            rcases List.mem_cons.1 hy with rfl | hy
            · simpa using hc
            · have := (List.pairwise_cons.1 hsort).1 y hy
              simp only [decide_eq_true_eq, not_le]
              exact lt_of_lt_of_le (not_le.1 hc) this
          refine ⟨{ c with cancelTime := some e.time }, ?_, hxr⟩
          simp only [holdList, hnil]
          rw [List.filter_cons_of_pos (by simpa using hc)]
          simp [hxr]
    · exact .inr h2
  · intro x hx
    rcases hmem x (by rw [hlist]; simp [hx]) with hx' | ⟨b, hb, hbr, rfl⟩
    · simp only at hx
      unfold holdList at hx
      rcases List.mem_append.1 hx with hx | hx
      · exact hr.ahead x (List.mem_filter.1 hx).1
      · exfalso
        have hc := hpre.plain x hx'
        cases hf : s.p.timeline.filter (fun q => e.time < q.time) with
        | nil => rw [hf] at hx; simp at hx
        | cons b bs =>
          rw [hf] at hx
          simp only at hx
          split at hx
          · simp at hx; subst hx; simp at hc
          · simp at hx
    · exact ht

/-- Frames before the hold. -/
theorem denote_hold_before (A : Arith K V) {dt : K} {n : Nat} {v : V} {last : Option (Ev K V)}
    {as bs : List (Ev K V)} {tc : K} (hn : n < frameOf dt tc) (hb : ∀ b ∈ bs, n < frameOf dt b.stop) :
    denote A dt n v last (holdList as bs tc) = denote A dt n v last (as ++ bs) := by
  unfold holdList
  induction as generalizing v last with
  | nil =>
    cases bs with
    | nil => rfl
    | cons b bs =>
      have h1 := hb b (by simp)
      simp only [List.nil_append]
      split
      · rename_i hr
        have h2 : n < frameOf dt ({ b with cancelTime := some tc } : Ev K V).stop := hn
        rw [denote, if_pos h2, denote, if_pos h1]
        rfl
      · rename_i hr
        simp [denote, h1, before, hr]
  | cons a as ih =>
    simp only [List.cons_append, denote]
    split
    · rfl
    · exact ih

/-- Frames from the hold on. -/
theorem denote_hold_after (A : Arith K V) {dt : K} (hdt : 0 < dt) {n : Nat} {v : V}
    {as bs : List (Ev K V)} {tc : K} (hplain : ∀ a ∈ as, a.cancelTime = none)
    (has : ∀ a ∈ as, a.time ≤ tc) (hn : frameOf dt tc ≤ n) :
    denote A dt n v none (holdList as bs tc) = (consume A v none (holdList as bs tc)).1 := by
  have := denote_consume A dt (n := n) (v := v) (last := none) (done := holdList as bs tc) (l := []) ?_
  · simpa [denote] using this
  · intro x hx
    refine le_trans ?_ hn
    unfold holdList at hx
    rcases List.mem_append.1 hx with hx | hx
    · rw [stop_plain (hplain x hx)]
      exact frameOf_mono hdt (has x hx)
    · cases bs with
      | nil => simp at hx
      | cons b bs =>
        simp only at hx
        split at hx
        · simp at hx; subst hx; exact le_rfl
        · simp at hx

/-- C31: schedule `as ++ bs` (set value events and ramps in time order, those of `as` at or before `tc`, those
of `bs` after), render `k` quanta, call `cancelAndHoldAtTime(tc)` with `tc = q * dt` the time of frame `q`, not
in the past, and render `m + 1` more quanta. Frames before `q` have the value they have without the call, all
frames from `q` on the one of frame `q` without the call. Missing: target and curve events
(`C31_negated_target`), events scheduled later (`C31_then_partial`, `C31_negated_later`), several holds
(`C31_negated_twice`), events in the half frame after `tc`. -/
theorem C31_hold_partial {A : Arith K V} {dt : K} (hdt : 0 < dt) {count : Nat} (hcount : 2 ≤ count)
    {v c : V} {as bs : List (Ev K V)} (hes : Schedule A (as ++ bs)) (hpos : ∀ e ∈ as ++ bs, 0 ≤ e.time)
    {k m q : Nat} {s : Sys K V} {e : Ev K V} (hk : e.kind = .cancelHold) (he : e.time = q * dt)
    (hq : k * count ≤ q)
    (has : ∀ a ∈ as, a.time ≤ e.time) (hbs : ∀ b ∈ bs, e.time + dt / 2 ≤ b.time)
    (h : run A dt count { p := { intrinsic := v, current := c } }
      ((as ++ bs).map Op.event ++ (List.replicate k .block ++ (.event e :: List.replicate (m + 1) .block))) =
        .ok s) {j : Nat} (hj : j < count) :
    ((k + m) * count + j < q → ∀ s', run A dt count { p := { intrinsic := v, current := c } }
        ((as ++ bs).map Op.event ++ List.replicate (k + m + 1) .block) = .ok s' →
      s.p.valueAt j = s'.p.valueAt j) ∧
    (q ≤ (k + m) * count + j → ∀ i j' s', j' < count → i * count + j' = q →
      run A dt count { p := { intrinsic := v, current := c } }
        ((as ++ bs).map Op.event ++ List.replicate (i + 1) .block) = .ok s' →
      s.p.valueAt j = s'.p.valueAt j') := by
  obtain ⟨t1, r1, h⟩ := run_cases h
  rw [run_schedule hes] at r1
  cases r1
  obtain ⟨t2, r2, h⟩ := run_cases h
  obtain ⟨q1, q2⟩ := rendering_run hdt hcount (rendering_start hes hpos) r2
  obtain ⟨t3, hst, h⟩ := run_cons_cases h
  have hf2 : t2.frame = k * count := by rw [q2]; simp
  have hbs' : ∀ b ∈ bs, e.time < b.time := fun b hb => by linarith [hbs b hb]
  obtain ⟨q3, q4, _, _⟩ := q1.hold hes hk
    (by rw [hf2, he]; exact mul_le_mul_of_nonneg_right (by exact_mod_cast hq) hdt.le) has hbs' hst
  have hfq : frameOf dt e.time = q := by rw [he, frameOf_nat hdt]
  have hfb : ∀ b ∈ bs, q < frameOf dt b.stop := by
    intro b hb
    rw [stop_plain (hes.plain b (by simp [hb]))]
    have := hbs b hb
    rw [he] at this
    unfold frameOf
    rw [← Nat.succ_le_iff]
    apply Nat.le_floor
    have : (q : K) + 1 / 2 ≤ b.time / dt := by
      rw [le_div_iff₀ hdt]; linarith
    push_cast
    linarith
  have hv := rendering_blocks hdt hcount q3 h j hj
  rw [q4, hf2, ← Nat.add_mul] at hv
  refine ⟨fun hlt s' h' => ?_, fun hge i j' s' hj' hij h' => ?_⟩
  · rw [hv, run_blocks hdt hcount hes hpos h' j hj]
    congr 1
    exact denote_hold_before A (by rw [hfq]; exact hlt) (fun b hb => lt_trans hlt (hfb b hb))
  · rw [hv, run_blocks hdt hcount hes hpos h' j' hj', hij]
    congr 1
    rw [denote_hold_after A hdt (fun a ha => hes.plain a (by simp [ha])) has (by rw [hfq]; exact hge)]
    -- the value of frame `q` without the call
    rw [denote_consume A dt (done := as) (fun a ha => by
      rw [stop_plain (hes.plain a (by simp [ha])), ← hfq]
      exact frameOf_mono hdt (has a ha))]
    unfold holdList
    rw [consume_append]
    have hlk := linked_append (v := v) (hes.linked)
    cases bs with
    | nil => rfl
    | cons b bs =>
      rw [denote, if_pos (hfb b (by simp))]
      simp only
      split
      · rename_i hr
        obtain ⟨l0, hl0, _⟩ := hlk.1 hr
        simp only [consume, settle, hl0, before, hr, ← he]
        rfl
      · rename_i hr
        simp [consume, before, hr]

/-- Scheduling one more event, after all others, while rendering. -/
theorem Rendering.event {A : Arith K V} {dt : K} {count : Nat} {v : V} {es : List (Ev K V)}
    {s s' : Sys K V} (hr : Rendering A dt v es s) (hsort : Sorted s.p.timeline) (hne : es ≠ []) {f : Ev K V}
    (hk : f.kind = .setValueAtTime ∨ f.kind = .linear) (hc : f.cancelTime = none)
    (ht : s.frame * dt ≤ f.time) (hes : ∀ x ∈ es, x.stop ≤ f.time) (htl : ∀ x ∈ s.p.timeline, x.time ≤ f.time)
    (h : step A dt count s (.event f) = .ok s') :
    Rendering A dt v (es ++ [f]) s' ∧ s'.frame = s.frame := by
  obtain ⟨done, h1, h2, h3⟩ := hr.split
  have hkr : f.kind = .setValueAtTime ∨ f.isRamp = true := hk.imp id fun h => by simp [Ev.isRamp, h]
  have hov : overlaps s.p.timeline f = false :=
    overlaps_simple (fun x hx => hr.simple x (by rw [h1]; simp [hx])) hkr
  have himp : implicit s.p f = [] := by
    unfold implicit
    dsimp only
    split
    · rename_i hnil
      rcases hk with hk | hk
      · simp [hk]
      · simp only [hk]
        rw [hnil, List.append_nil] at h1
        obtain ⟨x, hx⟩ := consume_some A v none (a := done) (by rw [← h1]; exact hne)
        rw [h2.1, hx]
        simp
    · rfl
  have hset : setIntrinsic s.p f = s.p.intrinsic := by
    unfold setIntrinsic
    rcases hk with hk | hk <;> simp [hk]
  have hsort' : Sorted (s.p.timeline ++ [f]) := by
    unfold Sorted
    rw [List.pairwise_append]
    refine ⟨hsort, by simp, ?_⟩
    intro a ha b hb
    simp at hb
    subst hb
    exact htl a ha
  have hh : handle s.p f = insert s.p f := by
    rcases hk with hk | hk <;> simp only [handle, hk]
  simp only [step, hh, insert, hov, Bool.false_eq_true, if_false, Res.bind, himp, hset, List.append_nil,
    sort_eq hsort'] at h
  cases h
  refine ⟨⟨?_, ?_, ?_, hr.aRate, ⟨done, ?_, ⟨h2.1, ?_⟩, h3⟩, ?_⟩, rfl⟩
  · intro x hx
    rcases List.mem_append.1 hx with hx | hx
    · exact hr.simple x hx
    · simp at hx
      subst hx
      rcases hk with hk | hk
      · exact .inl ⟨.inl hk, hc⟩
      · exact .inr (.inl hk)
  · unfold SortedStop
    rw [List.pairwise_append]
    refine ⟨hr.sorted, by simp, ?_⟩
    intro a ha b hb
    simp at hb
    subst hb
    rw [stop_plain hc]
    exact hes a ha
  · refine linked_append' (v := v) hr.linked ⟨fun hrmp => ?_, trivial⟩
    obtain ⟨x, hx⟩ := consume_some A v none (a := es) hne
    refine ⟨x, by rw [hx], fun hk' => ?_⟩
    rcases hk with hk | hk <;> rw [hk] at hk' <;> cases hk'
  · rw [h1]
    simp
  · rcases h2.2 with ⟨x, hx, hxr⟩ | h2
    · left
      refine ⟨x, ?_, hxr⟩
      simp only
      cases hp : s.p.timeline with
      | nil => rw [hp] at hx; simp at hx
      | cons a l => rw [hp] at hx; simpa using hx
    · exact .inr h2
  · intro x hx
    rcases List.mem_append.1 hx with hx | hx
    · exact hr.ahead x hx
    · simp at hx
      subst hx
      rw [stop_plain hc]
      exact ht

/-- C31 with an event scheduled after the hold: in the situation of `C31_hold_partial`, with a ramp active at
`tc` (`b`), a set value event or linear ramp `f` is scheduled after the call, not before the original end of
`b` (nor before the other removed events; otherwise `C31_negated_later`). From `tc` to `f.time` the parameter
keeps the value of frame `q` without the call, or goes on a line from this value at `tc` to `f`; from `f.time`
on it has the value of `f`. -/
theorem C31_then_partial {A : Arith K V} {dt : K} (hdt : 0 < dt) {count : Nat} (hcount : 2 ≤ count)
    {v c : V} {as bs : List (Ev K V)} {b : Ev K V} (hes : Schedule A (as ++ b :: bs))
    (hpos : ∀ e ∈ as ++ b :: bs, 0 ≤ e.time)
    {k m q : Nat} {s : Sys K V} {e f : Ev K V} (hk : e.kind = .cancelHold) (he : e.time = q * dt)
    (hq : k * count ≤ q)
    (has : ∀ a ∈ as, a.time ≤ e.time) (hbs : ∀ x ∈ b :: bs, e.time + dt / 2 ≤ x.time) (hb : b.isRamp = true)
    (hf : f.kind = .setValueAtTime ∨ f.kind = .linear) (hfc : f.cancelTime = none)
    (hft : ∀ x ∈ b :: bs, x.time ≤ f.time)
    (h : run A dt count { p := { intrinsic := v, current := c } }
      ((as ++ b :: bs).map Op.event ++
        (List.replicate k .block ++ (.event e :: .event f :: List.replicate (m + 1) .block))) = .ok s)
    {j : Nat} (hj : j < count) (hge : q ≤ (k + m) * count + j)
    -- `w`: the value of frame `q` without the call
    {i j' : Nat} {s' : Sys K V} {w : V} (hj' : j' < count) (hij : i * count + j' = q)
    (h' : run A dt count { p := { intrinsic := v, current := c } }
        ((as ++ b :: bs).map Op.event ++ List.replicate (i + 1) .block) = .ok s')
    (hw : s'.p.valueAt j' = some w) :
    ((k + m) * count + j < frameOf dt f.time →
      (f.kind = .setValueAtTime → s.p.valueAt j = some w) ∧
      (f.kind = .linear → s.p.valueAt j =
        some (A.lin e.time (f.time - e.time) w f.value (((k + m) * count + j : Nat) * dt)))) ∧
    (frameOf dt f.time ≤ (k + m) * count + j → s.p.valueAt j = some f.value) := by
  obtain ⟨t1, r1, h⟩ := run_cases h
  rw [run_schedule hes] at r1
  cases r1
  obtain ⟨t2, r2, h⟩ := run_cases h
  obtain ⟨q1, q2⟩ := rendering_run hdt hcount (rendering_start hes hpos) r2
  obtain ⟨t3, hst, h⟩ := run_cons_cases h
  obtain ⟨t4, hst', h⟩ := run_cons_cases h
  have hf2 : t2.frame = k * count := by rw [q2]; simp
  have hbs' : ∀ x ∈ b :: bs, e.time < x.time := fun x hx => by linarith [hbs x hx]
  have het : t2.frame * dt ≤ e.time := by
    rw [hf2, he]; exact mul_le_mul_of_nonneg_right (by exact_mod_cast hq) hdt.le
  obtain ⟨q3, q4, q5, q6⟩ := q1.hold hes hk het has hbs' hst
  have hef : e.time ≤ f.time := le_trans (hbs' b (by simp)).le (hft b (by simp))
  have hlist : holdList as (b :: bs) e.time = as ++ [{ b with cancelTime := some e.time }] := by
    simp [holdList, hb]
  have hstop : ∀ x ∈ holdList as (b :: bs) e.time, x.stop ≤ e.time := by
    intro x hx
    rw [hlist] at hx
    rcases List.mem_append.1 hx with hx | hx
    · rw [stop_plain (hes.plain x (by simp [hx]))]
      exact has x hx
    · simp at hx
      subst hx
      exact le_rfl
  obtain ⟨q7, q8⟩ := q3.event q5 (by rw [hlist]; simp) hf hfc (by rw [q4]; exact le_trans het hef)
    (fun x hx => le_trans (hstop x hx) hef)
    (by
      intro x hx
      obtain ⟨y, hy, hxy⟩ := q6 x hx
      rw [hxy]
      rcases List.mem_append.1 hy with hy | hy
      · exact le_trans (has y hy) hef
      · exact hft y hy) hst'
  have hv := rendering_blocks hdt hcount q7 h j hj
  rw [q8, q4, hf2, ← Nat.add_mul] at hv
  have hfq : frameOf dt e.time = q := by rw [he, frameOf_nat hdt]
  -- `w`
  have hw' : w = (consume A v none (holdList as (b :: bs) e.time)).1 := by
    have := run_blocks hdt hcount hes hpos h' j' hj'
    rw [hij, hw, denote_consume A dt (done := as) (fun a ha => by
      rw [stop_plain (hes.plain a (by simp [ha])), ← hfq]
      exact frameOf_mono hdt (has a ha))] at this
    cases this
    have hqb : q < frameOf dt b.stop := by
      rw [stop_plain (hes.plain b (by simp))]
      have := hbs b (by simp)
      rw [he] at this
      unfold frameOf
      rw [← Nat.succ_le_iff]
      apply Nat.le_floor
      have : (q : K) + 1 / 2 ≤ b.time / dt := by
        rw [le_div_iff₀ hdt]; linarith
      push_cast
      linarith
    obtain ⟨l0, hl0, _⟩ := (linked_append (v := v) hes.linked).1 hb
    rw [hlist, consume_append, denote, if_pos hqb]
    simp only [consume, settle, hl0, before, hb, ← he]
    rfl
  -- the last event is the cancelled ramp
  have hlast : (consume A v none (holdList as (b :: bs) e.time)).2 =
      some { b with time := e.time, value := w, cancelTime := some e.time } := by
    obtain ⟨l0, hl0, _⟩ := (linked_append (v := v) hes.linked).1 hb
    rw [hw', hlist, consume_append]
    simp only [consume, settle, hl0]
  have hd : denote A dt ((k + m) * count + j) v none (holdList as (b :: bs) e.time ++ [f]) =
      denote A dt ((k + m) * count + j) w
        (some { b with time := e.time, value := w, cancelTime := some e.time }) [f] := by
    rw [denote_consume, ← hw', hlast]
    intro x hx
    exact le_trans (frameOf_mono hdt (hstop x hx)) (by rw [hfq]; exact hge)
  rw [hd] at hv
  constructor
  · intro hlt
    rw [denote, if_pos (by rw [stop_plain hfc]; exact hlt)] at hv
    refine ⟨fun hfk => ?_, fun hfk => ?_⟩
    · rw [hv]; simp [before, Ev.isRamp, hfk]
    · rw [hv]; simp [before, Ev.isRamp, Ev.ramp, hfk]
  · intro hle
    rw [denote, if_neg (by rw [stop_plain hfc]; omega)] at hv
    rw [hv]
    simp [denote, settle_plain hfc]

end

/-! ## Witnesses -/

/-- C30 fails for the values before the cancel time during a ramp: ramp from (0, 0) to (10, 10),
`cancelScheduledValues(8)` at time 4. Frames 4 to 7 jump to 0 (they are 4 to 7 without the call). -/
theorem C30_negated_ramp :
    (demo 1 [setAt 0 0, linAt 10 10, .block, cancelAt 8, .block]).map (·.buffer) = some [0] ∧
    (demo 1 [setAt 0 0, linAt 10 10, .block, .block]).map (·.buffer) = some [4, 5, 6, 7] := by decide +kernel

/-- C31 fails for an event between the hold and the original end of the ramp: ramp from (0, 0) to (10, 10),
hold at 4, set value 7 at 6. Frames 4 to 5 should be 4 and frames 6 to 7 should be 7. -/
theorem C31_negated_later :
    (demo 1 [setAt 0 0, linAt 10 10, holdAt 4, setAt 7 6, .block, .block]).map (·.buffer) ≠
      some [4, 4, 7, 7] := by decide +kernel

/-- C31 fails for a second, later hold: it replaces the first one. Hold at 2, then at 6: frames 4 to 7 should
be 2. -/
theorem C31_negated_twice :
    (demo 1 [setAt 0 0, linAt 10 10, holdAt 2, holdAt 6, .block, .block]).map (·.buffer) =
      some [4, 5, 6, 6] := by decide +kernel

/-- C31 fails for a target event followed by a set value event: the hold removes the set value event after
`tc` and leaves the target event as it is, so the parameter goes on approaching the target for ever. Target 8
from time 1 on, set value at 4, hold at 3: the target stays in the timeline without a cancel time. (With any
strictly monotone function for `exp` the values after 3 are not constant; here `1 / (1 - x)`.) -/
theorem C31_negated_target :
    (demo 1 [setAt 0 0, targetAt 8 1 1, setAt 5 4, holdAt 3]).map (fun p => p.timeline.map (·.kind)) =
      some [.setValueAtTime, .target 1] ∧
    (demo 1 [setAt 0 0, targetAt 8 1 1, setAt 5 4, holdAt 3]).map
      (fun p => p.timeline.map (·.cancelTime)) = some [none, none] ∧
    (match run (exact (K := ℚ) (fun x => 1 / (1 - x)) (fun _ _ => 0) (-1000) 1000) 1 4
        { p := { intrinsic := 0, current := 0 } }
        [setAt 0 0, targetAt 8 1 1, setAt 5 4, holdAt 3, .block, .block] with
      | .ok s => some s.p.buffer
      | _ => none) = some [8 - 8 / 4, 8 - 8 / 5, 8 - 8 / 6, 8 - 8 / 7] := by decide +kernel

/-- The hypotheses of the theorems are met: a ramp active at the call, hold in a later quantum, another ramp
after it. -/
example :
    (demo 1 [setAt 0 0, linAt 10 10, .block, holdAt 6, .block]).map (·.buffer) = some [4, 5, 6, 6] ∧
    (demo 1 [setAt 0 0, linAt 10 10, .block, holdAt 6, linAt 0 12, .block, .block]).map (·.buffer) =
      some [4, 3, 2, 1] ∧
    (demo 1 [setAt 0 0, linAt 4 4, setAt 9 6, .block, cancelAt 5, .block]).map (·.buffer) = some [4, 4, 4, 4] ∧
    (demo 1 [setAt 0 0, linAt 4 4, setAt 9 6, .block, .block]).map (·.buffer) = some [4, 4, 9, 9] := by
  decide +kernel

end Verif.Param
