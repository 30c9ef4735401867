import Verif.Param.AccurateProps

/-!
# C28: scheduling automation and panics on the render thread
-/

namespace Verif.Param

section
variable {K V : Type} [Field K] [LinearOrder K] [IsStrictOrderedRing K] [FloorSemiring K]

/-! ## Specification of calls in a safe order -/

/-- The event may be scheduled at time `now`, after the events `L` (automation events and cancel-and-hold
events): ramps and targets after everything else, curves not in the past and free of other events, set
value events not during a curve, cancel-and-hold events in time order. -/
def Allowed (now : K) (L : List (Ev K V)) (e : Ev K V) : Prop :=
  match e.kind with
  | .setValue => True
  | .cancel => True
  | .cancelHold => ∀ q ∈ L, q.kind = .cancelHold → q.time ≤ e.time
  | .setValueAtTime => ∀ q ∈ L, ∀ d vs, q.kind = .curve d vs → e.time ≤ q.time ∨ q.time + d ≤ e.time
  | .curve d _ => now ≤ e.time ∧ ∀ q ∈ L, q.time ≤ e.time ∨ e.time + d ≤ q.time
  | _ => ∀ q ∈ L, q.time ≤ e.time ∧ ∀ d vs, q.kind = .curve d vs → q.time + d ≤ e.time

/-- Events to remember. -/
def remember (L : List (Ev K V)) (e : Ev K V) : List (Ev K V) :=
  match e.kind with
  | .cancel => L
  | _ => L ++ [e]

/-- All events of the operations are scheduled in a safe order. -/
def SafeOrder (dt : K) (count : Nat) : Nat → List (Ev K V) → List (Op K V) → Prop
  | _, _, [] => True
  | f, L, .event e :: ops => Allowed (f * dt) L e ∧ SafeOrder dt count f (remember L e) ops
  | f, L, .rate _ :: ops => SafeOrder dt count f L ops
  | f, L, .block :: ops => SafeOrder dt count (f + count) L ops

/-- All events are sent by a scheduling method. -/
def FromCalls (A : Arith K V) (ops : List (Op K V)) : Prop :=
  ∀ e, Op.event e ∈ ops → ∃ (c : Call K V) (z : V), c.event A z = some e

/-- Curves are read within their bounds. -/
def CurveTotal (A : Arith K V) : Prop :=
  ∀ start dur values t, 0 < dur → 2 ≤ values.length → (A.curve start dur values t).isSome = true

/-! ## Invariant -/

/-- Events whose rendering needs a preceding event. -/
def needsLast (e : Ev K V) : Bool :=
  match e.kind with
  | .linear => true
  | .exponential => true
  | .target _ => true
  | _ => false

/-- Before the first event is rendered. -/
structure Start (L : List (Ev K V)) (tl : List (Ev K V)) : Prop where
  time : ∀ q ∈ tl, (∃ x ∈ L, x.time = q.time) ∨ q.time = 0
  head : ∀ y, tl.head? = some y → needsLast y = false
  hold : ∀ y, tl.head? = some y → ∀ q ∈ tl, ∀ c, q.cancelTime = some c → y.time ≤ c

structure Good (L : List (Ev K V)) (now : K) (p : Proc K V) : Prop where
  inv : Inv p
  pos : ∀ x ∈ L, 0 ≤ x.time
  time : ∀ q ∈ p.timeline, (∃ x ∈ L, x.time = q.time) ∨ q.time ≤ now
  curve : ∀ q ∈ p.timeline, ∀ d vs, q.kind = .curve d vs → ∃ x ∈ L, x.kind = .curve d vs ∧ x.time = q.time
  hold : ∀ q ∈ p.timeline, ∀ c, q.cancelTime = some c → ∃ x ∈ L, x.kind = .cancelHold ∧ x.time = c
  start : p.last = none → Start L p.timeline

/-! ## Rendering -/

/-- Where the events of the timeline come from. -/
def Origin (b : Block K) (p p' : Proc K V) : Prop :=
  (∀ q ∈ p'.timeline, q ∈ p.timeline ∨ (q.kind = .setValueAtTime ∧ q.cancelTime = none ∧
    (q.time = b.next ∨ ∃ x ∈ p.timeline, q.time = x.time ∨ x.cancelTime = some q.time))) ∧
  (p'.last = none → p.last = none ∧ p'.timeline = p.timeline)

theorem computeEvent_origin {A : Arith K V} {b : Block K} {p : Proc K V} {r : Bool × Proc K V}
    (h : computeEvent A p b = .ok r) : Origin b p r.2 := by
  have same : ∀ (p' : Proc K V), p'.timeline = p.timeline → p'.last = p.last → Origin b p p' := by
    intro p' h1 h2
    exact ⟨fun q hq => .inl (h1 ▸ hq), fun h => ⟨h2 ▸ h, h1⟩⟩
  have pop : ∀ (p' : Proc K V) e rest l, p.timeline = e :: rest → p'.timeline = rest → p'.last = some l →
      Origin b p p' := by
    intro p' e rest l h0 h1 h2
    refine ⟨fun q hq => .inl ?_, fun h => ?_⟩
    · rw [h0]; rw [h1] at hq; simp [hq]
    · rw [h2] at h; cases h
  have hramp : ∀ f e l rest, p.timeline = e :: rest → computeRamp f p b e l rest = r → Origin b p r.2 := by
    rintro f e l rest hp rfl
    unfold computeRamp
    dsimp only
    split
    · exact same _ rfl rfl
    · split
      · exact pop _ e rest _ hp rfl rfl
      · exact pop _ e rest _ hp rfl rfl
  have hset : computeSetValue p b = .ok r → Origin b p r.2 := by
    intro h
    unfold computeSetValue at h
    split at h
    · cases h
    · rename_i e rest hp
      dsimp only at h
      split at h <;> cases h
      · exact same _ rfl rfl
      · exact pop _ e rest _ hp rfl rfl
  unfold computeEvent at h
  split at h
  · cases h; exact same _ rfl rfl
  · rename_i e0 rest0 hp0
    split at h
    · exact hset h
    · exact hset h
    · unfold computeLinear at h
      split at h
      · rename_i hp _; injection h with h; exact hramp _ _ _ _ hp h
      · cases h
    · unfold computeExp at h
      split at h
      · rename_i e rest l hp hl
        split at h
        · cases h
          refine ⟨fun q hq => ?_, fun h => ?_⟩
          · rcases List.mem_cons.1 hq with rfl | hq
            · right
              refine ⟨rfl, rfl, .inr ⟨e, by rw [hp]; simp, ?_⟩⟩
              cases hc : e.cancelTime with
              | none => left; simp
              | some c => right; simp
            · left; rw [hp]; simp [hq]
          · simp only at h; rw [hl] at h; cases h
        · injection h with h; exact hramp _ _ _ _ hp h
      · cases h
    · unfold computeTarget at h
      split at h
      · rename_i e rest l hp hl
        dsimp only at h
        split at h
        · split at h
          · cases h
            refine ⟨fun q hq => ?_, fun h => ?_⟩
            · rcases List.mem_cons.1 hq with rfl | hq
              · exact .inr ⟨rfl, rfl, .inl rfl⟩
              · left; rw [hp]; simp [hq]
            · simp only at h; rw [hl] at h; cases h
          · cases h; exact same _ rfl rfl
        · cases h; exact pop _ e rest _ hp rfl rfl
      · cases h
    · unfold computeCurve at h
      split at h
      · cases h
      · rename_i e rest hp
        dsimp only at h
        split at h
        · cases h
        · split at h
          · split at h <;> cases h
            exact same _ rfl rfl
          · split at h
            · cases h
            · cases h; exact pop _ e rest _ hp rfl rfl
    · cases h
    · cases h

theorem mapM_isSome {α β : Type} {f : α → Option β} {l : List α} (h : ∀ a, (f a).isSome = true) :
    (l.mapM f).isSome = true := by
  induction l with
  | nil => rfl
  | cons a l ih =>
    rw [List.mapM_cons]
    obtain ⟨b, hb⟩ := Option.isSome_iff_exists.1 (h a)
    obtain ⟨bs, hbs⟩ := Option.isSome_iff_exists.1 ih
    rw [hb, hbs]
    rfl

theorem computeEvent_ok {A : Arith K V} (hA : CurveTotal A) {b : Block K} {L : List (Ev K V)} {now : K}
    {p : Proc K V} (hg : Good L now p) : computeEvent A p b ≠ .panic := by
  intro h
  have hset : ∀ e rest, p.timeline = e :: rest → computeSetValue p b ≠ .panic := by
    intro e rest hp h
    unfold computeSetValue at h
    rw [hp] at h
    dsimp only at h
    split at h <;> cases h
  unfold computeEvent at h
  split at h
  · cases h
  · rename_i e rest hp
    have hlast : needsLast e = true → ∃ l, p.last = some l := by
      intro hn
      cases hl : p.last with
      | some l => exact ⟨l, rfl⟩
      | none =>
        have := (hg.start hl).head e (by rw [hp]; rfl)
        rw [hn] at this
        cases this
    have hok := hg.inv.ok e (by rw [hp]; simp)
    unfold EvOk at hok
    split at h
    · exact hset _ _ hp h
    · exact hset _ _ hp h
    · rename_i hk
      obtain ⟨l, hl⟩ := hlast (by simp [needsLast, hk])
      unfold computeLinear at h
      rw [hp, hl] at h
      cases h
    · rename_i hk
      obtain ⟨l, hl⟩ := hlast (by simp [needsLast, hk])
      unfold computeExp at h
      rw [hp, hl] at h
      dsimp only at h
      split at h <;> cases h
    · rename_i hk
      obtain ⟨l, hl⟩ := hlast (by simp [needsLast, hk])
      unfold computeTarget at h
      rw [hp, hl] at h
      dsimp only at h
      split at h
      · split at h <;> cases h
      · cases h
    · rename_i dur values hk
      rw [hk] at hok
      dsimp only at hok
      have htot : ∀ t, (A.curve e.time dur values t).isSome = true := fun t => hA _ _ _ _ hok.1 hok.2.1
      unfold computeCurve at h
      rw [hp] at h
      dsimp only at h
      split at h
      · rename_i hnone
        split at hnone
        · have := mapM_isSome (f := fun i => if b.frame i < e.time then some p.intrinsic
            else A.curve e.time dur values (b.frame i)) (l := List.range' p.buffer.length
              (min (b.index (e.cancelTime.getD (e.time + dur))) b.count - p.buffer.length)) (fun a => by
              split
              · rfl
              · exact htot _)
          rw [hnone] at this
          cases this
        · cases hnone
      · split at h
        · split at h
          · rename_i hnone
            have := htot b.next
            rw [hnone] at this
            cases this
          · cases h
        · split at h
          · rename_i hnone
            split at hnone
            · have := htot (e.cancelTime.getD (e.time + dur))
              rw [hnone] at this
              cases this
            · rw [List.getLast?_eq_none_iff] at hnone
              rw [hnone] at hok
              simp at hok
          · cases h
    · rename_i hk
      rw [hk] at hok
      exact hok
    · rename_i hk
      rw [hk] at hok
      exact hok

theorem Good.computeEvent {A : Arith K V} {b : Block K} {L : List (Ev K V)} {p : Proc K V}
    (hg : Good L b.next p) {r : Bool × Proc K V} (h : computeEvent A p b = .ok r) : Good L b.next r.2 := by
  obtain ⟨h1, h2⟩ := computeEvent_origin h
  refine ⟨hg.inv.computeEvent h, hg.pos, fun q hq => ?_, fun q hq d vs hk => ?_, fun q hq c hc => ?_,
    fun hn => ?_⟩
  · rcases h1 q hq with hq | ⟨_, _, hq | ⟨x, hx, hq | hq⟩⟩
    · exact hg.time q hq
    · exact .inr hq.le
    · rw [hq]; exact hg.time x hx
    · obtain ⟨y, hy, _, hyt⟩ := hg.hold x hx _ hq
      exact .inl ⟨y, hy, hyt⟩
  · rcases h1 q hq with hq | ⟨hq, _⟩
    · exact hg.curve q hq d vs hk
    · rw [hq] at hk; cases hk
  · rcases h1 q hq with hq | ⟨_, hq, _⟩
    · exact hg.hold q hq c hc
    · rw [hq] at hc; cases hc
  · obtain ⟨a, b⟩ := h2 hn
    rw [b]
    exact hg.start a

theorem Good.mono {L : List (Ev K V)} {now now' : K} {p : Proc K V} (hg : Good L now p) (h : now ≤ now') :
    Good L now' p :=
  ⟨hg.inv, hg.pos, fun q hq => (hg.time q hq).imp id (fun t => le_trans t h), hg.curve, hg.hold, hg.start⟩

theorem Good.loop {A : Arith K V} (hA : CurveTotal A) {b : Block K}
    {L : List (Ev K V)} {n : Nat} {p : Proc K V} (hg : Good L b.next p) :
    loop A b n p ≠ .panic ∧ ∀ p', loop A b n p = .ok p' → Good L b.next p' := by
  induction n generalizing p with
  | zero => exact ⟨(fun h => nomatch h), (fun _ h => nomatch h)⟩
  | succ n ih =>
    unfold Param.loop
    cases he : Param.computeEvent A p b with
    | panic => exact absurd he (computeEvent_ok hA hg)
    | fuel => exact ⟨(fun h => nomatch h), (fun _ h => nomatch h)⟩
    | ok r =>
      simp only [Res.bind]
      have hr := hg.computeEvent he
      split
      · exact ⟨(fun h => nomatch h), fun p' h => by cases h; exact hr⟩
      · exact ih hr

theorem Good.computeBuffer {A : Arith K V} (hA : CurveTotal A) {b : Block K}
    {L : List (Ev K V)} {p : Proc K V} (hg : Good L b.next p) :
    ∃ p', computeBuffer A p b = .ok p' ∧ Good L b.next p' := by
  have hg' : ∀ c buf, Good L b.next { p with current := c, buffer := buf } := fun c buf =>
    ⟨⟨hg.inv.sorted, hg.inv.ok⟩, hg.pos, hg.time, hg.curve, hg.hold, hg.start⟩
  have hc' : ∀ (c : V) (buf : List V), isConstant { p with current := c, buffer := buf } b =
    isConstant p b := fun _ _ => rfl
  cases hc : Param.computeBuffer A p b with
  | fuel => exact absurd hc (C24_terminates A b p)
  | panic =>
    exfalso
    unfold Param.computeBuffer at hc
    dsimp only at hc
    rw [hc'] at hc
    by_cases hk : isConstant p b = true
    · rw [if_pos hk] at hc; cases hc
    · rw [if_neg hk] at hc
      exact (Good.loop hA (hg' _ _)).1 hc
  | ok p' =>
    refine ⟨p', rfl, ?_⟩
    unfold Param.computeBuffer at hc
    dsimp only at hc
    rw [hc'] at hc
    by_cases hk : isConstant p b = true
    · rw [if_pos hk] at hc; cases hc; exact hg' _ _
    · rw [if_neg hk] at hc
      exact (Good.loop hA (hg' _ _)).2 p' hc

/-! ## Scheduling -/

theorem head_sort_append {l : List (Ev K V)} (h : Sorted l) (e : Ev K V) {y : Ev K V}
    (hy : (sort (l ++ [e])).head? = some y) :
    (l.head? = some y ∧ y.time ≤ e.time) ∨ (y = e ∧ ∀ z, l.head? = some z → e.time < z.time) := by
  rw [sort_append_singleton h] at hy
  cases l with
  | nil => simp at hy; exact .inr ⟨hy.symm, by simp⟩
  | cons a l =>
    by_cases ha : a.time ≤ e.time
    · rw [List.filter_cons, if_pos (by simpa using ha)] at hy
      simp at hy
      subst hy
      exact .inl ⟨rfl, ha⟩
    · have : (a :: l).filter (fun q => q.time ≤ e.time) = [] := by
        rw [List.filter_eq_nil_iff]
        intro x hx hle
        have := (List.pairwise_cons.1 h).1
        rcases List.mem_cons.1 hx with rfl | hx
        · exact ha (by simpa using hle)
        · exact ha (le_trans (this x hx) (by simpa using hle))
      rw [this] at hy
      simp at hy
      refine .inr ⟨hy.symm, fun z hz => ?_⟩
      simp at hz
      subst hz
      exact not_le.1 ha

theorem mem_cancelHold {tl : List (Ev K V)} {tc : K} {x : Ev K V} (hx : x ∈ cancelHold tl tc) :
    ∃ y ∈ tl, x.time = y.time ∧ x.kind = y.kind ∧ (x.cancelTime = y.cancelTime ∨ x.cancelTime = some tc) := by
  unfold cancelHold at hx
  dsimp only at hx
  replace hx := (List.mem_filter.1 hx).1
  have hb : ∀ y, y ∈ tl.filter (fun q => q.time ≤ tc) → y ∈ tl := fun y hy => (List.mem_filter.1 hy).1
  have ha : ∀ y, y ∈ tl.filter (fun q => tc < q.time) → y ∈ tl := fun y hy => (List.mem_filter.1 hy).1
  generalize tl.filter (fun q => tc < q.time) = after at hx ha
  generalize tl.filter (fun q => q.time ≤ tc) = before at hx hb
  split at hx
  · rename_i e2 more
    rcases List.mem_append.1 hx with hx | hx
    · exact ⟨x, hb x hx, rfl, rfl, .inl rfl⟩
    · rcases List.mem_cons.1 hx with hx | hx
      · refine ⟨e2, ha e2 (by simp), ?_⟩
        split at hx
        · subst hx; exact ⟨rfl, rfl, .inr rfl⟩
        · subst hx; exact ⟨rfl, rfl, .inl rfl⟩
      · exact ⟨x, ha x (by simp [hx]), rfl, rfl, .inl rfl⟩
  · split at hx
    · exact ⟨x, hb x hx, rfl, rfl, .inl rfl⟩
    · rename_i e1 he1
      have h1 : e1 ∈ before := List.mem_of_getLast? he1
      rcases List.mem_append.1 hx with hx | hx
      · exact ⟨x, hb x (List.dropLast_subset _ hx), rfl, rfl, .inl rfl⟩
      · refine ⟨e1, hb e1 h1, ?_⟩
        have hx := List.mem_singleton.1 hx
        split at hx
        · subst hx; exact ⟨rfl, rfl, .inr rfl⟩
        · split at hx
          · subst hx; exact ⟨rfl, rfl, .inr rfl⟩
          · subst hx; exact ⟨rfl, rfl, .inl rfl⟩
        · subst hx; exact ⟨rfl, rfl, .inl rfl⟩

/-- Before the first event is rendered, a cancel-and-hold keeps the first event, or nothing at all. -/
theorem head_cancelHold {tl : List (Ev K V)} {tc : K} (hs : Sorted tl)
    (hc : ∀ q ∈ tl, ∀ c, q.cancelTime = some c → c ≤ tc)
    (hst : ∀ y, tl.head? = some y → needsLast y = false ∧ ∀ q ∈ tl, ∀ c, q.cancelTime = some c → y.time ≤ c)
    {x : Ev K V} (hx : (cancelHold tl tc).head? = some x) :
    ∃ y, tl.head? = some y ∧ x.kind = y.kind ∧ x.time = y.time ∧ y.time ≤ tc := by
  have hsplit := split_sorted hs tc
  cases tl with
  | nil =>
    simp [cancelHold] at hx
  | cons y rest =>
    refine ⟨y, rfl, ?_⟩
    obtain ⟨hy1, hy2⟩ := hst y rfl
    by_cases hyt : y.time ≤ tc
    · -- the head is among the events at or before `tc`, and is kept
      have hkeep : decide (y.cancelTime.getD y.time ≤ tc) = true := by
        rw [decide_eq_true_eq]
        cases hyc : y.cancelTime with
        | none => simpa using hyt
        | some c => simpa using hc y (by simp) c hyc
      have hbf : (y :: rest).filter (fun q => q.time ≤ tc) = y :: rest.filter (fun q => q.time ≤ tc) := by
        rw [List.filter_cons, if_pos (by simpa using hyt)]
      unfold cancelHold at hx
      dsimp only at hx
      rw [hbf] at hx
      split at hx
      · rw [List.cons_append, List.filter_cons, if_pos hkeep] at hx
        simp at hx
        subst hx
        exact ⟨rfl, rfl, hyt⟩
      · split at hx
        · rename_i h0
          rw [List.getLast?_eq_none_iff] at h0
          cases h0
        · rename_i e1 he1
          cases hr : rest.filter (fun q => q.time ≤ tc) with
          | nil =>
            rw [hr] at he1 hx
            simp at he1
            subst he1
            simp only [List.dropLast_singleton, List.nil_append] at hx
            have hx := List.mem_of_mem_head? hx
            have hx := List.mem_singleton.1 (List.mem_filter.1 hx).1
            split at hx
            · subst hx; exact ⟨rfl, rfl, hyt⟩
            · split at hx
              · subst hx; exact ⟨rfl, rfl, hyt⟩
              · subst hx; exact ⟨rfl, rfl, hyt⟩
            · subst hx; exact ⟨rfl, rfl, hyt⟩
          | cons z zs =>
            rw [hr] at he1 hx
            rw [List.dropLast_cons_cons, List.cons_append, List.filter_cons, if_pos hkeep] at hx
            simp at hx
            subst hx
            exact ⟨rfl, rfl, hyt⟩
    · -- nothing is kept
      exfalso
      have hgt : ∀ q ∈ y :: rest, tc < q.time := by
        intro q hq
        rcases List.mem_cons.1 hq with rfl | hq
        · exact not_le.1 hyt
        · exact lt_of_lt_of_le (not_le.1 hyt) ((List.pairwise_cons.1 hs).1 q hq)
      have hnc : ∀ q ∈ y :: rest, q.cancelTime = none := by
        intro q hq
        cases hqc : q.cancelTime with
        | none => rfl
        | some c => exact absurd (le_trans (hy2 q hq c hqc) (hc q hq c hqc)) hyt
      have hbf : (y :: rest).filter (fun q => q.time ≤ tc) = [] := by
        rw [List.filter_eq_nil_iff]
        intro q hq hle
        exact absurd (by simpa using hle) (not_le.2 (hgt q hq))
      have haf : (y :: rest).filter (fun q => tc < q.time) = y :: rest := by
        rw [List.filter_eq_self]
        intro q hq
        simpa using hgt q hq
      have hr : y.isRamp = false := by
        unfold needsLast at hy1
        unfold Ev.isRamp
        split <;> simp_all
      unfold cancelHold at hx
      dsimp only at hx
      rw [hbf, haf] at hx
      simp only [hr, Bool.false_eq_true, if_false, List.nil_append] at hx
      have hnil : (y :: rest).filter (fun q => decide (q.cancelTime.getD q.time ≤ tc)) = [] := by
        rw [List.filter_eq_nil_iff]
        intro q hq hle
        rw [hnc q hq] at hle
        exact absurd (by simpa using hle) (not_le.2 (hgt q hq))
      rw [hnil] at hx
      cases hx

omit [IsStrictOrderedRing K] [FloorSemiring K] in
theorem Allowed.no_overlap {L : List (Ev K V)} {now : K} {p : Proc K V} (hg : Good L now p)
    {e : Ev K V} (ha : Allowed now L e) (h0 : e.kind = .setValue → e.time = 0)
    (hk : e.kind ≠ .cancel ∧ e.kind ≠ .cancelHold) : overlaps p.timeline e = false := by
  have key : (∀ q ∈ L, ∀ d vs, q.kind = .curve d vs → e.time ≤ q.time ∨ q.time + d ≤ e.time) →
      (p.timeline.any fun q => match q.kind with
        | .curve dur _ => decide (q.time < e.time) && decide (e.time < q.time + dur)
        | _ => false) = false := by
    intro hL
    rw [List.any_eq_false]
    intro q hq
    split
    · rename_i d vs hqk
      obtain ⟨x, hx, hxk, hxt⟩ := hg.curve q hq d vs hqk
      simp only [Bool.and_eq_true, decide_eq_true_eq, not_and, not_lt]
      intro hlt
      rcases hL x hx d vs hxk with h | h
      · rw [hxt] at h; exact absurd hlt (not_lt.2 h)
      · rw [hxt] at h; exact h
    · simp
  unfold Allowed at ha
  unfold overlaps
  split
  · rename_i d vs hek
    rw [hek] at ha
    dsimp only at ha
    rw [List.any_eq_false]
    intro q hq
    simp only [Bool.and_eq_true, decide_eq_true_eq, not_and, not_lt]
    intro hlt
    rcases hg.time q hq with ⟨x, hx, hxt⟩ | hle
    · rcases ha.2 x hx with h | h
      · rw [hxt] at h; exact absurd hlt (not_lt.2 h)
      · rw [hxt] at h; exact h
    · exact absurd hlt (not_lt.2 (le_trans hle ha.1))
  · apply key
    intro q hq d vs hqk
    split at ha
    · rename_i hek
      rw [h0 hek]
      exact .inl (hg.pos q hq)
    · rename_i hek; exact absurd hek hk.1
    · rename_i hek; exact absurd hek hk.2
    · exact ha q hq d vs hqk
    · simp_all
    · exact .inr ((ha q hq).2 d vs hqk)

theorem Good.insert {L : List (Ev K V)} {now : K} (hnow : 0 ≤ now) {p p' : Proc K V} (hg : Good L now p)
    {e : Ev K V} (he : Sent e) (ha : Allowed now L e)
    (hk : e.kind ≠ .cancel ∧ e.kind ≠ .cancelHold) (hi : Inv p')
    (h : insert p e = .ok p') : Good (L ++ [e]) now p' := by
  unfold Param.insert at h
  split at h
  · cases h
  cases h
  have himp : ∀ q ∈ implicit p e, q = { kind := .setValue, value := p.intrinsic, time := 0 } := by
    intro q hq
    unfold implicit at hq
    dsimp only at hq
    split at hq
    · split at hq
      · split at hq
        · simpa using hq
        · simp at hq
      · split at hq
        · simpa using hq
        · simp at hq
      · simpa using hq
      · simp at hq
    · simp at hq
  have hmem : ∀ q ∈ sort (p.timeline ++ implicit p e ++ [e]), q ∈ p.timeline ∨
      q = { kind := .setValue, value := p.intrinsic, time := 0 } ∨ q = e := by
    intro q hq
    rcases List.mem_append.1 (mem_sort.1 hq) with hq | hq
    · rcases List.mem_append.1 hq with hq | hq
      · exact .inl hq
      · exact .inr (.inl (himp q hq))
    · exact .inr (.inr (by simpa using hq))
  refine ⟨hi, ?_, ?_, ?_, ?_, ?_⟩
  · intro x hx
    rcases List.mem_append.1 hx with hx | hx
    · exact hg.pos x hx
    · simp at hx; subst hx; exact he.2.1
  · intro q hq
    rcases hmem q hq with hq | rfl | rfl
    · rcases hg.time q hq with ⟨x, hx, hxt⟩ | hle
      · exact .inl ⟨x, by simp [hx], hxt⟩
      · exact .inr hle
    · exact .inr hnow
    · exact .inl ⟨q, by simp, rfl⟩
  · intro q hq d vs hqk
    rcases hmem q hq with hq | rfl | rfl
    · obtain ⟨x, hx, h⟩ := hg.curve q hq d vs hqk
      exact ⟨x, by simp [hx], h⟩
    · cases hqk
    · exact ⟨q, by simp, hqk, rfl⟩
  · intro q hq c hc
    rcases hmem q hq with hq | rfl | rfl
    · obtain ⟨x, hx, h⟩ := hg.hold q hq c hc
      exact ⟨x, by simp [hx], h⟩
    · cases hc
    · rw [he.1] at hc; cases hc
  · intro hl
    simp only at hl
    have hst := hg.start hl
    -- the list before the event is added
    have hbase : ∃ m, p.timeline ++ implicit p e = m ∧ Sorted m ∧
        (∀ y, m.head? = some y → needsLast y = false) ∧
        (∀ y, m.head? = some y → ∀ q ∈ m, ∀ c, q.cancelTime = some c → y.time ≤ c) ∧
        (needsLast e = true → m ≠ [] ∧ ∀ q ∈ m, q.time ≤ e.time) := by
      by_cases ht : p.timeline = []
      · refine ⟨_, rfl, ?_⟩
        rw [ht, List.nil_append]
        refine ⟨?_, ?_, ?_, ?_⟩
        · unfold implicit
          dsimp only
          rw [if_pos ht]
          split
          · split <;> simp [Sorted]
          · split <;> simp [Sorted]
          · simp [Sorted]
          · simp [Sorted]
        · intro y hy
          rw [himp y (List.mem_of_mem_head? hy)]
          rfl
        · intro y hy q hq c hc
          rw [himp q hq] at hc
          cases hc
        · intro hn
          refine ⟨?_, fun q hq => by rw [himp q hq]; exact he.2.1⟩
          unfold implicit
          dsimp only
          rw [if_pos ht, hl]
          unfold needsLast at hn
          split at hn <;> simp_all
      · have : implicit p e = [] := by
          unfold implicit
          dsimp only
          rw [if_neg ht]
        rw [this, List.append_nil]
        refine ⟨_, rfl, hg.inv.sorted, hst.head, hst.hold, ?_⟩
        intro hn
        refine ⟨ht, fun q hq => ?_⟩
        rcases hst.time q hq with ⟨x, hx, hxt⟩ | h0
        · rw [← hxt]
          unfold Allowed at ha
          unfold needsLast at hn
          split at hn
          · rename_i hek; rw [hek] at ha; exact (ha x hx).1
          · rename_i hek; rw [hek] at ha; exact (ha x hx).1
          · rename_i hek; rw [hek] at ha; exact (ha x hx).1
          · cases hn
        · rw [h0]; exact he.2.1
    obtain ⟨m, hm, hms, hmh, hmc, hme⟩ := hbase
    simp only [hm] at hmem ⊢
    refine ⟨fun q hq => ?_, fun y hy => ?_, fun y hy q hq c hc => ?_⟩
    · rcases hmem q hq with hq | rfl | rfl
      · rcases hst.time q hq with ⟨x, hx, hxt⟩ | h0
        · exact .inl ⟨x, by simp [hx], hxt⟩
        · exact .inr h0
      · exact .inr rfl
      · exact .inl ⟨q, by simp, rfl⟩
    · rcases head_sort_append hms e hy with ⟨h1, _⟩ | ⟨rfl, h2⟩
      · exact hmh y h1
      · by_contra hn
        have hn : needsLast y = true := by simpa using hn
        obtain ⟨g1, g2⟩ := hme hn
        obtain ⟨z, zs, hz⟩ := List.exists_cons_of_ne_nil g1
        have := h2 z (by rw [hz]; rfl)
        exact absurd (g2 z (by rw [hz]; simp)) (not_le.2 this)
    · have hqm : q ∈ m := by
        rcases List.mem_append.1 (mem_sort.1 hq) with hq | hq
        · exact hq
        · simp at hq; subst hq; rw [he.1] at hc; cases hc
      rcases head_sort_append hms e hy with ⟨h1, _⟩ | ⟨rfl, h2⟩
      · exact hmc y h1 q hqm c hc
      · cases m with
        | nil => simp at hqm
        | cons z zs => exact le_trans (h2 z rfl).le (hmc z rfl q hqm c hc)

theorem Good.handle {L : List (Ev K V)} {now : K} (hnow : 0 ≤ now) {p : Proc K V} (hg : Good L now p)
    {e : Ev K V} (he : Sent e) (h0 : e.kind = .setValue → e.time = 0) (ha : Allowed now L e) :
    ∃ p', handle p e = .ok p' ∧ Good (remember L e) now p' := by
  have hinv : ∀ p', Param.handle p e = .ok p' → Inv p' := fun p' h => hg.inv.handle he h
  by_cases hc : e.kind = .cancel
  · have hr : remember L e = L := by simp [remember, hc]
    rw [hr]
    have hgood : ∀ (v : V) p', p' = { p with intrinsic := v, timeline := p.timeline.filter (fun q => q.time < e.time) } →
        Inv p' → Good L now p' := by
      rintro v p' rfl hi
      refine ⟨hi, hg.pos, fun q hq => hg.time q (List.mem_filter.1 hq).1,
        fun q hq => hg.curve q (List.mem_filter.1 hq).1, fun q hq => hg.hold q (List.mem_filter.1 hq).1, ?_⟩
      intro hl
      have hst := hg.start hl
      have hhead : ∀ y, (p.timeline.filter fun q => decide (q.time < e.time)).head? = some y →
          p.timeline.head? = some y := by
        intro y hy
        cases htl : p.timeline with
        | nil => rw [htl] at hy; exact hy
        | cons a l =>
          rw [htl] at hy
          have hs := hg.inv.sorted
          rw [htl] at hs
          by_cases hat : a.time < e.time
          · rw [List.filter_cons, if_pos (by simpa using hat)] at hy
            simpa using hy
          · have : (a :: l).filter (fun q => decide (q.time < e.time)) = [] := by
              rw [List.filter_eq_nil_iff]
              intro q hq hlt
              have hlt : q.time < e.time := by simpa using hlt
              rcases List.mem_cons.1 hq with rfl | hq
              · exact hat hlt
              · exact hat (lt_of_le_of_lt ((List.pairwise_cons.1 hs).1 q hq) hlt)
            rw [this] at hy
            cases hy
      exact ⟨fun q hq => hst.time q (List.mem_filter.1 hq).1, fun y hy => hst.head y (hhead y hy),
        fun y hy q hq => hst.hold y (hhead y hy) q (List.mem_filter.1 hq).1⟩
    revert hinv
    unfold Param.handle
    rw [hc]
    dsimp only
    intro hinv
    split
    · exact ⟨p, rfl, hg⟩
    · rename_i c rest htl
      rw [htl] at hinv
      by_cases hcr : (c.isRamp && decide (e.time ≤ c.time)) = true
      · rw [if_pos hcr]
        have : ∃ l, p.last = some l := by
          cases hl : p.last with
          | some l => exact ⟨l, rfl⟩
          | none =>
            have := (hg.start hl).head c (by rw [htl]; rfl)
            simp only [Bool.and_eq_true] at hcr
            have h1 := hcr.1
            unfold Ev.isRamp at h1
            unfold needsLast at this
            split at h1 <;> simp_all
        obtain ⟨l, hl⟩ := this
        refine ⟨{ p with intrinsic := l.value, timeline := p.timeline.filter fun q => q.time < e.time },
          by rw [hl, htl], hgood l.value _ rfl (hinv _ ?_)⟩
        simp only
        rw [if_pos hcr, hl, htl]
      · rw [if_neg hcr]
        refine ⟨{ p with timeline := p.timeline.filter fun q => q.time < e.time },
          by rw [htl], hgood p.intrinsic _ rfl (hinv _ ?_)⟩
        simp only
        rw [if_neg hcr, htl]
  · have hr : remember L e = L ++ [e] := by simp [remember]
    rw [hr]
    by_cases hh : e.kind = .cancelHold
    · have hdef : Param.handle p e = .ok { p with timeline := cancelHold (sort p.timeline) e.time } := by
        unfold Param.handle
        rw [hh]
      refine ⟨_, hdef, ?_⟩
      have hi := hinv _ hdef
      rw [sort_eq hg.inv.sorted] at hi ⊢
      unfold Allowed at ha
      rw [hh] at ha
      dsimp only at ha
      have hcl : ∀ q ∈ p.timeline, ∀ c, q.cancelTime = some c → c ≤ e.time := by
        intro q hq c hqc
        obtain ⟨x, hx, hxk, hxt⟩ := hg.hold q hq c hqc
        rw [← hxt]
        exact ha x hx hxk
      refine ⟨hi, ?_, ?_, ?_, ?_, ?_⟩
      · intro x hx
        rcases List.mem_append.1 hx with hx | hx
        · exact hg.pos x hx
        · simp at hx; subst hx; exact he.2.1
      · intro q hq
        obtain ⟨y, hy, h1, h2, h3⟩ := mem_cancelHold hq
        rcases hg.time y hy with ⟨x, hx, hxt⟩ | hle
        · exact .inl ⟨x, by simp [hx], by rw [hxt, h1]⟩
        · exact .inr (h1 ▸ hle)
      · intro q hq d vs hqk
        obtain ⟨y, hy, h1, h2, h3⟩ := mem_cancelHold hq
        obtain ⟨x, hx, hxk, hxt⟩ := hg.curve y hy d vs (h2 ▸ hqk)
        exact ⟨x, by simp [hx], hxk, by rw [hxt, h1]⟩
      · intro q hq c hqc
        obtain ⟨y, hy, h1, h2, h3⟩ := mem_cancelHold hq
        rcases h3 with h3 | h3
        · rw [h3] at hqc
          obtain ⟨x, hx, h⟩ := hg.hold y hy c hqc
          exact ⟨x, by simp [hx], h⟩
        · rw [h3] at hqc
          cases hqc
          exact ⟨e, by simp, hh, rfl⟩
      · intro hl
        have hst := hg.start hl
        have hhd : ∀ x, (cancelHold p.timeline e.time).head? = some x → _ := fun x hx =>
          head_cancelHold hg.inv.sorted hcl (fun y hy => ⟨hst.head y hy, hst.hold y hy⟩) hx
        refine ⟨fun q hq => ?_, fun y hy => ?_, fun y hy q hq c hqc => ?_⟩
        · obtain ⟨y, hy, h1, _⟩ := mem_cancelHold hq
          rcases hst.time y hy with ⟨x, hx, hxt⟩ | h0
          · exact .inl ⟨x, by simp [hx], by rw [hxt, h1]⟩
          · exact .inr (h1 ▸ h0)
        · obtain ⟨z, hz, hkind, _⟩ := hhd y hy
          have := hst.head z hz
          unfold needsLast at this ⊢
          rw [hkind]
          exact this
        · obtain ⟨z, hz, hkind, hzt, hle⟩ := hhd y hy
          obtain ⟨w, hw, _, _, h3⟩ := mem_cancelHold hq
          rw [hzt]
          rcases h3 with h3 | h3
          · rw [h3] at hqc
            exact hst.hold z hz w hw c hqc
          · rw [h3] at hqc
            cases hqc
            exact hle
    · have hins : Param.handle p e = Param.insert p e := by
        unfold Param.handle
        split <;> simp_all
      have hno := Allowed.no_overlap hg ha h0 ⟨hc, hh⟩
      have hok : ∃ p', Param.insert p e = .ok p' := by
        unfold Param.insert
        rw [hno]
        exact ⟨_, rfl⟩
      obtain ⟨p', hp'⟩ := hok
      exact ⟨p', by rw [hins, hp'], hg.insert hnow he ha ⟨hc, hh⟩ (hinv p' (by rw [hins, hp'])) hp'⟩

/-! ## Theorem -/

omit [IsStrictOrderedRing K] [FloorSemiring K] in
theorem setValue_time {A : Arith K V} {z : V} {c : Call K V} {e : Ev K V} (h : c.event A z = some e) :
    e.kind = .setValue → e.time = 0 := by
  intro hk
  cases c <;> simp only [Call.event] at h <;> repeat' split at h
  all_goals first
    | (cases h; done)
    | (cases h; cases hk; done)
    | (cases h; rfl)

theorem Good.run {A : Arith K V} (hA : CurveTotal A) {dt : K} (hdt : 0 < dt) {count : Nat}
    {ops : List (Op K V)} {L : List (Ev K V)} {s : Sys K V} (hg : Good L (s.frame * dt) s.p)
    (hf : FromCalls A ops) (hso : SafeOrder dt count s.frame L ops) :
    ∃ s', run A dt count s ops = .ok s' := by
  induction ops generalizing s L with
  | nil => exact ⟨s, rfl⟩
  | cons op ops ih =>
    have hf' : FromCalls A ops := fun e he => hf e (by simp [he])
    have hnow : (0 : K) ≤ s.frame * dt := by positivity
    unfold Param.run
    cases op with
    | event e =>
      obtain ⟨c, z, hcz⟩ := hf e (by simp)
      obtain ⟨h1, h2⟩ := hso
      obtain ⟨p', hp, hg'⟩ := hg.handle hnow (event_sent hcz) (setValue_time hcz) h1
      simp only [step, hp, Res.bind]
      exact ih (s := { s with p := p' }) hg' hf' h2
    | rate a =>
      simp only [step, Res.bind]
      exact ih (s := { s with p := { s.p with aRate := a } })
        ⟨⟨hg.inv.sorted, hg.inv.ok⟩, hg.pos, hg.time, hg.curve, hg.hold, hg.start⟩ hf' hso
    | block =>
      have hn : (⟨s.frame * dt, dt, count⟩ : Block K).next = ((s.frame + count : Nat) : K) * dt := by
        simp only [Block.next]; push_cast; ring
      have hle : (s.frame : K) * dt ≤ ((s.frame + count : Nat) : K) * dt := by
        apply mul_le_mul_of_nonneg_right _ hdt.le
        exact_mod_cast Nat.le_add_right _ _
      obtain ⟨p', hp, hg'⟩ := Good.computeBuffer (b := ⟨s.frame * dt, dt, count⟩) hA
        (p := s.p) (by rw [hn]; exact hg.mono hle)
      simp only [step, hp, Res.bind]
      exact ih (s := { p := p', frame := s.frame + count }) (by rw [hn] at hg'; exact hg') hf' hso

/-- C28: no sequence of accepted scheduling calls in a safe order, interleaved with rendering and rate
changes, makes the render thread panic. Missing: other orders, which can panic (`C28_negated_*`), and
the rounding of the position in a value curve (`CurveTotal`, true in exact arithmetic: `curveTotal_exact`,
false in `f64`: `C57_negated`). -/
theorem C28_safe_order_partial {A : Arith K V} (hA : CurveTotal A) {dt : K} (hdt : 0 < dt) {count : Nat}
    {ops : List (Op K V)} {v c : V} (hf : FromCalls A ops) (hso : SafeOrder dt count 0 [] ops) :
    ∃ s, run A dt count { p := { intrinsic := v, current := c } } ops = .ok s := by
  refine Good.run hA hdt (L := []) ?_ hf hso
  exact ⟨⟨List.Pairwise.nil, by simp⟩, by simp, by simp, by simp, by simp,
    fun _ => ⟨by simp, by simp, by simp⟩⟩

end

section exact
variable {K : Type} [Field K] [LinearOrder K] [IsStrictOrderedRing K] [FloorRing K] [FloorSemiring K]

/-- In exact arithmetic a value curve is read within its bounds at all times. -/
theorem curveTotal_exact (ex : K → K) (pw : K → K → K) (mn mx : K) : CurveTotal (exact ex pw mn mx) := by
  intro start dur values t hd hl
  simp only [exact]
  split
  · rw [Option.isSome_iff_ne_none, ne_eq, List.getLast?_eq_none_iff]
    rintro rfl
    simp at hl
  · rename_i hlt
    have hlt := not_le.1 hlt
    have hk : ⌊((values.length - 1 : Nat) : K) * (t - start) / dur⌋₊ + 1 < values.length := by
      have hp : (0 : K) < ((values.length - 1 : Nat) : K) := by
        have : 0 < values.length - 1 := by omega
        exact_mod_cast this
      have : ⌊((values.length - 1 : Nat) : K) * (t - start) / dur⌋₊ < values.length - 1 := by
        by_cases hneg : 0 ≤ ((values.length - 1 : Nat) : K) * (t - start) / dur
        · rw [Nat.floor_lt hneg, div_lt_iff₀ hd]
          exact mul_lt_mul_of_pos_left hlt hp
        · rw [Nat.floor_of_nonpos (not_le.1 hneg).le]
          omega
      omega
    rw [List.getElem?_eq_getElem (by omega), List.getElem?_eq_getElem hk]
    rfl

end exact

/-! ## Witnesses -/

def panics (ops : List (Op ℚ ℚ)) : Bool :=
  match run qArith 1 4 { p := { intrinsic := 0, current := 0 } } ops with
  | .panic => true
  | _ => false

def targetAt (v t tau : ℚ) : Op ℚ ℚ := .event { kind := .target tau, value := v, time := t }
def curveAt (vs : List ℚ) (t d : ℚ) : Op ℚ ℚ := .event { kind := .curve d vs, value := 0, time := t }
def holdAt (t : ℚ) : Op ℚ ℚ := .event { kind := .cancelHold, value := 0, time := t }
def cancelAt (t : ℚ) : Op ℚ ℚ := .event { kind := .cancel, value := 0, time := t }

/-- C28 is false: a ramp or a target that is scheduled before the first pending event. -/
theorem C28_negated_ramp : panics [setAt 5 10, linAt 1 5, .block] = true := by decide +kernel

/-- C28 is false: a target that is scheduled before the first pending event. -/
theorem C28_negated_target : panics [setAt 5 10, targetAt 1 5 1, .block, .block] = true := by decide +kernel

/-- C28 is false: cancelling such a ramp. -/
theorem C28_negated_cancel : panics [setAt 5 10, linAt 1 5, cancelAt 2] = true := by decide +kernel

/-- C28 is false: an event during a value curve, a value curve around an event. -/
theorem C28_negated_overlap : panics [curveAt [0, 1] 1 5, setAt 5 2] = true ∧
    panics [setAt 5 2, curveAt [0, 1] 1 5] = true := by decide +kernel

/-- C28 is false: two cancel-and-holds in reverse order. -/
theorem C28_negated_hold :
    panics [curveAt [0, 1] 1 4, holdAt 3, linAt 1 6, holdAt 2, .block] = true := by decide +kernel

/-- C28 is false: a value curve that starts (slightly) in the past, after a set target event has reached its
target: the event that was put in its place is in the way. (`qArith` has 0 for `exp`, as `f64` has for
`exp (-4000)`, the argument here.) -/
theorem C28_negated_past :
    panics [targetAt 0 0 (1/1000), .block, curveAt [0, 1] 3 5] = true := by decide +kernel

/-- The hypotheses of `C28_safe_order_partial` are met by a sequence with all kinds of events. -/
example : SafeOrder (V := ℚ) (1 : ℚ) 4 0 [] [setAt 1 3, setAt 2 1, linAt 4 5, targetAt 1 6 1, .block,
    curveAt [0, 1] 8 2, .rate false, setAt 3 10, cancelAt 9, holdAt 9, linAt 2 12, .block] := by
  simp only [SafeOrder, Allowed, remember, setAt, linAt, targetAt, curveAt, holdAt, cancelAt]
  norm_num [show ∀ d vs, ¬ (Kind.setValueAtTime : Kind ℚ ℚ) = .curve d vs from (fun _ _ h => nomatch h),
    show ∀ d vs, ¬ (Kind.linear : Kind ℚ ℚ) = .curve d vs from (fun _ _ h => nomatch h),
    show ∀ d vs, ¬ (Kind.target 1 : Kind ℚ ℚ) = .curve d vs from (fun _ _ h => nomatch h),
    show ∀ d vs, ¬ (Kind.cancelHold : Kind ℚ ℚ) = .curve d vs from (fun _ _ h => nomatch h),
    show ¬ (Kind.setValueAtTime : Kind ℚ ℚ) = .cancelHold from (fun h => nomatch h)]

example : FromCalls qArith [setAt 1 3, linAt 4 5, targetAt 1 6 1, .block, curveAt [0, 1] 8 2, holdAt 9] := by
  intro e he
  simp only [setAt, linAt, targetAt, curveAt, holdAt, List.mem_cons, Op.event.injEq, List.not_mem_nil,
    or_false, reduceCtorEq, false_or] at he
  rcases he with rfl | rfl | rfl | rfl | rfl
  · exact ⟨.setValueAtTime 1 3, 0, by decide +kernel⟩
  · exact ⟨.linear 4 5, 0, by decide +kernel⟩
  · exact ⟨.target 1 6 1, 0, by decide +kernel⟩
  · exact ⟨.curve [0, 1] 8 2, 0, by decide +kernel⟩
  · exact ⟨.cancelHold 9, 0, by decide +kernel⟩

end Verif.Param
