import Verif.Param.LengthProps

/-!
# C25: the automation timeline is sorted and stable; C30 (timeline); C24 (collapsed buffers)
-/

namespace Verif.Param

section
variable {K V : Type} [Field K] [LinearOrder K] [IsStrictOrderedRing K] [FloorSemiring K]

/-- sorted by time -/
def Sorted (l : List (Ev K V)) : Prop := l.Pairwise fun a b => a.time ≤ b.time

/-- Cancel times of ramps are not after their end, those of other automations not before their start; no
cancel events in the timeline. -/
def EvOk (e : Ev K V) : Prop :=
  match e.kind with
  | .cancel => False
  | .cancelHold => False
  | .linear => ∀ c, e.cancelTime = some c → c ≤ e.time
  | .exponential => ∀ c, e.cancelTime = some c → c ≤ e.time
  | .curve dur values => 0 < dur ∧ 2 ≤ values.length ∧ ∀ c, e.cancelTime = some c → e.time ≤ c
  | _ => ∀ c, e.cancelTime = some c → e.time ≤ c

/-- Events as the scheduling methods send them, see `event_sent`. -/
def Sent (e : Ev K V) : Prop :=
  e.cancelTime = none ∧ 0 ≤ e.time ∧
    match e.kind with
    | .curve dur values => 0 < dur ∧ 2 ≤ values.length
    | .target tau => 0 < tau
    | _ => True

/-- Invariant of the timeline. -/
structure Inv (p : Proc K V) : Prop where
  sorted : Sorted p.timeline
  ok : ∀ e ∈ p.timeline, EvOk e

theorem sorted_sort (l : List (Ev K V)) : Sorted (sort l) :=
  @List.pairwise_insertionSort _ (fun a b : Ev K V => a.time ≤ b.time) _
    ⟨fun a b => le_total a.time b.time⟩ ⟨fun _ _ _ h1 h2 => le_trans h1 h2⟩ l

theorem mem_sort {l : List (Ev K V)} {e : Ev K V} : e ∈ sort l ↔ e ∈ l := List.mem_insertionSort _

theorem sort_eq {l : List (Ev K V)} (h : Sorted l) : sort l = l := List.Pairwise.insertionSort_eq h

/-- Sorting keeps the order of events with the same time. -/
theorem filter_sort (l : List (Ev K V)) (t : K) :
    (sort l).filter (fun e => e.time = t) = l.filter fun e => e.time = t := by
  unfold sort
  induction l with
  | nil => rfl
  | cons a l ih =>
    rw [List.insertionSort_cons]
    have ins : ∀ m : List (Ev K V), (m.orderedInsert (fun a b => a.time ≤ b.time) a).filter (fun e => e.time = t) =
        (a :: m).filter fun e => e.time = t := by
      intro m
      induction m with
      | nil => rfl
      | cons b m ihm =>
        rw [List.orderedInsert_cons]
        split
        · rfl
        · rename_i hlt
          rw [List.filter_cons, ihm]
          by_cases ha : a.time = t
          · have hb : ¬ b.time = t := by rw [← ha]; exact fun h => hlt h.ge
            simp [List.filter_cons, ha, hb]
          · by_cases hb : b.time = t <;> simp [List.filter_cons, ha, hb]
    rw [ins, List.filter_cons, List.filter_cons, ih]

theorem sorted_of_times {l m : List (Ev K V)} (h : l.map (·.time) = m.map (·.time)) (hs : Sorted l) :
    Sorted m := by
  have : (l.map (·.time)).Pairwise (· ≤ ·) := by rw [List.pairwise_map]; exact hs
  rw [h, List.pairwise_map] at this
  exact this

theorem split_sorted {l : List (Ev K V)} (h : Sorted l) (t : K) :
    l.filter (fun q => q.time ≤ t) ++ l.filter (fun q => t < q.time) = l := by
  induction l with
  | nil => rfl
  | cons a l ih =>
    have hs := List.pairwise_cons.1 h
    by_cases ha : a.time ≤ t
    · simp [ha, not_lt.2 ha, ih hs.2]
    · have : l.filter (fun q => q.time ≤ t) = [] := by
        rw [List.filter_eq_nil_iff]
        intro x hx
        have := hs.1 x hx
        simp only [decide_eq_true_eq]
        intro hxt
        exact ha (le_trans this hxt)
      have h2 := ih hs.2
      rw [this] at h2
      simp [ha, not_le.1 ha, this]
      simpa using h2

/-- The events of `cancelHold` before filtering. -/
theorem cancelHold_spec {tl : List (Ev K V)} (hs : Sorted tl) (hok : ∀ e ∈ tl, EvOk e) (tc : K) :
    ∃ marked : List (Ev K V), cancelHold tl tc = marked.filter (fun q => q.cancelTime.getD q.time ≤ tc) ∧
      marked.map (·.time) = tl.map (·.time) ∧ ∀ e ∈ marked, EvOk e := by
  have hsplit := split_sorted hs tc
  unfold cancelHold
  dsimp only
  generalize hb : tl.filter (fun q => q.time ≤ tc) = before at hsplit ⊢
  generalize ha : tl.filter (fun q => tc < q.time) = after at hsplit ⊢
  refine ⟨_, rfl, ?_, ?_⟩
  · conv_rhs => rw [← hsplit]
    cases after with
    | cons e2 more =>
      simp only [List.map_append, List.map_cons]
      split <;> rfl
    | nil =>
      simp only [List.append_nil]
      split
      · rfl
      · rename_i e1 he1
        have hne : before ≠ [] := by rintro rfl; simp at he1
        have hlast : before.dropLast ++ [e1] = before := by
          rw [List.getLast?_eq_getLast_of_ne_nil hne] at he1
          cases he1
          exact List.dropLast_append_getLast hne
        conv_rhs => rw [← hlast]
        simp only [List.map_append, List.map_cons, List.map_nil]
        split
        · rfl
        · split <;> rfl
        · rfl
  · have hok' : ∀ e ∈ before ++ after, EvOk e := by rw [hsplit]; exact hok
    cases after with
    | cons e2 more =>
      have h2 : tc < e2.time := by
        have : e2 ∈ tl.filter (fun q => tc < q.time) := by rw [ha]; simp
        simpa using (List.mem_filter.1 this).2
      simp only
      intro e he
      rcases List.mem_append.1 he with he | he
      · exact hok' e (by simp [he])
      · rcases List.mem_cons.1 he with he | he
        · have h2ok := hok' e2 (by simp)
          split at he
          · rename_i hr
            subst he
            unfold Ev.isRamp at hr
            unfold EvOk
            split at hr <;> rename_i hk <;> simp_all <;> exact h2.le
          · exact he ▸ h2ok
        · exact hok' e (by simp [he])
    | nil =>
      simp only
      split
      · intro e he; exact hok' e (by simp [he])
      · rename_i e1 he1
        have hne : before ≠ [] := by rintro rfl; simp at he1
        have hmem : e1 ∈ before := List.mem_of_getLast? he1
        have h1 : e1.time ≤ tc := by
          rw [← hb] at hmem
          simpa using (List.mem_filter.1 hmem).2
        have h1ok := hok' e1 (by simp [hmem])
        intro e he
        rcases List.mem_append.1 he with he | he
        · exact hok' e (by simp [List.dropLast_subset _ he])
        · simp only [List.mem_singleton] at he
          split at he
          · rename_i hk; subst he; simp_all [EvOk]
          · rename_i hk
            split at he
            · subst he; simp_all [EvOk]
            · exact he ▸ h1ok
          · exact he ▸ h1ok

theorem Inv.handle {p p' : Proc K V} (hi : Inv p) {e : Ev K V} (he : Sent e)
    (h : handle p e = .ok p') : Inv p' := by
  have hf : ∀ t, Inv { p with timeline := p.timeline.filter fun q => q.time < t } := fun t =>
    ⟨hi.sorted.sublist List.filter_sublist, fun x hx => hi.ok x (List.mem_filter.1 hx).1⟩
  have hins : (match e.kind with | .cancel => False | .cancelHold => False | _ => True) →
      insert p e = .ok p' → Inv p' := by
    intro hk h
    unfold insert at h
    split at h
    · cases h
    · cases h
      refine ⟨sorted_sort _, fun x hx => ?_⟩
      simp only at hx
      have hx := mem_sort.1 hx
      rcases List.mem_append.1 hx with hx | hx
      · rcases List.mem_append.1 hx with hx | hx
        · exact hi.ok x hx
        · unfold implicit at hx
          dsimp only at hx
          split at hx
          · split at hx
            · split at hx
              · simp at hx; subst hx; simp [EvOk]
              · simp at hx
            · split at hx
              · simp at hx; subst hx; simp [EvOk]
              · simp at hx
            · simp at hx; subst hx; simp [EvOk]
            · simp at hx
          · simp at hx
      · simp at hx
        subst hx
        unfold Sent at he
        unfold EvOk
        split <;> simp_all
  unfold Param.handle at h
  split at h
  · dsimp only at h
    split at h
    · cases h; exact hi
    · split at h
      · split at h
        · cases h
        · cases h; exact ⟨(hf _).sorted, (hf _).ok⟩
      · cases h; exact hf _
  · cases h
    obtain ⟨m, h1, h2, h3⟩ := cancelHold_spec (sorted_sort p.timeline)
      (fun x hx => hi.ok x (mem_sort.1 hx)) e.time
    rw [h1]
    exact ⟨(sorted_of_times h2.symm (sorted_sort _)).sublist List.filter_sublist,
      fun x hx => h3 x (List.mem_filter.1 hx).1⟩
  · rename_i h1 h2
    apply hins _ h
    split <;> simp_all

theorem Inv.tail {p : Proc K V} (hi : Inv p) {e : Ev K V} {rest : List (Ev K V)}
    (h : p.timeline = e :: rest) : Sorted rest ∧ ∀ x ∈ rest, EvOk x := by
  have := hi.sorted
  rw [h] at this
  exact ⟨(List.pairwise_cons.1 this).2, fun x hx => hi.ok x (by rw [h]; simp [hx])⟩

theorem Inv.computeEvent {A : Arith K V} {b : Block K} {p : Proc K V} (hi : Inv p)
    {r : Bool × Proc K V} (h : computeEvent A p b = .ok r) : Inv r.2 := by
  have hramp : ∀ f e l rest, p.timeline = e :: rest → computeRamp f p b e l rest = r → Inv r.2 := by
    rintro f e l rest hp rfl
    obtain ⟨t1, t2⟩ := hi.tail hp
    unfold computeRamp
    dsimp only
    split
    · exact ⟨hi.sorted, hi.ok⟩
    · split <;> exact ⟨t1, t2⟩
  have hset : computeSetValue p b = .ok r → Inv r.2 := by
    intro h
    unfold computeSetValue at h
    split at h
    · cases h
    · rename_i hp
      obtain ⟨t1, t2⟩ := hi.tail hp
      dsimp only at h
      split at h <;> cases h
      · exact ⟨hi.sorted, hi.ok⟩
      · exact ⟨t1, t2⟩
  unfold Param.computeEvent at h
  split at h
  · cases h; exact ⟨hi.sorted, hi.ok⟩
  · rename_i e0 rest0 hp0
    obtain ⟨t1, t2⟩ := hi.tail hp0
    have hs := hi.sorted
    rw [hp0] at hs
    split at h
    · exact hset h
    · exact hset h
    · unfold computeLinear at h
      split at h
      · rename_i hp _; injection h with h; exact hramp _ _ _ _ hp h
      · cases h
    · rename_i hk
      unfold computeExp at h
      split at h
      · rename_i e rest l hp _
        obtain ⟨rfl, rfl⟩ : e0 = e ∧ rest0 = rest := by
          rw [hp0] at hp; injection hp with h1 h2; exact ⟨h1, h2⟩
        split at h
        · cases h
          have hle : e0.cancelTime.getD e0.time ≤ e0.time := by
            have := hi.ok e0 (by rw [hp0]; simp)
            unfold EvOk at this
            rw [hk] at this
            cases hc : e0.cancelTime with
            | none => simp
            | some c => simpa using this c hc
          refine ⟨?_, ?_⟩
          · refine List.pairwise_cons.2 ⟨fun x hx => ?_, t1⟩
            exact le_trans hle ((List.pairwise_cons.1 hs).1 x hx)
          · intro x hx
            rcases List.mem_cons.1 hx with rfl | hx
            · simp [EvOk]
            · exact t2 x hx
        · injection h with h; exact hramp _ _ _ _ hp h
      · cases h
    · unfold computeTarget at h
      split at h
      · rename_i e rest l hp _
        obtain ⟨rfl, rfl⟩ : e0 = e ∧ rest0 = rest := by
          rw [hp0] at hp; injection hp with h1 h2; exact ⟨h1, h2⟩
        dsimp only at h
        split at h
        · rename_i hte
          have hnext : ∀ x ∈ rest0, b.next ≤ x.time := by
            intro x hx
            cases rest0 with
            | nil => simp at hx
            | cons n more =>
              have hn : b.next ≤ n.time := by
                unfold targetEnd targetNext at hte
                by_contra hlt
                have hlt := not_le.1 hlt
                dsimp only at hte
                rw [if_pos hlt] at hte
                split at hte
                · split at hte
                  · cases hte
                  · split at hte <;> cases hte
                · split at hte <;> cases hte
              rcases List.mem_cons.1 hx with rfl | hx
              · exact hn
              · exact le_trans hn ((List.pairwise_cons.1 t1).1 x hx)
          split at h
          · cases h
            refine ⟨List.pairwise_cons.2 ⟨hnext, t1⟩, ?_⟩
            intro x hx
            rcases List.mem_cons.1 hx with rfl | hx
            · simp [EvOk]
            · exact t2 x hx
          · cases h; exact ⟨hi.sorted, hi.ok⟩
        · cases h; exact ⟨t1, t2⟩
      · cases h
    · unfold computeCurve at h
      split at h
      · cases h
      · rename_i hp
        obtain ⟨t1, t2⟩ := hi.tail hp
        dsimp only at h
        split at h
        · cases h
        · split at h
          · split at h <;> cases h
            exact ⟨hi.sorted, hi.ok⟩
          · split at h
            · cases h
            · cases h; exact ⟨t1, t2⟩
    · cases h
    · cases h

theorem Inv.loop {A : Arith K V} {b : Block K} {n : Nat} {p p' : Proc K V} (hi : Inv p)
    (h : loop A b n p = .ok p') : Inv p' := by
  induction n generalizing p with
  | zero => cases h
  | succ n ih =>
    unfold Param.loop at h
    cases he : Param.computeEvent A p b with
    | panic => rw [he] at h; cases h
    | fuel => rw [he] at h; cases h
    | ok r =>
      rw [he] at h
      simp only [Res.bind] at h
      have := hi.computeEvent he
      split at h
      · cases h; exact this
      · exact ih this h

theorem Inv.computeBuffer {A : Arith K V} {b : Block K} {p p' : Proc K V} (hi : Inv p)
    (h : computeBuffer A p b = .ok p') : Inv p' := by
  unfold Param.computeBuffer at h
  dsimp only at h
  have hc' : ∀ (c : V) (buf : List V), isConstant { p with current := c, buffer := buf } b =
    isConstant p b := fun _ _ => rfl
  rw [hc'] at h
  by_cases hc : isConstant p b = true
  · rw [if_pos hc] at h
    cases h; exact ⟨hi.sorted, hi.ok⟩
  · rw [if_neg hc] at h
    refine Inv.loop ?_ h
    exact ⟨hi.sorted, hi.ok⟩

/-- All events come from scheduling methods. -/
def Fresh (ops : List (Op K V)) : Prop := ∀ e, Op.event e ∈ ops → Sent e

theorem Inv.run {A : Arith K V} {dt : K} {count : Nat} {ops : List (Op K V)} {s s' : Sys K V}
    (hi : Inv s.p) (hf : Fresh ops) (h : run A dt count s ops = .ok s') : Inv s'.p := by
  induction ops generalizing s with
  | nil => cases h; exact hi
  | cons op ops ih =>
    unfold Param.run at h
    have hf' : Fresh ops := fun e he => hf e (by simp [he])
    cases hs : Param.step A dt count s op with
    | panic => rw [hs] at h; cases h
    | fuel => rw [hs] at h; cases h
    | ok t =>
      rw [hs] at h
      refine ih ?_ hf' h
      cases op with
      | event e =>
        simp only [step] at hs
        cases hh : Param.handle s.p e with
        | panic => rw [hh] at hs; cases hs
        | fuel => rw [hh] at hs; cases hs
        | ok p => rw [hh] at hs; cases hs; exact hi.handle (hf e (by simp)) hh
      | rate a => cases hs; exact ⟨hi.sorted, hi.ok⟩
      | block =>
        simp only [step] at hs
        cases hh : Param.computeBuffer A s.p ⟨s.frame * dt, dt, count⟩ with
        | panic => rw [hh] at hs; cases hs
        | fuel => rw [hh] at hs; cases hs
        | ok p => rw [hh] at hs; cases hs; exact hi.computeBuffer hh

omit [IsStrictOrderedRing K] [FloorSemiring K] in
/-- The scheduling methods send such events. -/
theorem event_sent {A : Arith K V} {z : V} {c : Call K V} {e : Ev K V} (h : c.event A z = some e) :
    Sent e := by
  cases c <;> simp only [Call.event] at h <;> repeat' split at h
  all_goals first
    | (cases h; done)
    | (cases h; simp_all [Sent]; done)
    | (cases h
       simp_all [Sent]
       exact lt_of_le_of_ne (by assumption) (Ne.symm (by assumption)))

/-- C25: after any history of scheduling calls, rate changes and rendered quanta the pending events are
sorted by time. -/
theorem C25_sorted {A : Arith K V} {dt : K} {count : Nat} {ops : List (Op K V)} {v c : V}
    {s : Sys K V} (hf : Fresh ops)
    (h : run A dt count { p := { intrinsic := v, current := c } } ops = .ok s) :
    s.p.timeline.Pairwise fun a b => a.time ≤ b.time :=
  (Inv.run (s := { p := { intrinsic := v, current := c } }) ⟨List.Pairwise.nil, by simp⟩ hf h).sorted

/-- C25: a scheduled event comes after all pending events of the same time, and the order of those does
not change. (`implicit`: the value set implicitly, at time 0, before a first ramp.) -/
theorem C25_stable {p p' : Proc K V} {e : Ev K V} (h : handle p e = .ok p')
    (hk : e.kind ≠ .cancel ∧ e.kind ≠ .cancelHold) (t : K) (ht : t ≠ 0 ∨ p.timeline ≠ []) :
    p'.timeline.filter (fun q => q.time = t) =
      p.timeline.filter (fun q => q.time = t) ++ if e.time = t then [e] else [] := by
  have hi : insert p e = .ok p' := by
    unfold handle at h
    split at h <;> simp_all
  unfold insert at hi
  split at hi
  · cases hi
  · cases hi
    simp only [filter_sort, List.filter_append]
    have : (implicit p e).filter (fun q => q.time = t) = [] := by
      rw [List.filter_eq_nil_iff]
      intro x hx
      rcases ht with ht | ht
      · have : x.time = 0 := by
          unfold implicit at hx
          dsimp only at hx
          repeat' split at hx
          all_goals simp at hx
          all_goals rw [hx]
        simp [this, Ne.symm ht]
      · unfold implicit at hx
        rw [if_neg ht] at hx
        simp at hx
    rw [this]
    by_cases he : e.time = t <;> simp [he]

/-! ## A collapsed buffer stands for equal values -/

/-- C24: the buffer of an a-rate parameter collapses to 1 value only if all values are equal: computing
the whole block would give this value for each frame (up to the flushing of subnormal values to zero,
the identity in exact arithmetic). Not covered: a set target event that has not started directly followed by
a ramp (see `C29_negated_ramp`: computing such a block ends the set target event too early). -/
theorem C24_collapse_partial {A : Arith K V} {b : Block K} (hdt : 0 < b.dt) (ht : 0 ≤ b.time)
    {p p' q : Proc K V} {n : Nat}
    (hi : Inv p) (htr : ∀ e n rest, p.timeline = e :: n :: rest → n.isRamp = true → ∀ tau, e.kind ≠ .target tau)
    (ha : p.aRate = true) (hb : p.buffer = []) (hc : isConstant p b = true)
    (hfull : loop A b n p = .ok p') (hq : computeBuffer A p b = .ok q) :
    ∃ v k, q.buffer = [v] ∧ p'.buffer = List.replicate b.count (A.flush^[k] v) := by
  have hq' : q.buffer = [p.intrinsic] := by
    unfold computeBuffer at hq
    dsimp only at hq
    have hc' : ∀ (c : V) (buf : List V), isConstant { p with current := c, buffer := buf } b =
      isConstant p b := fun _ _ => rfl
    rw [hc', if_pos hc] at hq
    cases hq
    simp [hc]
  refine ⟨p.intrinsic, ?_⟩
  have hfill : ∀ (k : Nat) (f : Nat → V), b.count ≤ k → (∀ i < b.count, f i = p.intrinsic) →
      extend p.buffer (min k b.count) f = List.replicate b.count p.intrinsic := by
    intro k f hk hf
    rw [hb, Nat.min_eq_right hk, extend]
    simp only [List.nil_append, List.length_nil, Nat.sub_zero]
    rw [List.eq_replicate_iff]
    refine ⟨by simp, fun x hx => ?_⟩
    obtain ⟨i, hi, rfl⟩ := List.mem_map.1 hx
    simp only [List.mem_range'_1] at hi
    exact hf i (by omega)
  -- the first pass fills the buffer
  cases n with
  | zero => cases hfull
  | succ n =>
    unfold loop at hfull
    have hn := b.count_le_index hdt (le_refl b.next)
    have hframe : ∀ {t : K}, b.next ≤ t → ∀ i < b.count, b.frame i < t := by
      intro t ht i hi
      have : (i : K) < b.count := by exact_mod_cast hi
      unfold Block.next at ht
      unfold Block.frame
      nlinarith
    have key : ∀ r, computeEvent A p b = .ok r → r.2.aRate = true ∧
        (r.2.buffer = List.replicate b.count p.intrinsic ∨
         r.2.buffer = List.replicate b.count (A.flush p.intrinsic)) := by
      intro r h
      have hset : ∀ e rest, p.timeline = e :: rest → b.next ≤ e.time → computeSetValue p b = .ok r →
          r.2.aRate = true ∧ (r.2.buffer = List.replicate b.count p.intrinsic ∨
            r.2.buffer = List.replicate b.count (A.flush p.intrinsic)) := by
        intro e rest hp hle h
        unfold computeSetValue at h
        rw [hp] at h
        dsimp only at h
        have : b.count ≤ b.index (e.at b) := by
          unfold Ev.at
          split
          · rename_i h0
            rw [h0] at hle
            refine b.count_le_index hdt (le_trans hle ht)
          · exact b.count_le_index hdt hle
        split at h <;> cases h <;>
          exact ⟨ha, .inl (by simp only [ha, if_true]; exact hfill _ _ this (fun _ _ => rfl))⟩
      unfold isConstant at hc
      unfold computeEvent at h
      split at h
      · cases h
        refine ⟨ha, .inl ?_⟩
        simp only [ha, if_true]
        rw [← Nat.min_self b.count]
        exact (Nat.min_self b.count).symm ▸ hfill b.count _ le_rfl (fun _ _ => rfl)
      · rename_i e rest hp
        rw [hp] at hc
        simp only [Bool.and_eq_true, Bool.not_eq_true', decide_eq_true_eq] at hc
        obtain ⟨hnr, hle⟩ := hc
        split at h
        · exact hset e rest hp hle h
        · exact hset e rest hp hle h
        · rename_i hk; simp [Ev.isRamp, hk] at hnr
        · rename_i hk; simp [Ev.isRamp, hk] at hnr
        · rename_i tau hk
          have hok := hi.ok e (by rw [hp]; simp)
          simp only [EvOk, hk] at hok
          have hs := hi.sorted
          rw [hp] at hs
          have hte : targetEnd b e rest = none := by
            have hn : targetNext b rest = none := by
              cases rest with
              | nil => rfl
              | cons n more =>
                have h1 : n.isRamp = false := by
                  by_contra hr
                  exact htr e n more hp (by simpa using hr) tau hk
                have h2 : ¬ n.time < b.next :=
                  not_lt.2 (le_trans hle ((List.pairwise_cons.1 hs).1 n (by simp)))
                simp [targetNext, h1, h2]
            unfold targetEnd
            rw [hn]
            cases hct : e.cancelTime with
            | none => rfl
            | some c =>
              have : ¬ c < b.next := not_lt.2 (le_trans hle (hok c hct))
              simp [this]
          unfold computeTarget at h
          split at h
          · rename_i e' rest' l hp' _
            rw [hp] at hp'
            obtain ⟨rfl, rfl⟩ : e = e' ∧ rest = rest' := by injection hp' with h1 h2; exact ⟨h1, h2⟩
            dsimp only at h
            rw [hte] at h
            dsimp only [Option.getD_none] at h
            have hbuf := hfill _ (fun i => if b.frame i - e.time < 0 then p.intrinsic
              else A.tgt e.time tau l.value e.value (b.frame i)) hn
              (fun i hi => by rw [if_pos]; have := hframe hle i hi; linarith)
            rw [hbuf, if_pos ha] at h
            split at h
            · cases h
              refine ⟨ha, ?_⟩
              dsimp only
              split
              · right; simp
              · left; rfl
            · cases h; exact ⟨ha, .inl rfl⟩
          · cases h
        · rename_i dur values hk
          have hok := hi.ok e (by rw [hp]; simp)
          simp only [EvOk, hk] at hok
          have hend : b.next ≤ e.cancelTime.getD (e.time + dur) := by
            cases hct : e.cancelTime with
            | none => simp only [Option.getD_none]; linarith [hok.1]
            | some c => exact le_trans hle (hok.2.2 c hct)
          unfold computeCurve at h
          rw [hp] at h
          dsimp only at h
          have hmap : (List.range' p.buffer.length
              (min (b.index (e.cancelTime.getD (e.time + dur))) b.count - p.buffer.length)).mapM
              (fun i => if b.frame i < e.time then some p.intrinsic
                else A.curve e.time dur values (b.frame i)) =
              some (List.replicate b.count p.intrinsic) := by
            rw [hb, Nat.min_eq_right (b.count_le_index hdt hend)]
            simp only [List.length_nil, Nat.sub_zero]
            have gen : ∀ n s, s + n ≤ b.count → (List.range' s n).mapM
                (fun i => if b.frame i < e.time then some p.intrinsic
                  else A.curve e.time dur values (b.frame i)) = some (List.replicate n p.intrinsic) := by
              intro n
              induction n with
              | zero => intro s _; rfl
              | succ n ih =>
                intro s hs
                rw [List.range'_succ, List.mapM_cons, if_pos (hframe hle s (by omega)), ih (s + 1) (by omega)]
                rfl
            exact gen b.count 0 (by omega)
          rw [if_pos ha, hmap, hb] at h
          dsimp only at h
          rw [if_pos hend] at h
          split at h
          · cases h
          · cases h; exact ⟨ha, .inl rfl⟩
        · cases h
        · cases h
    cases he : computeEvent A p b with
    | panic => rw [he] at hfull; cases hfull
    | fuel => rw [he] at hfull; cases hfull
    | ok r =>
      rw [he] at hfull
      simp only [Res.bind] at hfull
      obtain ⟨h1, h2⟩ := key r he
      split at hfull
      · cases hfull
        rcases h2 with h2 | h2
        · exact ⟨0, hq', h2⟩
        · exact ⟨1, hq', h2⟩
      · rcases h2 with h2 | h2
        · obtain ⟨k, hk⟩ := loop_full h1 h2 hfull
          exact ⟨k, hq', hk⟩
        · obtain ⟨k, hk⟩ := loop_full h1 h2 hfull
          exact ⟨k + 1, hq', by rw [hk, Function.iterate_succ_apply]⟩

end

end Verif.Param
