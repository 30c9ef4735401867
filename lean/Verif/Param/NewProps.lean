import Verif.Param.PanicProps

/-!
# C26, C27, C58: parameters of new nodes

The constructor of a node sets the values of its parameters with `set_value` (for example `/repo/src/node/gain.rs` l.100-110),
which leaves an event at time 0 in the timeline (`/repo/src/param.rs` l.403-425, l.995-1046). The application then schedules
set value events and ramps, in any order, before rendering starts.
-/

namespace Verif.Param

section
variable {K V : Type} [Field K] [LinearOrder K] [IsStrictOrderedRing K] [FloorSemiring K]

/-! ## Specification -/

/-- The value at time `t` of set value events and ramps in time order, after the value `v0` at time `t0`; the times of the events
are rounded to the nearest frame. -/
def envelope {K : Type} [Field K] [LinearOrder K] (pw : K → K → K) (dt t : K) : K → K → List (Ev K K) → K
  | _, v0, [] => v0
  | t0, v0, e :: es =>
    if e.time < t + dt / 2 then envelope pw dt t e.time e.value es
    else match e.kind with
      | .linear => v0 + (e.value - v0) * ((t - t0) / (e.time - t0))
      | .exponential => v0 * pw (e.value / v0) ((t - t0) / (e.time - t0))
      | _ => v0

/-! ## Proofs -/

/-- a list sorted by time is determined by its events of each time -/
theorem sorted_unique {l m : List (Ev K V)} (hl : Sorted l) (hm : Sorted m)
    (h : ∀ t, l.filter (fun q => q.time = t) = m.filter fun q => q.time = t) : l = m := by
  induction l generalizing m with
  | nil =>
    cases m with
    | nil => rfl
    | cons b m => have := h b.time; simp at this
  | cons a l ih =>
    cases m with
    | nil => have := h a.time; simp at this
    | cons b m =>
      have hmem : ∀ {x : Ev K V} {u v : List (Ev K V)}, (∀ t, u.filter (fun q => q.time = t) = v.filter fun q => q.time = t) →
          x ∈ u → x ∈ v := by
        intro x u v huv hx
        have : x ∈ u.filter fun q => q.time = x.time := List.mem_filter.2 ⟨hx, by simp⟩
        rw [huv] at this
        exact (List.mem_filter.1 this).1
      have hab : a.time = b.time := by
        refine le_antisymm ?_ ?_
        · rcases List.mem_cons.1 (hmem (fun t => (h t).symm) (List.mem_cons_self (a := b) (l := m))) with e | e
          · rw [e]
          · exact (List.pairwise_cons.1 hl).1 b e
        · rcases List.mem_cons.1 (hmem h (List.mem_cons_self (a := a) (l := l))) with e | e
          · rw [e]
          · exact (List.pairwise_cons.1 hm).1 a e
      have h0 := h a.time
      rw [List.filter_cons_of_pos (by simp), List.filter_cons_of_pos (by simp [hab])] at h0
      obtain ⟨rfl, _⟩ := List.cons.inj h0
      rw [ih (List.pairwise_cons.1 hl).2 (List.pairwise_cons.1 hm).2 fun t => ?_]
      have ht := h t
      by_cases hat : a.time = t
      · rw [List.filter_cons_of_pos (by simpa using hat), List.filter_cons_of_pos (by simpa using hat)] at ht
        exact (List.cons.inj ht).2
      · rwa [List.filter_cons_of_neg (by simpa using hat), List.filter_cons_of_neg (by simpa using hat)] at ht

theorem sort_sort_append (l m : List (Ev K V)) : sort (sort l ++ m) = sort (l ++ m) :=
  sorted_unique (sorted_sort _) (sorted_sort _) fun t => by
    rw [filter_sort, filter_sort, List.filter_append, List.filter_append, filter_sort]

theorem sort_first {e : Ev K V} {l : List (Ev K V)} (h : ∀ x ∈ l, e.time ≤ x.time) : sort (e :: l) = e :: sort l :=
  sorted_unique (sorted_sort _) (List.pairwise_cons.2 ⟨fun x hx => h x (mem_sort.1 hx), sorted_sort l⟩) fun t => by
    rw [filter_sort]
    by_cases he : e.time = t
    · rw [List.filter_cons_of_pos (by simpa using he), List.filter_cons_of_pos (by simpa using he), filter_sort]
    · rw [List.filter_cons_of_neg (by simpa using he), List.filter_cons_of_neg (by simpa using he), filter_sort]

/-- the event that `set_value` leaves -/
abbrev setEv (w : V) : Ev K V := { kind := .setValue, value := w, time := 0 }

/-- scheduling before rendering -/
theorem run_new {A : Arith K V} {dt : K} {count : Nat} (d c w : V) {es : List (Ev K V)} (hs : Simple es)
    (hpos : ∀ e ∈ es, 0 ≤ e.time) :
    run A dt count { p := { intrinsic := d, current := c } } (.event (setEv w) :: es.map Op.event) =
      .ok { p := { intrinsic := w, current := c, timeline := setEv w :: sort es } } := by
  induction es using List.reverseRecOn with
  | nil => rfl
  | append_singleton es e ih =>
    have hs' : Simple es := fun x hx => hs x (by simp [hx])
    have hst : Steps (setEv w :: sort es) := by
      intro x hx
      rcases List.mem_cons.1 hx with rfl | hx
      · exact .inl ⟨.inr rfl, rfl⟩
      · exact hs'.steps x (mem_sort.1 hx)
    rw [List.map_append, ← List.cons_append, run_append, ih hs' fun x hx => hpos x (by simp [hx])]
    simp only [Res.bind, List.map_cons, List.map_nil, run, step]
    rw [handle_simple]
    · simp only [Res.bind]
      have : sort (setEv w :: sort es ++ [e]) = setEv w :: sort (es ++ [e]) := by
        rw [List.cons_append, sort_first, sort_sort_append]
        intro x hx
        rcases List.mem_append.1 hx with hx | hx
        · exact hpos x (by simp [mem_sort.1 hx])
        · exact hpos x (by simp at hx; simp [hx])
      rw [this]
    · exact hst
    · rcases hs e (by simp) with ⟨hk, _⟩ | hk | hk
      · exact .inl hk
      · exact .inr ⟨by simp [Ev.isRamp, hk], by simp⟩
      · exact .inr ⟨by simp [Ev.isRamp, hk], by simp⟩

/-- rendering set value events and ramps that have a predecessor does not panic -/
theorem loop_steps {A : Arith K V} {dt : K} {n0 count n : Nat} {p : Proc K V} (hs : Steps p.timeline)
    (hh : Linked A p.last p.timeline) (hz : ∀ e ∈ p.timeline, e.stop = 0 → n0 = 0) :
    loop A ⟨n0 * dt, dt, count⟩ n p ≠ .panic := by
  induction n generalizing p with
  | zero => exact fun h => nomatch h
  | succ n ih =>
    unfold loop
    cases hp : p.timeline with
    | nil =>
      simp only [computeEvent, hp, Res.bind]
      exact fun h => nomatch h
    | cons e rest =>
      have hs' : Steps rest := fun x hx => hs x (by rw [hp]; simp [hx])
      have hz' : ∀ x ∈ rest, x.stop = 0 → n0 = 0 := fun x hx => hz x (by rw [hp]; simp [hx])
      rw [hp] at hh
      have ramp : ∀ (f : K → K → V → V → K → V) (l0 : Ev K V), p.last = some l0 → e.isRamp = true →
          (∀ t, f l0.time (e.time - l0.time) l0.value e.value t = l0.ramp A e t) →
          computeEvent A p ⟨n0 * dt, dt, count⟩ = .ok (computeRamp f p ⟨n0 * dt, dt, count⟩ e l0 rest) →
          ((computeEvent A p ⟨n0 * dt, dt, count⟩).bind fun r =>
            if r.1 then .ok r.2 else loop A ⟨n0 * dt, dt, count⟩ n r.2) ≠ .panic := by
        intro f l0 hl0 hr hf hce
        rw [hce]
        simp only [Res.bind]
        unfold computeRamp
        dsimp only
        split
        · simp
        · cases hc : e.cancelTime with
          | none =>
            simp only [Bool.false_eq_true, if_false]
            refine ih hs' ?_ hz'
            have := hh.2
            simpa [settle, hc] using this
          | some c =>
            simp only [Bool.false_eq_true, if_false]
            refine ih hs' ?_ hz'
            have := hh.2
            simpa [settle, hc, hl0, hf] using this
      rcases hs e (by rw [hp]; simp) with ⟨hk, hc⟩ | hk | hk
      · have hst : e.stop = e.time := by simp [Ev.stop, hc]
        have hzero : e.at (⟨n0 * dt, dt, count⟩ : Block K) = e.time := by
          unfold Ev.at
          split
          · rename_i h0
            have := hz e (by rw [hp]; simp) (by rw [hst, h0])
            simp [this, h0]
          · rfl
        rw [show computeEvent A p ⟨n0 * dt, dt, count⟩ = computeSetValue p ⟨n0 * dt, dt, count⟩ by
          rcases hk with hk | hk <;> simp only [computeEvent, hp, hk]]
        simp only [hp, computeSetValue, hzero]
        split
        · simp [Res.bind]
        · simp only [Res.bind, Bool.false_eq_true, if_false]
          refine ih hs' ?_ hz'
          have := hh.2
          rwa [show settle A p.last e = e by simp [settle, hc]] at this
      · have hr : e.isRamp = true := by simp [Ev.isRamp, hk]
        obtain ⟨l0, hl0, _⟩ := hh.1 hr
        refine ramp A.lin l0 hl0 hr (fun t => ?_) ?_
        · simp [Ev.ramp, hk]
        · simp only [computeEvent, hp, hk, computeLinear, hl0]
      · have hr : e.isRamp = true := by simp [Ev.isRamp, hk]
        obtain ⟨l0, hl0, hno⟩ := hh.1 hr
        refine ramp A.exp l0 hl0 hr (fun t => ?_) ?_
        · simp [Ev.ramp, hk]
        · simp only [computeEvent, hp, hk, computeExp, hl0, hno hk, Bool.false_eq_true, if_false]

theorem rendering_ok {A : Arith K V} {dt : K} (hdt : 0 < dt) {count : Nat} {v : V} {es : List (Ev K V)} {s : Sys K V}
    (hr : Rendering A dt v es s) : ∃ s', step A dt count s .block = .ok s' := by
  obtain ⟨done, h1, h2, h3⟩ := hr.split
  cases hc : computeBuffer A s.p ⟨s.frame * dt, dt, count⟩ with
  | ok p' => exact ⟨_, by simp only [step, hc, Res.bind]; rfl⟩
  | fuel => exact absurd hc (C24_terminates A _ _)
  | panic =>
    exfalso
    unfold computeBuffer at hc
    dsimp only at hc
    have hk : ∀ (c : V) (buf : List V), isConstant { s.p with current := c, buffer := buf } ⟨(s.frame : K) * dt, dt, count⟩ =
      isConstant s.p ⟨(s.frame : K) * dt, dt, count⟩ := fun _ _ => rfl
    rw [hk] at hc
    by_cases hb : isConstant s.p ⟨(s.frame : K) * dt, dt, count⟩ = true
    · rw [if_pos hb] at hc
      cases hc
    · rw [if_neg hb] at hc
      refine loop_steps (n0 := s.frame) (dt := dt) (count := count) ?_ ?_ ?_ hc
      · exact fun x hx => hr.simple x (by rw [h1]; exact List.mem_append_right _ hx)
      · exact hr.linked'
      · intro e he h0
        have := hr.ahead e he
        rw [h0] at this
        by_contra hne
        have : (0 : K) < s.frame * dt := mul_pos (by exact_mod_cast Nat.pos_of_ne_zero hne) hdt
        linarith

theorem rendering_runs {A : Arith K V} {dt : K} (hdt : 0 < dt) {count : Nat} (hcount : 2 ≤ count) {v : V} {es : List (Ev K V)} :
    ∀ (k : Nat) {s : Sys K V}, Rendering A dt v es s → ∃ s', run A dt count s (List.replicate k .block) = .ok s' := by
  intro k
  induction k with
  | zero => exact fun {s} _ => ⟨s, rfl⟩
  | succ k ih =>
    intro s hr
    obtain ⟨s1, h1⟩ := rendering_ok (count := count) hdt hr
    obtain ⟨s', h'⟩ := ih (rendering_block hdt hcount hr h1).1
    exact ⟨s', by rw [List.replicate_succ, run, h1]; exact h'⟩

/-- the state of a new parameter after scheduling -/
theorem rendering_new {A : Arith K V} {dt : K} {c w : V} {es : List (Ev K V)}
    (hes : Schedule A (⟨.setValueAtTime, w, 0, none⟩ :: es)) (hpos : ∀ e ∈ es, 0 ≤ e.time) :
    Rendering A dt w (setEv w :: es) { p := { intrinsic := w, current := c, timeline := setEv w :: es } } := by
  have hl := hes.linked
  refine ⟨?_, ?_, ?_, rfl, ⟨[], rfl, ⟨rfl, .inr rfl⟩, by simp⟩, ?_⟩
  · intro x hx
    rcases List.mem_cons.1 hx with rfl | hx
    · exact .inl ⟨.inr rfl, rfl⟩
    · exact hes.simple.steps x (by simp [hx])
  · have := sortedStop_plain hes.plain hes.sorted
    unfold SortedStop at this ⊢
    rw [List.pairwise_cons] at this ⊢
    exact this
  · refine ⟨fun h => (by simp [Ev.isRamp] at h), ?_⟩
    have h2 := hl.2
    have gen : ∀ (l : List (Ev K V)) (a b : Ev K V), a.value = b.value → a.time = b.time → Linked A (some a) l → Linked A (some b) l := by
      intro l
      induction l with
      | nil => intros; trivial
      | cons e l ih =>
        intro a b hv ht h
        refine ⟨fun hr => ?_, ?_⟩
        · obtain ⟨l0, hl0, hx⟩ := h.1 hr
          cases hl0
          exact ⟨b, rfl, by rw [← hv]; exact hx⟩
        · have := h.2
          rw [show settle A (some b) e = settle A (some a) e by cases hc : e.cancelTime <;> simp [settle, Ev.ramp, hv, ht, hc]]
          exact this
    exact gen _ (settle A none ⟨.setValueAtTime, w, 0, none⟩) _ rfl rfl h2
  · intro x hx
    rcases List.mem_cons.1 hx with rfl | hx
    · simp [Ev.stop]
    · rw [stop_plain (hes.plain x (by simp [hx]))]
      simpa using hpos x hx

end

section exact
variable {K : Type} [Field K] [LinearOrder K] [IsStrictOrderedRing K] [FloorRing K] [FloorSemiring K]

theorem denote_envelope {ex : K → K} {pw : K → K → K} {mn mx dt : K} (hdt : 0 < dt) (n : Nat) : ∀ (es : List (Ev K K)) (e0 : Ev K K),
    Simple es → (∀ e ∈ es, e.cancelTime = none ∧ 0 ≤ e.time) →
    denote (exact ex pw mn mx) dt n e0.value (some e0) es = envelope pw dt (n * dt) e0.time e0.value es := by
  intro es
  induction es with
  | nil => intros; rfl
  | cons e es ih =>
    intro e0 hs hp
    obtain ⟨hc, hpos⟩ := hp e (by simp)
    have hiff : n < frameOf dt e.stop ↔ ¬ e.time < n * dt + dt / 2 := by
      rw [stop_plain hc, frameOf, ← Nat.add_one_le_iff, Nat.le_floor_iff (by positivity), not_lt]
      push_cast
      rw [show e.time / dt + 1 / 2 = (e.time + dt / 2) / dt by field_simp, le_div_iff₀ hdt]
      constructor <;> intro h <;> linarith
    rw [denote, envelope]
    by_cases h : e.time < n * dt + dt / 2
    · rw [if_pos h, if_neg (by rw [hiff]; exact not_not.2 h), settle_plain hc]
      exact ih e (fun x hx => hs x (by simp [hx])) fun x hx => hp x (by simp [hx])
    · rw [if_neg h, if_pos (hiff.2 h)]
      rcases hs e (by simp) with ⟨hk, _⟩ | hk | hk
      · simp [before, Ev.isRamp, hk]
      · simp only [before, Ev.isRamp, hk, Ev.ramp, exact]
        ring
      · simp [before, Ev.isRamp, hk, Ev.ramp, exact]

/-- a quantum of a new parameter after scheduling -/
theorem run_planned {ex : K → K} {pw : K → K → K} {mn mx dt : K} (hdt : 0 < dt) {count : Nat} (hcount : 2 ≤ count)
    {c w : K} {es : List (Ev K K)} (hes : Schedule (exact ex pw mn mx) (⟨.setValueAtTime, w, 0, none⟩ :: es))
    (hpos : ∀ e ∈ es, 0 ≤ e.time) (k : Nat) :
    ∃ s, run (exact ex pw mn mx) dt count { p := { intrinsic := w, current := c, timeline := setEv w :: es } }
        (List.replicate (k + 1) .block) = .ok s ∧
      ∀ j < count, s.p.valueAt j = some (envelope pw dt ((k * count + j : Nat) * dt) 0 w es) := by
  have hr := rendering_new (dt := dt) (c := c) hes hpos
  obtain ⟨s, h⟩ := rendering_runs hdt hcount (k + 1) hr
  refine ⟨s, h, fun j hj => ?_⟩
  rw [rendering_blocks hdt hcount hr h j hj, denote, if_neg (by
    have := frameOf_nat hdt 0
    rw [Nat.cast_zero, zero_mul] at this
    simp [Ev.stop, this])]
  congr 1
  have hs0 : settle (exact ex pw mn mx) none (setEv w) = setEv w := rfl
  rw [hs0, Nat.zero_add]
  exact denote_envelope hdt _ es (setEv w) (fun x hx => hes.simple x (by simp [hx])) fun x hx =>
    ⟨hes.plain x (by simp [hx]), hpos x hx⟩

/-- C26, C27, C58 for the parameter of a new node (of any default value): its value is set to `w` by the constructor, the events
`es` are scheduled in any order, then quanta are rendered. Nothing panics, and in every frame of every quantum the value is
that of the envelope of the events in time order: set values hold, ramps are lines or exponential curves from the event before,
with the times of events rounded to the nearest frame. -/
theorem C26_C27_new {ex : K → K} {pw : K → K → K} {mn mx dt : K} (hdt : 0 < dt) {count : Nat} (hcount : 2 ≤ count)
    {d c w : K} {es : List (Ev K K)} (hes : Schedule (exact ex pw mn mx) (⟨.setValueAtTime, w, 0, none⟩ :: sort es))
    (hpos : ∀ e ∈ es, 0 ≤ e.time) (k : Nat) :
    ∃ s, run (exact ex pw mn mx) dt count { p := { intrinsic := d, current := c } }
        (.event { kind := .setValue, value := w, time := 0 } :: es.map Op.event ++ List.replicate (k + 1) .block) = .ok s ∧
      ∀ j < count, s.p.valueAt j = some (envelope pw dt ((k * count + j : Nat) * dt) 0 w (sort es)) := by
  rw [run_append, run_new d c w (fun x hx => hes.simple x (by simp [mem_sort.2 hx])) hpos]
  exact run_planned hdt hcount hes (fun x hx => hpos x (mem_sort.1 hx)) k

end exact

/-- A ramp and a value that are scheduled in the wrong order: the hypotheses are met, and the envelope is not constant. -/
example : let es : List (Ev ℚ ℚ) := [⟨.linear, 9, 4, none⟩, ⟨.setValueAtTime, 1, 2, none⟩]
    Schedule (exact (K := ℚ) id (fun x _ => x) (-100) 100) (⟨.setValueAtTime, 5, 0, none⟩ :: sort es) ∧
      envelope (fun x _ => x) 1 1 0 5 (sort es) = 5 ∧ envelope (fun x _ => x) 1 3 0 5 (sort es) = 5 ∧
      envelope (fun x _ => x) 1 4 0 5 (sort es) = 9 := by
  refine ⟨⟨by norm_num [Simple, sort], by norm_num [sort], by norm_num [Sorted, sort], by simp, by
    norm_num [sort]
    exact ⟨nofun, nofun⟩⟩, ?_, ?_, ?_⟩ <;> decide +kernel

end Verif.Param
