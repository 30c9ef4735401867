import Verif.Events.Queue
import Mathlib.Data.List.Infix

/-!
# Delivery of events: C80
-/

namespace Verif.Events.Queue

/-! ## Specification -/

/-- the callback that is meant, and what it should get: the news itself, except that a statechange to
closed carries nothing -/
def news : Tell → Kind × Payload
  | .ended id => (.ended id, .none)
  | .sinkChange => (.sinkChange, .none)
  | .stateChange .closed => (.stateChange, .none)
  | .stateChange .running => (.stateChange, .state .running)
  | .stateChange .suspended => (.stateChange, .state .suspended)
  | .renderCapacity v => (.renderCapacity, .renderCapacity v)
  | .processorError id v => (.processorError id, .processorError v)
  | .diagnostics v => (.diagnostics, .diagnostics v)
  | .message id v => (.message id, .message v)
  | .complete v => (.complete, .complete v)
  | .audioProcessing id v => (.audioProcessing id, .audioProcessing v)

/-- what an action tells -/
def tells : Act → Option Tell
  | .trySend t => some t
  | .diag v => some (.diagnostics v)
  | .send t => some t
  | .sent t => some t
  | .take => none
  | .call _ => none
  | .finish _ => none

/-- everything that was told, in order -/
def raised (as : List Act) : List Tell := as.filterMap tells

/-- the number of callbacks that were started -/
def started (as : List Act) : Nat := as.count .take

/-! ## Proofs -/

theorem seen_dispatch (t : Tell) : ((dispatch t).kind, delivered (dispatch t)) = news t := by
  rcases t with _ | _ | s | _ | _ | _ | _ | _ | _
  case stateChange => cases s <;> rfl
  all_goals rfl

theorem isClosed_dispatch (t : Tell) : isClosed (dispatch t) = true ↔ t = .stateChange .closed := by
  rcases t with _ | _ | s | _ | _ | _ | _ | _ | _
  case stateChange => cases s <;> simp [isClosed, dispatch]
  all_goals simp [isClosed, dispatch]

theorem run_append (as bs : List Act) (s : St) : run s (as ++ bs) = (run s as).bind (run · bs) := by
  induction as generalizing s with
  | nil => rfl
  | cons a as ih =>
    simp only [List.cons_append, run]
    cases step s a with
    | none => rfl
    | some s => simpa using ih s

theorem run_snoc {as : List Act} {a : Act} {s s'' : St} (h : run s (as ++ [a]) = some s'') :
    ∃ s', run s as = some s' ∧ step s' a = some s'' := by
  rw [run_append] at h
  cases hs : run s as with
  | none => simp [hs] at h
  | some s' =>
    refine ⟨s', rfl, ?_⟩
    simp only [hs, Option.bind_some, run] at h
    cases hx : step s' a with
    | none => simp [hx] at h
    | some x => simpa [hx] using h

/-- Invariant: handled and waiting events are a part of what was told. `P` relates the loop to the handled
events. -/
structure Inv (s : St) (told hs qs : List Tell) : Prop where
  sub : (hs ++ qs).Sublist told
  handled : s.handled = hs.map news
  queue : s.queue = qs.map dispatch
  closed : ∀ t ∈ hs.dropLast, t ≠ .stateChange .closed
  last : s.loop = .idle → ∀ t ∈ hs, t ≠ .stateChange .closed
  busy : ∀ e p, s.loop = .busy e p → ∃ t, hs.getLast? = some t ∧ e = dispatch t
  room : s.queue.length ≤ cap

theorem inv_step {s s' : St} {a : Act} {told hs qs : List Tell} (hi : Inv s told hs qs)
    (h : step s a = some s') :
    ∃ hs' qs', Inv s' (told ++ (tells a).toList) hs' qs' ∧
      (a = .take → ∃ t, qs = t :: qs' ∧ hs' = hs ++ [t]) ∧
      (a ≠ .take → hs' = hs) ∧
      ((tells a).isSome → s.queue.length < cap → qs' = qs ++ (tells a).toList ∧
        s'.renderDead = s.renderDead) ∧
      (tells a = none → a ≠ .take → qs' = qs) ∧
      (tells a = none → s'.renderDead = s.renderDead) := by
  obtain ⟨sub, hh, hq, hc, hl, hb, hr⟩ := hi
  have push : ∀ t, (hs ++ (qs ++ [t])).Sublist (told ++ [t]) := fun t => by
    rw [← List.append_assoc]; exact sub.append (List.Sublist.refl _)
  have skip : ∀ t, (hs ++ qs).Sublist (told ++ [t]) := fun t =>
    sub.trans (List.sublist_append_left _ _)
  cases a with
  | trySend t =>
    simp only [step] at h
    split at h
    · cases h
    · split at h
      · rename_i hlt
        obtain rfl := Option.some.inj h
        refine ⟨hs, qs ++ [t], ⟨push t, hh, by simp [hq], hc, hl, hb, ?_⟩, by simp, by simp, by simp [tells],
          by simp [tells], by simp⟩
        simp only [List.length_append, List.length_singleton]; omega
      · rename_i hge
        obtain rfl := Option.some.inj h
        exact ⟨hs, qs, ⟨skip t, hh, hq, hc, hl, hb, hr⟩, by simp, by simp,
          fun _ hlt => absurd hlt hge, by simp [tells], by simp⟩
  | diag v =>
    simp only [step] at h
    split at h
    · cases h
    · split at h
      · rename_i hlt
        obtain rfl := Option.some.inj h
        refine ⟨hs, qs ++ [.diagnostics v], ⟨push _, hh, by simp [hq], hc, hl, hb, ?_⟩, by simp, by simp,
          by simp [tells], by simp [tells], by simp⟩
        simp only [List.length_append, List.length_singleton]; omega
      · rename_i hge
        obtain rfl := Option.some.inj h
        exact ⟨hs, qs, ⟨skip _, hh, hq, hc, hl, hb, hr⟩, by simp, by simp,
          fun _ hlt => absurd hlt hge, by simp [tells], by simp [tells]⟩
  | send t =>
    simp only [step] at h
    split at h
    · rename_i hlt
      obtain rfl := Option.some.inj h
      refine ⟨hs, qs ++ [t], ⟨push t, hh, by simp [hq], hc, hl, hb, ?_⟩, by simp, by simp, by simp [tells],
        by simp [tells], by simp⟩
      simp only [List.length_append, List.length_singleton]; omega
    · cases h
  | take =>
    simp only [step] at h
    split at h
    · rename_i e q hlp hqq
      obtain rfl := Option.some.inj h
      rcases qs with _ | ⟨t, qs⟩
      · simp [hq] at hqq
      · rw [hq] at hqq
        simp only [List.map_cons, List.cons.injEq] at hqq
        obtain ⟨rfl, rfl⟩ := hqq
        refine ⟨hs ++ [t], qs, ⟨by simpa [tells] using sub, ?_, rfl, ?_, by simp, ?_, ?_⟩,
          fun _ => ⟨t, rfl, rfl⟩, by simp, by simp [tells], by simp, by simp⟩
        · simp [hh, seen_dispatch]
        · simpa using hl hlp
        · intro e p he
          simp only [Loop.busy.injEq] at he
          exact ⟨t, by simp, he.1.symm⟩
        · rw [hq] at hr; simp at hr ⊢; omega
    · cases h
  | call t =>
    simp only [step] at h
    split at h
    · rename_i e hlp
      obtain rfl := Option.some.inj h
      refine ⟨hs, qs, ⟨by simpa [tells] using sub, hh, hq, hc, by simp, ?_, hr⟩, by simp, by simp,
        by simp [tells], by simp, by simp⟩
      intro e' p he
      simp only [Loop.busy.injEq] at he
      obtain ⟨rfl, -⟩ := he
      exact hb _ _ hlp
    · cases h
  | sent t =>
    simp only [step] at h
    split at h
    · rename_i e u hlp
      split at h
      · rename_i hlt
        obtain rfl := Option.some.inj h
        refine ⟨hs, qs ++ [t], ⟨push t, hh, by simp [hq], hc, by simp, ?_, ?_⟩, by simp, by simp,
          by simp [tells], by simp [tells], by simp⟩
        · intro e' p he
          simp only [Loop.busy.injEq] at he
          obtain ⟨rfl, -⟩ := he
          exact hb _ _ hlp
        · simp only [List.length_append, List.length_singleton]; omega
      · cases h
    · cases h
  | finish pn =>
    simp only [step] at h
    split at h
    · rename_i e hlp
      obtain rfl := Option.some.inj h
      refine ⟨hs, qs, ⟨by simpa [tells] using sub, hh, hq, hc, ?_, ?_, hr⟩, by simp, by simp,
        by simp [tells], by simp, by simp⟩
      · intro hidle t ht
        obtain ⟨u, hu, rfl⟩ := hb _ _ hlp
        have hnc : isClosed (dispatch u) ≠ true := by
          intro hcl; simp [hcl] at hidle
        rw [ne_eq, isClosed_dispatch] at hnc
        have hne : hs ≠ [] := by rintro rfl; simp at hu
        rw [← List.dropLast_append_getLast hne] at ht
        rw [List.getLast?_eq_some_getLast hne] at hu
        rcases List.mem_append.1 ht with ht | ht
        · exact hc t ht
        · simp only [List.mem_singleton] at ht
          rw [ht, Option.some.inj hu]; exact hnc
      · intro e' p he
        split at he <;> cases he
    · cases h

theorem inv_init : Inv {} [] [] [] :=
  ⟨by simp, rfl, rfl, by simp, by simp, by simp, by simp⟩

theorem inv_run {as : List Act} {s : St} (h : run {} as = some s) :
    ∃ hs qs, Inv s (raised as) hs qs ∧ hs.length = started as := by
  induction as using List.reverseRecOn generalizing s with
  | nil => obtain rfl := Option.some.inj h; exact ⟨[], [], inv_init, rfl⟩
  | append_singleton as a ih =>
    obtain ⟨s', h', hs⟩ := run_snoc h
    obtain ⟨hs', qs', hi, hn⟩ := ih h'
    obtain ⟨hs'', qs'', hi', ht, hnt, -⟩ := inv_step hi hs
    refine ⟨hs'', qs'', ?_, ?_⟩
    · simpa [raised, List.filterMap_append, List.filterMap_cons, List.filterMap_nil, Option.toList] using by
        revert hi'
        cases hx : tells a <;> simp [raised, hx]
    · by_cases hx : a = .take
      · obtain ⟨t, -, rfl⟩ := ht hx
        subst hx
        simp [started] at hn ⊢; omega
      · rw [hnt hx]
        simp only [started] at hn ⊢
        rw [List.count_append, List.count_singleton]
        simp [hx, hn]

/-! ## C80 -/

/-- Callbacks run for events that were raised, each at most once, in the order in which they were
raised, with the news they are meant to get. -/
theorem C80_in_order {as : List Act} {s : St} (h : run {} as = some s) :
    ∃ hs : List Tell, hs.Sublist (raised as) ∧ s.handled = hs.map news := by
  obtain ⟨hs, qs, hi, -⟩ := inv_run h
  exact ⟨hs, (List.sublist_append_left _ _).trans hi.sub, hi.handled⟩

/-- No callback runs after the one for the change to closed. -/
theorem C80_nothing_after_closed {as : List Act} {s : St} (h : run {} as = some s)
    {a b : List (Kind × Payload)} (hab : s.handled = a ++ (.stateChange, .none) :: b) : b = [] := by
  obtain ⟨hs, qs, hi, -⟩ := inv_run h
  rw [hi.handled] at hab
  obtain ⟨l₁, l₂, rfl, h₁, h₂⟩ := List.map_eq_append_iff.1 hab
  obtain ⟨t, l₃, rfl, ht, h₃⟩ := List.map_eq_cons_iff.1 h₂
  have htc : t = .stateChange .closed := by
    rcases t with _ | _ | s | _ | _ | _ | _ | _ | _
    case stateChange => cases s <;> simp [news] at ht ⊢
    all_goals simp [news] at ht
  by_contra hb
  have hl3 : l₃ ≠ [] := by rintro rfl; exact hb (by simpa using h₃.symm)
  refine hi.closed t ?_ htc
  rw [List.dropLast_append_of_ne_nil (by simp), List.dropLast_cons_of_ne_nil hl3]
  simp

/-- No callback gets a payload for which it has no code. -/
theorem C80_payloads {as : List Act} {s : St} (h : run {} as = some s) :
    ∀ kp ∈ s.handled, accepts kp.1 kp.2 = true := by
  obtain ⟨hs, -, hh⟩ := C80_in_order h
  intro kp hk
  rw [hh] at hk
  obtain ⟨t, -, rfl⟩ := List.mem_map.1 hk
  rcases t with _ | _ | s | _ | _ | _ | _ | _ | _
  case stateChange => cases s <;> rfl
  all_goals rfl

theorem inv_run_exact {as : List Act} {s : St} (h : run {} as = some s)
    (hroom : ∀ pre a post, as = pre ++ a :: post → (tells a).isSome →
      (raised pre).length < started pre + 256) :
    ∃ hs qs, Inv s (raised as) hs qs ∧ hs.length = started as ∧ raised as = hs ++ qs ∧
      s.renderDead = false := by
  induction as using List.reverseRecOn generalizing s with
  | nil => obtain rfl := Option.some.inj h; exact ⟨[], [], inv_init, rfl, rfl, rfl⟩
  | append_singleton as a ih =>
    obtain ⟨s', h', hs⟩ := run_snoc h
    obtain ⟨hs', qs', hi, hn, hr, hd⟩ := ih h' fun pre b post hp hb =>
      hroom pre b (post ++ [a]) (by simp [hp]) hb
    obtain ⟨hs'', qs'', hi', ht, hnt, htell, hntell, hdead⟩ := inv_step hi hs
    have hraise : raised (as ++ [a]) = raised as ++ (tells a).toList := by
      cases hx : tells a <;> simp [raised, hx]
    have hcnt : hs''.length = started (as ++ [a]) := by
      by_cases hx : a = .take
      · obtain ⟨t, -, rfl⟩ := ht hx
        subst hx
        simp [started] at hn ⊢; omega
      · rw [hnt hx]
        simp only [started] at hn ⊢
        rw [List.count_append, List.count_singleton]
        simp [hx, hn]
    refine ⟨hs'', qs'', by rw [hraise]; exact hi', hcnt, ?_, ?_⟩
    · rw [hraise, hr]
      by_cases hx : a = .take
      · obtain ⟨t, rfl, rfl⟩ := ht hx
        subst hx; simp [tells]
      · rw [hnt hx]
        cases hy : tells a with
        | none => rw [hntell hy hx]; simp
        | some t =>
          have hlt := hroom as a [] rfl (by simp [hy])
          have hlt' : s'.queue.length < cap := by
            rw [hi.queue, List.length_map]
            rw [hr, List.length_append, hn] at hlt
            simp only [cap]; omega
          obtain ⟨hq, -⟩ := htell (by simp [hy]) hlt'
          rw [hq, hy]; simp
    · cases hy : tells a with
      | none => rw [hdead hy, hd]
      | some t =>
        have hlt := hroom as a [] rfl (by simp [hy])
        have hlt' : s'.queue.length < cap := by
          rw [hi.queue, List.length_map]
          rw [hr, List.length_append, hn] at hlt
          simp only [cap]; omega
        obtain ⟨-, hq⟩ := htell (by simp [hy]) hlt'
        rw [hq, hd]

/-- As long as less than 256 events wait whenever one is raised, no event is lost and the render thread
lives; events are waiting or have been handled, and no thread has to wait when it raises the next one.
In general false: see the negations. -/
theorem C80_no_loss_partial {as : List Act} {s : St} (h : run {} as = some s)
    (hroom : ∀ pre a post, as = pre ++ a :: post → (tells a).isSome →
      (raised pre).length < started pre + 256) :
    (∃ hs rest, raised as = hs ++ rest ∧ s.handled = hs.map news ∧ hs.length = started as) ∧
      s.renderDead = false ∧
      ((raised as).length < started as + 256 → ∀ t, (step s (.send t)).isSome) := by
  obtain ⟨hs, qs, hi, hn, hr, hd⟩ := inv_run_exact h hroom
  refine ⟨⟨hs, qs, hr, hi.handled, hn⟩, hd, fun hlt t => ?_⟩
  have : s.queue.length < cap := by
    rw [hi.queue, List.length_map]
    rw [hr, List.length_append, hn] at hlt
    simp only [cap]; omega
  simp [step, this]

theorem drain (ts us : List Tell) (s : St) (hidle : s.loop = .idle)
    (hq : s.queue = (ts ++ us).map dispatch) (hc : ∀ t ∈ ts.dropLast, t ≠ .stateChange .closed) :
    ∃ more s', (∀ a ∈ more, a = .take ∨ a = .finish false) ∧ run s more = some s' ∧
      s'.handled = s.handled ++ ts.map news ∧ (.stateChange .closed ∈ ts → s'.loop = .done) := by
  induction ts generalizing s with
  | nil => exact ⟨[], s, by simp, rfl, by simp, by simp⟩
  | cons t ts ih =>
    have h1 : step s .take = some { s with
        queue := (ts ++ us).map dispatch
        loop := .busy (dispatch t) none
        handled := s.handled ++ [news t] } := by
      simp only [step, hidle, hq, List.cons_append, List.map_cons, seen_dispatch]
    set s1 : St := { s with
        queue := (ts ++ us).map dispatch
        loop := .busy (dispatch t) none
        handled := s.handled ++ [news t] } with hs1
    by_cases hcl : t = .stateChange .closed
    · have hts : ts = [] := by
        by_contra hne
        exact hc t (by rw [List.dropLast_cons_of_ne_nil hne]; simp) hcl
      subst hts
      refine ⟨[.take, .finish false], { s1 with loop := .done }, by simp, ?_, by simp [hs1], by simp⟩
      simp only [run, h1]
      simp [step, hs1, (isClosed_dispatch t).2 hcl]
    · have hncl : isClosed (dispatch t) = false := by
        rw [← Bool.not_eq_true, isClosed_dispatch]; exact hcl
      obtain ⟨more, s', hm, hr, hh, hd⟩ := ih { s1 with loop := .idle } rfl rfl fun u hu => hc u <| by
        have hne : ts ≠ [] := by rintro rfl; simp at hu
        rw [List.dropLast_cons_of_ne_nil hne]; exact List.mem_cons_of_mem _ hu
      refine ⟨.take :: .finish false :: more, s', ?_, ?_, ?_, ?_⟩
      · intro a ha
        rcases List.mem_cons.1 ha with rfl | ha
        · simp
        · rcases List.mem_cons.1 ha with rfl | ha
          · simp
          · exact hm a ha
      · have h2 : step s1 (.finish false) = some { s1 with loop := .idle } := by
          simp [step, hs1, hncl]
        simp only [run, h1, h2]; exact hr
      · rw [hh]; simp [hs1]
      · intro hmem
        rcases List.mem_cons.1 hmem with h | h
        · exact absurd h.symm hcl
        · exact hd h

/-- As long as less than 256 events wait whenever one is raised, the event thread, when it is between two
callbacks, handles everything that was raised, up to the first change to closed, without the help of any
other thread; then it ends. -/
theorem C80_all_handled_partial {as : List Act} {s : St} (h : run {} as = some s)
    (hroom : ∀ pre a post, as = pre ++ a :: post → (tells a).isSome →
      (raised pre).length < started pre + 256)
    (hidle : s.loop = .idle) {ts us : List Tell} (hts : raised as = ts ++ us)
    (hlen : started as ≤ ts.length) (hc : ∀ t ∈ ts.dropLast, t ≠ .stateChange .closed) :
    ∃ more s', (∀ a ∈ more, a = .take ∨ a = .finish false) ∧ run s more = some s' ∧
      s'.handled = ts.map news ∧ (.stateChange .closed ∈ ts → s'.loop = .done) := by
  obtain ⟨⟨hs, rest, hr, hh, hn⟩, -, -⟩ := C80_no_loss_partial h hroom
  obtain ⟨hs', qs, hi, hn'⟩ := inv_run h
  have hcnt : hs'.length + qs.length = s.handled.length + s.queue.length := by
    rw [hi.handled, hi.queue]; simp
  -- the waiting events are the rest
  have key : hs' = hs ∧ qs = rest := by
    have hle := hi.sub
    have hlen2 : (hs' ++ qs).length = (raised as).length := by
      obtain ⟨hs2, qs2, hi2, hn2, hr2, -⟩ := inv_run_exact h hroom
      have e1 : hs2.length = hs'.length := by omega
      have e2 : qs2.length = qs.length := by
        have := congrArg List.length (hi.queue.symm.trans hi2.queue)
        simpa using this.symm
      rw [hr2]; simp [e1, e2]
    have heq := hle.eq_of_length hlen2
    rw [hr] at heq
    exact List.append_inj heq (by omega)
  obtain ⟨rfl, rfl⟩ := key
  rw [hr] at hts
  have hpre : hs' <+: ts := by
    refine List.prefix_of_prefix_length_le (l₃ := ts ++ us) (hts ▸ List.prefix_append _ _)
      (List.prefix_append _ _) (by omega)
  obtain ⟨mid, rfl⟩ := hpre
  have hq : s.queue = (mid ++ us).map dispatch := by
    rw [hi.queue]
    rw [List.append_assoc] at hts
    rw [List.append_cancel_left hts]
  obtain ⟨more, s', hm, hrn, hh', hd⟩ := drain mid us s hidle hq fun t ht => hc t <| by
    have hne : mid ≠ [] := by rintro rfl; simp at ht
    rw [List.dropLast_append_of_ne_nil hne]; exact List.mem_append_right _ ht
  refine ⟨more, s', hm, hrn, by rw [hh', hi.handled]; simp, fun hmem => ?_⟩
  rcases List.mem_append.1 hmem with hx | hx
  · exact absurd rfl (hi.last hidle _ hx)
  · exact hd hx

/-- Everything waits or ran: a callback whose own `send_event` finds the channel full waits for itself.
From then on nothing is ever handled. -/
theorem stuck_step {s s' : St} {a : Act} {e : Ev} {t : Tell} (hfull : cap ≤ s.queue.length)
    (hb : s.loop = .busy e (some t)) (h : step s a = some s') :
    cap ≤ s'.queue.length ∧ s'.loop = .busy e (some t) ∧ s'.handled = s.handled := by
  have hn : ¬ s.queue.length < cap := by omega
  cases a <;> simp only [step, hb] at h
  case trySend =>
    split at h
    · cases h
    · obtain rfl := Option.some.inj h; exact ⟨hfull, hb, rfl⟩
  case diag =>
    split at h
    · cases h
    · obtain rfl := Option.some.inj h; exact ⟨hfull, rfl, rfl⟩
  case send => simp [hn] at h
  case sent => simp [hn] at h
  all_goals simp at h

theorem stuck_run {as : List Act} {s s' : St} {e : Ev} {t : Tell} (hfull : cap ≤ s.queue.length)
    (hb : s.loop = .busy e (some t)) (h : run s as = some s') :
    cap ≤ s'.queue.length ∧ s'.loop = .busy e (some t) ∧ s'.handled = s.handled := by
  induction as generalizing s with
  | nil => obtain rfl := Option.some.inj h; exact ⟨hfull, hb, rfl⟩
  | cons a as ih =>
    simp only [run] at h
    cases hx : step s a with
    | none => simp [hx] at h
    | some s1 =>
      simp only [hx] at h
      obtain ⟨h1, h2, h3⟩ := stuck_step hfull hb hx
      obtain ⟨h4, h5, h6⟩ := ih h1 h2 h
      exact ⟨h4, h5, h6.trans h3⟩

theorem done_step {s s' : St} {a : Act} (hfull : cap ≤ s.queue.length) (hd : s.loop = .done)
    (h : step s a = some s') : cap ≤ s'.queue.length ∧ s'.loop = .done := by
  have hn : ¬ s.queue.length < cap := by omega
  cases a <;> simp only [step, hd] at h
  case trySend =>
    split at h
    · cases h
    · obtain rfl := Option.some.inj h; exact ⟨hfull, hd⟩
  case diag =>
    split at h
    · cases h
    · obtain rfl := Option.some.inj h; exact ⟨hfull, rfl⟩
  case send => simp [hn] at h
  all_goals simp at h

theorem done_run {as : List Act} {s s' : St} (hfull : cap ≤ s.queue.length) (hd : s.loop = .done)
    (h : run s as = some s') : cap ≤ s'.queue.length ∧ s'.loop = .done := by
  induction as generalizing s with
  | nil => obtain rfl := Option.some.inj h; exact ⟨hfull, hd⟩
  | cons a as ih =>
    simp only [run] at h
    cases hx : step s a with
    | none => simp [hx] at h
    | some s1 =>
      simp only [hx] at h
      obtain ⟨h1, h2⟩ := done_step hfull hd hx
      exact ih h1 h2 h

/-! ### Negations -/

/-- a sound ends while 256 messages of a worklet wait: the callback for its end never runs, though all
others run -/
theorem C80_negated_lost : ∃ as s, run {} as = some s ∧ .ended 7 ∈ raised as ∧ s.queue = [] ∧
    s.loop = .idle ∧ ∀ p, (Kind.ended 7, p) ∉ s.handled := by
  refine ⟨List.replicate 256 (.trySend (.message 3 0)) ++ [.trySend (.ended 7)] ++
    (List.replicate 256 [.take, .finish false]).flatten,
    { handled := List.replicate 256 (.message 3, .message 0) }, by decide +kernel, by decide +kernel, rfl,
    rfl, fun p hp => ?_⟩
  have := List.eq_of_mem_replicate hp
  simp at this

theorem not_done_step {s s' : St} {a : Act} (hd : s.loop ≠ .done)
    (hq : ∀ e ∈ s.queue, isClosed e = false) (hb : ∀ e p, s.loop = .busy e p → isClosed e = false)
    (ha : a ≠ .finish true) (hc : tells a ≠ some (.stateChange .closed)) (h : step s a = some s') :
    s'.loop ≠ .done ∧ (∀ e ∈ s'.queue, isClosed e = false) ∧
      ∀ e p, s'.loop = .busy e p → isClosed e = false := by
  have push : ∀ t, tells a = some t → ∀ e ∈ s.queue ++ [dispatch t], isClosed e = false := by
    intro t ht e he
    rcases List.mem_append.1 he with he | he
    · exact hq e he
    · rw [List.mem_singleton.1 he, ← Bool.not_eq_true, isClosed_dispatch]
      rintro rfl; exact hc ht
  cases a with
  | trySend t =>
    simp only [step] at h
    split at h
    · cases h
    · split at h <;> obtain rfl := Option.some.inj h
      · exact ⟨hd, push t rfl, hb⟩
      · exact ⟨hd, hq, hb⟩
  | diag v =>
    simp only [step] at h
    split at h
    · cases h
    · split at h <;> obtain rfl := Option.some.inj h
      · exact ⟨hd, push _ rfl, hb⟩
      · exact ⟨hd, hq, hb⟩
  | send t =>
    simp only [step] at h
    split at h
    · obtain rfl := Option.some.inj h; exact ⟨hd, push t rfl, hb⟩
    · cases h
  | take =>
    simp only [step] at h
    split at h
    · rename_i e q hlp hqq
      obtain rfl := Option.some.inj h
      rw [hqq] at hq
      refine ⟨by simp, fun x hx => hq x (List.mem_cons_of_mem _ hx), fun x p hx => ?_⟩
      simp only [Loop.busy.injEq] at hx
      rw [← hx.1]; exact hq e (by simp)
    · cases h
  | call t =>
    simp only [step] at h
    split at h
    · rename_i e hlp
      obtain rfl := Option.some.inj h
      refine ⟨by simp, hq, fun x p hx => ?_⟩
      simp only [Loop.busy.injEq] at hx
      rw [← hx.1]; exact hb _ _ hlp
    · cases h
  | sent t =>
    simp only [step] at h
    split at h
    · rename_i e u hlp
      split at h
      · obtain rfl := Option.some.inj h
        refine ⟨by simp, push t rfl, fun x p hx => ?_⟩
        simp only [Loop.busy.injEq] at hx
        rw [← hx.1]; exact hb _ _ hlp
      · cases h
    · cases h
  | finish pn =>
    simp only [step] at h
    split at h
    · rename_i e hlp
      obtain rfl := Option.some.inj h
      have hpn : pn = false := by cases pn; rfl; exact absurd rfl ha
      have := hb _ _ hlp
      refine ⟨by simp [hpn, this], hq, fun x p hx => ?_⟩
      simp [hpn, this] at hx
    · cases h

theorem not_done_run {as : List Act} {s s' : St} (hd : s.loop ≠ .done)
    (hq : ∀ e ∈ s.queue, isClosed e = false) (hb : ∀ e p, s.loop = .busy e p → isClosed e = false)
    (ha : .finish true ∉ as) (hc : .stateChange .closed ∉ raised as) (h : run s as = some s') :
    s'.loop ≠ .done := by
  induction as generalizing s with
  | nil => obtain rfl := Option.some.inj h; exact hd
  | cons a as ih =>
    simp only [run] at h
    cases hx : step s a with
    | none => simp [hx] at h
    | some s1 =>
      simp only [hx] at h
      have hc1 : tells a ≠ some (.stateChange .closed) := fun ht => hc (by simp [raised, ht])
      obtain ⟨h1, h2, h3⟩ := not_done_step hd hq hb (fun e => ha (by simp [e])) hc1 hx
      exact ih h1 h2 h3 (fun hm => ha (List.mem_cons_of_mem _ hm)) (fun hm => hc (by
        simp only [raised, List.filterMap_cons] at hm ⊢
        split
        · exact hm
        · exact List.mem_cons_of_mem _ hm)) h

/-- a running context is closed while 256 messages wait: the change to closed is lost, and the event
thread goes on waiting for ever (unless a callback panics) -/
theorem C80_negated_never_ends : ∃ as s, run {} as = some s ∧ .stateChange .closed ∈ raised as ∧
    ∀ more s', .finish true ∉ more → .stateChange .closed ∉ raised more → run s more = some s' →
      s'.loop ≠ .done := by
  refine ⟨List.replicate 256 (.trySend (.message 3 0)) ++ [.trySend (.stateChange .closed)],
    { queue := List.replicate 256 ⟨.message 3, .message 0⟩ }, by decide +kernel, by decide +kernel,
    fun more s' h1 h2 h3 => not_done_run (by simp) (fun e he => ?_) (by simp) h1 h2 h3⟩
  rw [List.eq_of_mem_replicate he]; rfl

/-- diagnostics are requested while 256 messages wait: the render thread is killed -/
theorem C80_negated_render_killed : ∃ as s, run {} as = some s ∧ s.renderDead = true :=
  ⟨List.replicate 256 (.trySend (.message 3 0)) ++ [.diag 1],
    { queue := List.replicate 256 ⟨.message 3, .message 0⟩, renderDead := true }, by decide +kernel, rfl⟩

/-- a callback changes the sink while 256 messages wait: it waits for itself, and nothing is handled any
more, whatever happens -/
theorem C80_negated_deadlock : ∃ as s, run {} as = some s ∧ s.loop ≠ .done ∧
    ∀ more s', run s more = some s' → s'.handled = s.handled ∧ s'.loop = s.loop ∧
      (∀ t, step s' (.sent t) = none) ∧ ∀ t, step s' (.send t) = none := by
  refine ⟨[.trySend (.stateChange .running), .take] ++ List.replicate 256 (.trySend (.message 3 0)) ++
    [.call .sinkChange],
    { queue := List.replicate 256 ⟨.message 3, .message 0⟩
      loop := .busy ⟨.stateChange, .state .running⟩ (some .sinkChange)
      handled := [(.stateChange, .state .running)] }, by decide +kernel, by simp, fun more s' h => ?_⟩
  obtain ⟨h1, h2, h3⟩ := stuck_run (by rw [List.length_replicate]; exact le_rfl) rfl h
  have hn : ¬ s'.queue.length < cap := by omega
  refine ⟨h3, h2, fun t => ?_, fun t => ?_⟩
  · simp [step, h2, hn]
  · simp [step, hn]

/-- a callback panics: the event thread is gone; when the channel is full every thread that changes the
sink, closes a suspended context or collects render capacity waits for ever -/
theorem C80_negated_waits_forever : ∃ as s, run {} as = some s ∧
    ∀ more s', run s more = some s' → s'.loop = .done ∧ ∀ t, step s' (.send t) = none := by
  refine ⟨[.trySend (.stateChange .running), .take, .finish true] ++
    List.replicate 256 (.trySend (.message 3 0)),
    { queue := List.replicate 256 ⟨.message 3, .message 0⟩
      loop := .done
      handled := [(.stateChange, .state .running)] }, by decide +kernel, fun more s' h => ?_⟩
  obtain ⟨h1, h2⟩ := done_run (by rw [List.length_replicate]; exact le_rfl) rfl h
  have hn : ¬ s'.queue.length < cap := by omega
  exact ⟨h2, fun t => by simp [step, hn]⟩

/-! ### Examples -/

/-- start, a message, the end of a sound, a sink change by the callback of the message, close -/
def life : List Act :=
  [.trySend (.stateChange .running), .take, .trySend (.message 3 9), .finish false, .trySend (.ended 4),
   .take, .call .sinkChange, .sent .sinkChange, .trySend (.stateChange .closed), .trySend (.ended 5),
   .finish false]

def lifeEnd : St :=
  { queue := [⟨.ended 4, .none⟩, ⟨.sinkChange, .none⟩, ⟨.stateChange, .state .closed⟩, ⟨.ended 5, .none⟩]
    handled := [(.stateChange, .state .running), (.message 3, .message 9)] }

example : run {} life = some lifeEnd := by decide +kernel

theorem life_room (pre : List Act) (a : Act) (post : List Act) (h : life = pre ++ a :: post)
    (_ : (tells a).isSome) : (raised pre).length < started pre + 256 := by
  have h1 : (raised pre).length ≤ pre.length := List.length_filterMap_le _ _
  have h2 := congrArg List.length h
  simp [life] at h2
  omega

/-- hypotheses of `C80_no_loss_partial` and `C80_all_handled_partial`: everything up to the close is
handled -/
example : ∃ more s', (∀ a ∈ more, a = .take ∨ a = .finish false) ∧ run lifeEnd more = some s' ∧
    s'.handled = [(.stateChange, .state .running), (.message 3, .message 9), (.ended 4, .none),
      (.sinkChange, .none), (.stateChange, .none)] ∧ s'.loop = .done := by
  obtain ⟨more, s', h1, h2, h3, h4⟩ := C80_all_handled_partial (as := life) (s := lifeEnd)
    (by decide +kernel) life_room rfl
    (ts := [.stateChange .running, .message 3 9, .ended 4, .sinkChange, .stateChange .closed])
    (us := [.ended 5]) (by decide +kernel) (by decide +kernel) (by simp)
  exact ⟨more, s', h1, h2, h3, h4 (by simp)⟩

/-- hypotheses of `C80_in_order`, `C80_nothing_after_closed` and `C80_payloads` -/
example : ∃ s, run {} (life ++ [.take, .finish false, .take, .finish false, .take, .finish false]) = some s ∧
    s.handled = [(.stateChange, .state .running), (.message 3, .message 9), (.ended 4, .none),
      (.sinkChange, .none)] ++ (.stateChange, .none) :: [] ∧ s.queue.length = 1 :=
  ⟨{ queue := [⟨.ended 5, .none⟩]
     loop := .done
     handled := [(.stateChange, .state .running), (.message 3, .message 9), (.ended 4, .none),
      (.sinkChange, .none), (.stateChange, .none)] }, by decide +kernel, by decide, rfl⟩

end Verif.Events.Queue
