import Verif.Control.StateModel

/-!
# C52: closed contexts stay closed
-/

namespace Verif.Control.State

/-- the messages that calls wait for -/
def CMsg.awaited : CMsg → Bool
  | .suspend => true
  | .resume => true
  | .close => true
  | _ => false

def Act.isCall : Act → Bool
  | .suspend => true
  | .resume => true
  | .close => true
  | _ => false

/-- The discipline of the synchronous API: each of `suspend_sync`, `resume_sync`, `close_sync` holds the
lock of the backend manager until the render thread has processed its message, so that the next call
only starts when no such message is under way. In addition the context has been started by then. -/
def Disciplined : St → List Act → Prop
  | _, [] => True
  | s, a :: as =>
    (a.isCall = true → s.startupPending = false ∧ ∀ m ∈ s.chan, m.awaited = false) ∧
      Disciplined (step s a) as

/-- C52 fails: closing a context that has not been started yet (state `suspended`, the startup message
still in the queue) and then letting the render thread run: the context is `running` again. -/
theorem C52_negated_startup :
    (run {} [.close]).state = .closed ∧ (run {} [.close, .render]).state = .running := by decide

/-- C52 fails: `close` called while an asynchronous `suspend` is under way. The close request is put
into the buffer for suspended contexts; the render thread can process all messages and the close request
is never among them, so the caller waits forever. After `resume` the context is closed and then
`running` again. -/
theorem C52_negated_async :
    let s := run {} [.render, .suspend, .close]
    s.state = .running ∧ (∀ n, CMsg.close ∉ (run s (List.replicate n .render)).chan ∧
      (run s (List.replicate n .render)).state ≠ .closed) ∧
    (run s [.render, .resume, .render]).state = .closed ∧
    (run s [.render, .resume, .render, .render]).state = .running := by
  refine ⟨by decide, ?_, by decide, by decide⟩
  intro n
  have h1 : run {} [.render, .suspend, .close] =
      { state := .running, startupPending := false, buf := some [.close], chan := [.suspend] } := rfl
  rw [h1]
  have key : ∀ n, run { state := .suspended, startupPending := false, buf := some [.close], chan := [] }
      (List.replicate n .render) =
        { state := .suspended, startupPending := false, buf := some [.close], chan := [] } := by
    intro n
    induction n with
    | zero => rfl
    | succ n ih => exact ih
  cases n with
  | zero => decide
  | succ n =>
    have : run { state := .running, startupPending := false, buf := some [.close], chan := [.suspend] }
        (List.replicate (n + 1) .render) =
        { state := .suspended, startupPending := false, buf := some [.close], chan := [] } := key n
    rw [this]; decide

/-- the awaited messages under way -/
def awaitedOf (l : List CMsg) : List CMsg := l.filter CMsg.awaited

theorem awaitedOf_append (a b : List CMsg) : awaitedOf (a ++ b) = awaitedOf a ++ awaitedOf b := by
  simp [awaitedOf]

theorem awaitedOf_others {l : List CMsg} (h : ∀ m ∈ l, m = .other) : awaitedOf l = [] := by
  rw [awaitedOf, List.filter_eq_nil_iff]
  intro m hm; rw [h m hm]; simp [CMsg.awaited]

structure Inv (s : St) : Prop where
  pending : s.startupPending = true → s.state = .suspended ∧ s.buf = none ∧
    ∃ l, s.chan = .startup :: l ∧ ∀ m ∈ l, m = .other
  started : s.startupPending = false → .startup ∉ s.chan
  way : s.startupPending = false →
    (awaitedOf s.chan = [] ∧ (s.state = .running → s.buf = none)) ∨
    (awaitedOf s.chan = [.suspend] ∧ s.state = .running) ∨
    (awaitedOf s.chan = [.resume] ∧ s.state = .suspended ∧ s.buf = none) ∨
    (awaitedOf s.chan = [.close] ∧ s.state = .running ∧ s.buf = none)
  buf : ∀ l, s.buf = some l → ∀ m ∈ l, m = .other

theorem inv_send {s : St} (hs : Inv s) : Inv (s.send .other) := by
  unfold St.send
  split
  · exact hs
  · cases hb : s.buf with
    | some l =>
      refine ⟨fun h => ?_, hs.started, fun h => ?_, ?_⟩
      · have := (hs.pending h).2.1; rw [hb] at this; cases this
      · have := hs.way h
        simp only [hb, reduceCtorEq, and_false, or_false, imp_false] at this ⊢
        exact this
      · intro l' hl' m hm
        simp only [Option.some.injEq] at hl'
        subst hl'
        rcases List.mem_append.1 hm with hm | hm
        · exact hs.buf l hb m hm
        · simpa using hm
    | none =>
      refine ⟨fun h => ?_, fun h => ?_, fun h => ?_, ?_⟩
      · obtain ⟨h1, h2, l, h3, h4⟩ := hs.pending h
        refine ⟨h1, rfl, l ++ [.other], by simp [h3], ?_⟩
        intro m hm
        rcases List.mem_append.1 hm with hm | hm
        · exact h4 m hm
        · simpa using hm
      · have := hs.started h
        simp [this]
      · have := hs.way h
        simp only [awaitedOf_append, show awaitedOf [CMsg.other] = [] from rfl, List.append_nil]
        simpa [hb] using this
      · intro l hl; cases hl

theorem inv_step {s : St} (hs : Inv s) {a : Act}
    (hd : a.isCall = true → s.startupPending = false ∧ ∀ m ∈ s.chan, m.awaited = false) :
    Inv (step s a) := by
  have hA : a.isCall = true → s.startupPending = false ∧ awaitedOf s.chan = [] := by
    intro h
    refine ⟨(hd h).1, ?_⟩
    rw [awaitedOf, List.filter_eq_nil_iff]
    intro m hm; simp [(hd h).2 m hm]
  cases a with
  | suspend =>
    obtain ⟨hp, ha⟩ := hA rfl
    simp only [step]
    split
    · exact hs
    · split
      · exact hs
      · rename_i h2
        have hr : s.state = .running := by
          by_contra hne; exact h2 ⟨hne, hp⟩
        refine ⟨by simp [hp], fun _ => ?_, fun _ => .inr (.inl ⟨?_, hr⟩), ?_⟩
        · have := hs.started hp; simp [this]
        · simp only [awaitedOf_append, ha]; rfl
        · intro l hl m hm
          simp only [Option.some.injEq] at hl; subst hl; cases hm
  | resume =>
    obtain ⟨hp, ha⟩ := hA rfl
    simp only [step]
    split
    · exact hs
    · rename_i hst
      have hst : s.state = .suspended := by simpa using hst
      have hb : ∀ m ∈ s.buf.getD [], m = .other := by
        cases hb : s.buf with
        | none => simp
        | some l => exact hs.buf l hb
      refine ⟨by simp [hp], fun _ => ?_, fun _ => .inr (.inr (.inl ⟨?_, hst, rfl⟩)), ?_⟩
      · intro hm
        simp only [List.mem_append, List.mem_singleton, reduceCtorEq, or_false] at hm
        rcases hm with hm | hm
        · exact hs.started hp hm
        · have := hb _ hm; cases this
      · simp only [awaitedOf_append, ha, awaitedOf_others hb]; rfl
      · intro l hl; cases hl
  | close =>
    obtain ⟨hp, ha⟩ := hA rfl
    simp only [step]
    split
    · exact hs
    · split
      · rename_i hne hst
        have hb : s.buf = none := by
          rcases hs.way hp with h | h | h | h
          · exact h.2 hst
          · rw [ha] at h; cases h.1
          · exact h.2.2
          · exact h.2.2
        simp only [St.send, if_neg hne, hb]
        refine ⟨by simp [hp], fun _ => ?_, fun _ => .inr (.inr (.inr ⟨?_, hst, rfl⟩)), ?_⟩
        · have := hs.started hp; simp [this]
        · simp only [awaitedOf_append, ha]; rfl
        · intro l hl; cases hl
      · exact ⟨by simp [hp], hs.started, fun _ => .inl ⟨ha, by simp⟩, hs.buf⟩
  | other => exact inv_send hs
  | render =>
    simp only [step]
    split
    · exact hs
    · rename_i l hl
      have hp : s.startupPending = true := by
        cases h : s.startupPending with
        | true => rfl
        | false => exact absurd (by simp [hl]) (hs.started h)
      obtain ⟨_, h2, l', h3, h4⟩ := hs.pending hp
      rw [hl] at h3
      cases h3
      refine ⟨by simp, fun _ hm => ?_, fun _ => .inl ⟨awaitedOf_others h4, fun _ => h2⟩, hs.buf⟩
      have := h4 _ hm; cases this
    all_goals
      rename_i l hl
      have hp : s.startupPending = false := by
        cases h : s.startupPending with
        | false => rfl
        | true =>
          obtain ⟨_, _, l', h3, _⟩ := hs.pending h
          rw [hl] at h3; cases h3
      have hst := hs.started hp
      have hw := hs.way hp
      rw [hl] at hst hw
      simp only [awaitedOf, List.filter_cons, CMsg.awaited, if_true, List.cons.injEq, reduceCtorEq,
        false_and, true_and, false_or, or_false, if_false, Bool.false_eq_true] at hw
      refine ⟨by simp [hp], fun _ hm => hst (by simp [hm]), fun _ => ?_, hs.buf⟩
      simp only [awaitedOf]
      first
        | exact .inl ⟨hw.1, fun _ => hw.2.2⟩
        | exact .inl ⟨hw.1, fun h => by cases h⟩
        | exact hw

theorem inv_run {s : St} (hs : Inv s) {as : List Act} (hd : Disciplined s as) : Inv (run s as) := by
  induction as generalizing s with
  | nil => exact hs
  | cons a as ih => exact ih (inv_step hs hd.1) hd.2

theorem inv_init : Inv {} :=
  ⟨fun _ => ⟨rfl, rfl, [], rfl, by simp⟩, fun h => (by cases h), fun h => (by cases h),
    fun l h => (by cases h)⟩

theorem disciplined_append {s : St} {as bs : List Act} :
    Disciplined s (as ++ bs) ↔ Disciplined s as ∧ Disciplined (run s as) bs := by
  induction as generalizing s with
  | nil => simp [Disciplined, run]
  | cons a as ih =>
    simp only [List.cons_append, Disciplined, ih, and_assoc]
    rfl

theorem closed_step {s : St} (hs : Inv s) {a : Act}
    (hd : a.isCall = true → s.startupPending = false ∧ ∀ m ∈ s.chan, m.awaited = false)
    (hc : s.state = .closed) : (step s a).state = .closed ∧ (step s a).chan <:+ s.chan := by
  have hp : s.startupPending = false := by
    cases h : s.startupPending with
    | false => rfl
    | true => rw [(hs.pending h).1] at hc; cases hc
  have ha : awaitedOf s.chan = [] := by
    rcases hs.way hp with h | h | h | h
    · exact h.1
    · rw [h.2] at hc; cases hc
    · rw [h.2.1] at hc; cases hc
    · rw [h.2.1] at hc; cases hc
  cases a with
  | render =>
    have hst := hs.started hp
    simp only [step]
    split <;> rename_i hl
    · exact ⟨hc, List.suffix_rfl⟩
    · rw [hl] at hst; simp at hst
    · rw [hl] at ha; simp [awaitedOf, CMsg.awaited] at ha
    · rw [hl] at ha; simp [awaitedOf, CMsg.awaited] at ha
    · rw [hl] at ha; simp [awaitedOf, CMsg.awaited] at ha
    · exact ⟨hc, by rw [hl]; exact List.suffix_cons _ _⟩
  | _ => simp [step, St.send, hc]

/-- C52 for the synchronous API on a context that has been started: whatever calls are made and however
the render thread makes progress, once the state is `closed` it remains so, and nothing is added to the
queue of the render thread any more. Missing for the full claim: contexts closed before the render
thread has started, and the asynchronous API; there it is false, see `C52_negated_startup` and
`C52_negated_async`. -/
theorem C52_closed_partial {as bs : List Act} (hd : Disciplined {} (as ++ bs))
    (hc : (run {} as).state = .closed) :
    (run {} (as ++ bs)).state = .closed ∧ (run {} (as ++ bs)).chan <:+ (run {} as).chan := by
  obtain ⟨h1, h2⟩ := disciplined_append.1 hd
  have hI := inv_run inv_init h1
  rw [show run {} (as ++ bs) = run (run {} as) bs by simp [run]]
  generalize run {} as = s at *
  clear hd h1
  induction bs generalizing s with
  | nil => exact ⟨hc, List.suffix_rfl⟩
  | cons b bs ih =>
    obtain ⟨c1, c2⟩ := closed_step hI h2.1 hc
    obtain ⟨d1, d2⟩ := ih (step s b) c1 h2.2 (inv_step hI h2.1)
    exact ⟨d1, d2.trans c2⟩

/-- C52, no waiting forever (synchronous API): a call on a started context puts its message, if any, into
the queue of the render thread (not into the buffer of a suspended context), so that it is processed
after at most as many steps of the render thread as there are messages; then the state is what was asked
for. -/
theorem C52_effect_partial {as : List Act} {a : Act} {target : CtxState}
    (ht : (a = .suspend ∧ target = .suspended) ∨ (a = .resume ∧ target = .running) ∨
      (a = .close ∧ target = .closed))
    (hd : Disciplined {} (as ++ [a])) (hnc : (run {} as).state ≠ .closed) :
    (run {} (as ++ [a] ++ List.replicate (run {} (as ++ [a])).chan.length .render)).state = target := by
  obtain ⟨h1, h2⟩ := disciplined_append.1 hd
  have hI := inv_run inv_init h1
  have e : run {} (as ++ [a]) = step (run {} as) a := by simp [run]
  rw [show ∀ l, run {} (as ++ [a] ++ l) = run (step (run {} as) a) l by intro l; simp [run], e]
  obtain ⟨hdd, _⟩ := h2
  generalize run {} as = s at *
  clear hd h1 e
  -- a queue without awaited messages does not change the state
  have quiet : ∀ (l : List CMsg) (s : St), s.chan = l → (∀ m ∈ l, m = .other) →
      run s (List.replicate l.length .render) = { s with chan := [] } := by
    intro l
    induction l with
    | nil => intro s h _; obtain ⟨_, _, _, c⟩ := s; simp only at h; subst h; rfl
    | cons m l ih =>
      intro s h ho
      have hm := ho m (by simp)
      subst hm
      have e1 : step s .render = { s with chan := l } := by simp [step, h]
      have := ih { s with chan := l } rfl (fun m hm => ho m (by simp [hm]))
      simp only [List.length_cons, List.replicate_succ, run, List.foldl_cons, e1] at this ⊢
      exact this
  have quiet2 : ∀ (l : List CMsg) (m : CMsg) (s : St), s.chan = l ++ [m] → (∀ m ∈ l, m = .other) →
      run s (List.replicate s.chan.length .render) = step { s with chan := [m] } .render := by
    intro l m
    induction l with
    | nil => intro s h _; obtain ⟨_, _, _, c⟩ := s; simp only [List.nil_append] at h; subst h; rfl
    | cons x l ih =>
      intro s h ho
      have hm := ho x (by simp)
      subst hm
      have e1 : step s .render = { s with chan := l ++ [m] } := by simp [step, h]
      have := ih { s with chan := l ++ [m] } rfl (fun m hm => ho m (by simp [hm]))
      rw [h]
      simp only [List.cons_append, List.length_cons, List.replicate_succ, run, List.foldl_cons, e1] at this ⊢
      exact this
  have call : a.isCall = true := by rcases ht with ⟨rfl, _⟩ | ⟨rfl, _⟩ | ⟨rfl, _⟩ <;> rfl
  obtain ⟨hp, haw⟩ := hdd call
  have hst := hI.started hp
  have ho : ∀ m ∈ s.chan, m = .other := by
    intro m hm
    have h1 := haw m hm
    cases m with
    | other => rfl
    | startup => exact absurd hm hst
    | _ => cases h1
  have hbuf : s.state = .running → s.buf = none := by
    intro hr
    rcases hI.way hp with h | h | h | h
    · exact h.2 hr
    · rw [awaitedOf_others ho] at h; cases h.1
    · exact h.2.2
    · exact h.2.2
  rcases ht with ⟨rfl, rfl⟩ | ⟨rfl, rfl⟩ | ⟨rfl, rfl⟩
  · cases hs : s.state with
    | closed => exact absurd hs hnc
    | suspended =>
      have : step s .suspend = s := by simp [step, hs, hp]
      rw [this, quiet s.chan s rfl ho]; exact hs
    | running =>
      have : step s .suspend = { s with buf := some [], chan := s.chan ++ [.suspend] } := by
        simp [step, hs]
      rw [this, quiet2 s.chan .suspend _ rfl ho]; rfl
  · cases hs : s.state with
    | closed => exact absurd hs hnc
    | running =>
      have : step s .resume = s := by simp [step, hs]
      rw [this, quiet s.chan s rfl ho]; exact hs
    | suspended =>
      have : step s .resume = { s with buf := none, chan := (s.chan ++ s.buf.getD []) ++ [.resume] } := by
        simp [step, hs]
      rw [this, quiet2 (s.chan ++ s.buf.getD []) .resume _ rfl]
      · rfl
      · intro m hm
        rcases List.mem_append.1 hm with hm | hm
        · exact ho m hm
        · cases hb : s.buf with
          | none => rw [hb] at hm; cases hm
          | some l => rw [hb] at hm; exact hI.buf l hb m hm
  · cases hs : s.state with
    | closed => exact absurd hs hnc
    | suspended =>
      have : step s .close = { s with state := .closed } := by simp [step, hs]
      rw [this, quiet s.chan { s with state := .closed } rfl ho]
    | running =>
      have : step s .close = { s with chan := s.chan ++ [.close] } := by
        simp [step, hs, St.send, hbuf hs]
      rw [this, quiet2 s.chan .close _ rfl ho]; rfl

/-- Hypotheses met: started, suspended, a message buffered, resumed, closed. -/
example : Disciplined {} ([.render, .suspend, .other, .render, .resume, .render, .render] ++ [.close]) ∧
    (run {} ([.render, .suspend, .other, .render, .resume, .render, .render] ++ [.close])).chan =
      [.close] := by
  refine ⟨?_, by decide⟩
  simp [Disciplined, Act.isCall, step, St.send, CMsg.awaited]

end Verif.Control.State
