import Mathlib.Algebra.Order.Field.Basic
import Mathlib.Algebra.Order.Field.Rat
import Mathlib.Tactic.Linarith
import Mathlib.Tactic.Ring

/-!
# C76: rendering without an audio device

Models the thread of the backend for sink id `"none"` (`/repo/src/io/none.rs` l.38-75, l.146-186) together with
the parts of the context that decide what it is told: the state that the render thread publishes
(`/repo/src/render/thread.rs` l.191-198, l.216-225), `resume`/`suspend` (`/repo/src/context/online.rs` l.523-600)
and `Drop for AudioContext` (`/repo/src/context/online.rs` l.164-173).

The model is a transition system. Time is an element of an ordered field; it passes in steps of any size at
any moment, so that the thread may be delayed arbitrarily by the operating system or by its own rendering.
`recv_deadline` (crate `crossbeam`) returns a message if there is one, even after the deadline; without a
message it fails when the deadline is over, or at once if there are no senders any more. A call of `render`
fills one render quantum. Closing of the context is represented by its message to the thread only.
-/

namespace Verif.Io.NoneBackend

/-- `NoneBackendMessage`, none.rs l.16-20 -/
inductive Msg where
  | resume
  | suspend
  | close
deriving DecidableEq

/-- `Callback` and its surroundings, none.rs l.38-43 -/
structure St (K : Type) where
  now : K
  /-- l.52 -/
  deadline : K
  running : Bool := true
  /-- the channel, capacity 32 (l.112) -/
  queue : List Msg := []
  /-- the backend has not been dropped -/
  senders : Bool := true
  /-- the thread has returned (l.58) -/
  closed : Bool := false
  /-- the state published by the render thread is `Running` -/
  active : Bool := false
  /-- a `Startup` or `Resume` control message waits for the render thread -/
  pending : Bool := true
  /-- ghost: the times at which quanta were rendered -/
  log : List K := []
  /-- ghost: the number of `Resume` messages received -/
  resumes : Nat := 0

variable {K : Type} [Field K] [LinearOrder K]

/-- none.rs l.68-72: after the loop over the messages. Rendering handles the control messages (thread.rs
l.191-198, l.221-225), which makes the context active. -/
def St.tick (I : K) (s : St K) : St K :=
  if s.running then
    { s with log := s.log ++ [s.now], deadline := s.deadline + I, active := s.active || s.pending,
             pending := false }
  else { s with deadline := s.deadline + I }

inductive Step (I : K) : St K → St K → Prop
  /-- time passes -/
  | pass (s : St K) (d : K) (h : 0 ≤ d) : Step I s { s with now := s.now + d }
  /-- none.rs l.56: nothing to receive until the deadline -/
  | timeout (s : St K) (hc : s.closed = false) (hq : s.queue = [])
      (h : s.senders = false ∨ s.deadline ≤ s.now) : Step I s (s.tick I)
  /-- none.rs l.58 -/
  | close (s : St K) (q : List Msg) (hc : s.closed = false) (hq : s.queue = .close :: q) :
      Step I s { s with queue := q, closed := true }
  /-- none.rs l.59-63, then l.68-72 -/
  | resume (s : St K) (q : List Msg) (hc : s.closed = false) (hq : s.queue = .resume :: q) :
      Step I s (St.tick I { s with queue := q, running := true, deadline := s.now + I,
                                   resumes := s.resumes + 1 })
  /-- none.rs l.64 -/
  | suspend (s : St K) (q : List Msg) (hc : s.closed = false) (hq : s.queue = .suspend :: q) :
      Step I s { s with queue := q, running := false }
  /-- `AudioContext::suspend`, online.rs l.523-558: the render thread has processed the control message, then
  the backend is told -/
  | callSuspend (s : St K) (hs : s.senders = true) (ha : s.active = true) (hr : s.running = true)
      (hl : s.queue.length < 32) : Step I s { s with active := false, queue := s.queue ++ [.suspend] }
  /-- `AudioContext::resume`, online.rs l.569-600 -/
  | callResume (s : St K) (hs : s.senders = true) (ha : s.active = false) (hl : s.queue.length < 32) :
      Step I s { s with pending := true, queue := s.queue ++ [.resume] }
  /-- `AudioContext::close` or a change of the sink: the backend is told last -/
  | callClose (s : St K) (hs : s.senders = true) (hl : s.queue.length < 32) :
      Step I s { s with queue := s.queue ++ [.close] }
  /-- `Drop for AudioContext`, online.rs l.164-173: in state `Running` the backend is leaked, otherwise it is
  dropped -/
  | drop (s : St K) : Step I s { s with senders := s.senders && s.active }

inductive Steps (I : K) : St K → St K → Prop
  | refl (s : St K) : Steps I s s
  | tail {s t u : St K} (h : Steps I s t) (h' : Step I t u) : Steps I s u

/-- none.rs l.46-52: the thread starts at time `t₀` -/
def start (I t₀ : K) : St K := { now := t₀, deadline := t₀ + I }

theorem Steps.trans {I : K} {s t u : St K} (h : Steps I s t) (h' : Steps I t u) : Steps I s u := by
  induction h' with
  | refl => exact h
  | tail _ hs ih => exact ih.tail hs

/-! ## Never faster than real time -/

section pace
variable [IsStrictOrderedRing K]

structure Pace (I t₀ : K) (s : St K) : Prop where
  hnow : t₀ ≤ s.now
  hdl : s.deadline ≤ s.now + 2 * I
  hlow : (s.log.length : K) * I + I ≤ s.deadline - t₀ + s.resumes * I
  hlog : (s.log.length : K) * I ≤ s.now - t₀ + s.resumes * I

theorem Pace.step {I t₀ : K} (hI : 0 < I) {s t : St K} (hs : s.senders = true) (h : Pace I t₀ s)
    (hst : Step I s t) : Pace I t₀ t := by
  obtain ⟨h1, h2, h3, h4⟩ := h
  cases hst with
  | pass d hd => exact ⟨by simp only; linarith, by simp only; linarith, h3, by simp only; linarith⟩
  | timeout hc hq hd =>
    have hd : s.deadline ≤ s.now := hd.resolve_left (by simp [hs])
    simp only [St.tick]
    split
    · refine ⟨h1, by simp only; linarith, ?_, ?_⟩ <;>
      · simp only [List.length_append, List.length_singleton, Nat.cast_add, Nat.cast_one]
        linarith
    · exact ⟨h1, by simp only; linarith, by simp only; linarith, h4⟩
  | close q hc hq => exact ⟨h1, h2, h3, h4⟩
  | resume q hc hq =>
    simp only [St.tick, if_true]
    refine ⟨h1, by simp only; linarith, ?_, ?_⟩ <;>
    · simp only [List.length_append, List.length_singleton, Nat.cast_add, Nat.cast_one]
      linarith
  | suspend q hc hq => exact ⟨h1, h2, h3, h4⟩
  | callSuspend => exact ⟨h1, h2, h3, h4⟩
  | callResume => exact ⟨h1, h2, h3, h4⟩
  | callClose => exact ⟨h1, h2, h3, h4⟩
  | drop => exact ⟨h1, h2, h3, h4⟩

omit [IsStrictOrderedRing K] in
theorem senders_back {I : K} {s t : St K} (hst : Step I s t) (h : t.senders = true) :
    s.senders = true := by
  cases hst <;> simp only [St.tick] at h <;> (try split at h) <;> simp_all

/-- **C76** As long as the backend is alive, the graph is never rendered faster than real time: in every
reachable state the quanta rendered so far last no longer than the time since the start, up to one quantum
for each time the context was resumed. -/
theorem C76_pace_partial {I t₀ : K} (hI : 0 < I) {s : St K} (h : Steps I (start I t₀) s)
    (hs : s.senders = true) :
    (s.log.length : K) * I ≤ s.now - t₀ + s.resumes * I := by
  suffices Pace I t₀ s from this.hlog
  generalize hz : start I t₀ = z at h
  induction h with
  | refl =>
    subst hz
    constructor <;> simp [start] <;> linarith
  | tail h' hst ih => exact (ih (senders_back hst hs)).step hI (senders_back hst hs) hst

end pace

/-! ## No drift -/

/-- a run in which the thread gets no messages and the backend lives: time passes, and deadlines -/
inductive Undisturbed (I : K) : St K → St K → Prop
  | refl (s : St K) : Undisturbed I s s
  | pass {s t : St K} (h : Undisturbed I s t) (d : K) (hd : 0 ≤ d) : Undisturbed I s { t with now := t.now + d }
  | timeout {s t : St K} (h : Undisturbed I s t) (hd : t.deadline ≤ t.now) : Undisturbed I s (t.tick I)

/-- **C76** No drift: while nothing is asked of a running backend, the `k`-th quantum is due exactly `k`
intervals after the first deadline, and it is not rendered earlier; however much some quanta are delayed, the
following deadlines are not. -/
theorem C76_no_drift [IsStrictOrderedRing K] {I : K} {s t : St K} (h : Undisturbed I s t)
    (hr : s.running = true) :
    ∃ new : List K, t.log = s.log ++ new ∧ t.deadline = s.deadline + new.length * I ∧
      ∀ k (hk : k < new.length), s.deadline + k * I ≤ new[k] := by
  suffices t.running = true ∧ ∃ new : List K, t.log = s.log ++ new ∧
      t.deadline = s.deadline + new.length * I ∧
      ∀ k (hk : k < new.length), s.deadline + k * I ≤ new[k] from this.2
  induction h with
  | refl => exact ⟨hr, [], by simp, by simp, fun k hk => absurd hk (by simp)⟩
  | pass h d hd ih => exact ih
  | timeout h hd ih =>
    rename_i t
    obtain ⟨hr', new, h1, h2, h3⟩ := ih
    simp only [St.tick, hr', if_true]
    refine ⟨trivial, new ++ [t.now], by simp [h1], ?_, ?_⟩
    · simp only [List.length_append, List.length_singleton, Nat.cast_add, Nat.cast_one, h2]
      ring
    · intro k hk
      rw [List.getElem_append]
      split
      · exact h3 k _
      · rename_i hk'
        have : k = new.length := by simp at hk; omega
        subst this
        simp only [List.getElem_singleton]
        rwa [← h2]

/-! ## Suspended and closed -/

/-- **C76** After the thread has received `Suspend` it renders nothing until it receives a `Resume`, and
after `Close` nothing at all. -/
theorem C76_suspended {I : K} {s t : St K} (h : Steps I s t)
    (hs : (s.running = false ∧ t.resumes = s.resumes) ∨ s.closed = true) : t.log = s.log := by
  have mono : ∀ {a b : St K}, Step I a b → a.resumes ≤ b.resumes := by
    intro a b hab
    cases hab <;> simp only [St.tick] <;> (try split) <;> simp
  have monos : ∀ {a b : St K}, Steps I a b → a.resumes ≤ b.resumes := by
    intro a b hab
    induction hab with
    | refl => exact Nat.le_refl _
    | tail _ h ih => exact Nat.le_trans ih (mono h)
  have key : ((s.running = false ∧ t.resumes = s.resumes) ∨ s.closed = true) →
      t.log = s.log ∧ ((t.running = false ∧ t.resumes = s.resumes) ∨ t.closed = true) := by
    clear hs
    intro hs
    induction h with
    | refl => exact ⟨rfl, hs⟩
    | tail h' hst ih =>
      rename_i a b
      have hs' : (s.running = false ∧ a.resumes = s.resumes) ∨ s.closed = true := by
        rcases hs with ⟨h1, h2⟩ | h
        · have := monos h'
          have := mono hst
          exact .inl ⟨h1, by omega⟩
        · exact .inr h
      obtain ⟨hl, hi⟩ := ih hs'
      cases hst with
      | pass d hd => exact ⟨hl, hi⟩
      | timeout hc hq hd =>
        have hr : a.running = false ∧ a.resumes = s.resumes := hi.resolve_right (by simp [hc])
        simp only [St.tick, hr.1, Bool.false_eq_true, if_false]
        exact ⟨hl, .inl ⟨trivial, hr.2⟩⟩
      | close q hc hq => exact ⟨hl, .inr rfl⟩
      | resume q hc hq =>
        have hr : a.running = false ∧ a.resumes = s.resumes := hi.resolve_right (by simp [hc])
        rcases hs with ⟨-, h2⟩ | hcl
        · simp only [St.tick, if_true] at h2
          omega
        · -- a closed thread stays closed
          exfalso
          have : ∀ {a b : St K}, Steps I a b → a.closed = true → b.closed = true := by
            intro a b hab hca
            induction hab with
            | refl => exact hca
            | tail _ h ih => cases h <;> simp only [St.tick] <;> (try split) <;> first | exact ih | rfl
          rw [this h' hcl] at hc
          simp at hc
      | suspend q hc hq =>
        exact ⟨hl, .inl ⟨rfl, (hi.resolve_right (by simp [hc])).2⟩⟩
      | callSuspend => exact ⟨hl, hi⟩
      | callResume => exact ⟨hl, hi⟩
      | callClose => exact ⟨hl, hi⟩
      | drop => exact ⟨hl, hi⟩
  exact (key hs).1

/-! ## Violations -/

/-- **C76** negated: after a resume at time `t` the first quantum is rendered at once, and the second one is
due only two intervals later. -/
theorem C76_resume_negated {I : K} (s : St K) (q : List Msg) (hc : s.closed = false)
    (hq : s.queue = .resume :: q) :
    ∃ t, Step I s t ∧ t.log = s.log ++ [s.now] ∧ t.deadline = s.now + I + I :=
  ⟨_, .resume s q hc hq, by simp [St.tick], by simp [St.tick]⟩

/-- **C76** negated: a context that is dropped before its render thread has handled the first message is not
in state `Running`, so its backend is dropped, and from then on the thread renders without waiting: any
number of quanta in no time. -/
theorem C76_drop_negated (I t₀ : K) (n : Nat) :
    ∃ s, Steps I (start I t₀) s ∧ s.now = t₀ ∧ s.log.length = n := by
  suffices ∃ s, Steps I (start I t₀) s ∧ s.now = t₀ ∧ s.log.length = n ∧ s.senders = false ∧
      s.queue = [] ∧ s.closed = false ∧ s.running = true by
    obtain ⟨s, h1, h2, h3, -⟩ := this
    exact ⟨s, h1, h2, h3⟩
  induction n with
  | zero =>
    exact ⟨_, (Steps.refl _).tail (.drop _), rfl, rfl, by simp [start], rfl, rfl, rfl⟩
  | succ n ih =>
    obtain ⟨s, h1, h2, h3, h4, h5, h6, h7⟩ := ih
    refine ⟨_, h1.tail (.timeout s h6 h5 (.inl h4)), ?_⟩
    simp [St.tick, h7, h2, h3, h4, h5, h6]

/-- **C76** negated: nor does the thread end; once the backend of a suspended context is dropped it never
waits again (every state with an empty queue can step at once) and never returns. -/
theorem C76_spin_negated {I : K} {s t : St K} (h : Steps I s t) (hq : s.queue = [])
    (hs : s.senders = false) (hc : s.closed = false) :
    t.closed = false ∧ Step I t (t.tick I) := by
  suffices t.queue = [] ∧ t.senders = false ∧ t.closed = false from
    ⟨this.2.2, .timeout t this.2.2 this.1 (.inl this.2.1)⟩
  induction h with
  | refl => exact ⟨hq, hs, hc⟩
  | tail h' hst ih =>
    obtain ⟨h1, h2, h3⟩ := ih
    cases hst <;> simp only [St.tick] <;> (try split) <;> simp_all

/-! ## Examples -/

/-- 1 ms quanta, a delay at the third one, suspended and resumed -/
example : ∃ s : St ℚ, Steps 1 (start 1 0) s ∧ s.senders = true ∧ s.log = [1, 2, 7, 9] ∧ s.resumes = 1 := by
  have a1 := (Steps.refl (start (1 : ℚ) 0)).tail (.pass (I := 1) _ 1 (by norm_num))
  have a2 := a1.tail (.timeout _ rfl rfl (.inr (by norm_num [start])))
  have a3 := (a2.tail (.pass _ 1 (by norm_num))).tail
    (.timeout _ rfl rfl (.inr (by norm_num [start, St.tick])))
  have a4 := (a3.tail (.pass _ 5 (by norm_num))).tail
    (.timeout _ rfl rfl (.inr (by norm_num [start, St.tick])))
  have a5 := (a4.tail (.callSuspend _ rfl rfl rfl (by decide))).tail (.suspend _ [] rfl rfl)
  have a6 := (a5.tail (.pass _ 2 (by norm_num))).tail (.callResume _ rfl rfl (by decide))
  have a7 := a6.tail (.resume _ [] rfl rfl)
  exact ⟨_, a7, rfl, by norm_num [start, St.tick], rfl⟩

example : ∃ s : St ℚ, Undisturbed 1 (start 1 0) s ∧ s.log = [4, 4, 4] ∧ s.deadline = 4 := by
  have a1 := (Undisturbed.refl (start (1 : ℚ) 0)).pass (I := 1) 4 (by norm_num)
  have a2 := ((a1.timeout (by norm_num [start])).timeout (by norm_num [start, St.tick])).timeout
    (by norm_num [start, St.tick])
  exact ⟨_, a2, by norm_num [start, St.tick], by norm_num [start, St.tick]⟩

end Verif.Io.NoneBackend
