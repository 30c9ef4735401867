import Verif.Events.QueueProps

/-!
# Model of the events of an offline rendering, and C81

Models the part of `OfflineAudioContext::start_rendering_sync` (`/repo/src/context/offline.rs` l.156-187)
and `RenderThread::render_audiobuffer_sync` (`/repo/src/render/thread.rs` l.260-302) that raises and
handles events, with `EventLoop::handle_pending_events` (`/repo/src/events.rs` l.226-237),
`ConcreteBaseAudioContext::set_state` (`/repo/src/context/concrete_base.rs` l.393-401) and the wrapper of
the suspend callbacks (`/repo/src/context/offline.rs` l.378-382). The channel is unbounded (offline.rs
l.98-100), so `send` and `try_send` always succeed.

What the graph does is a function of the history (`World`): which events rendering a quantum and the
destructors raise, and which control messages callbacks send. Control messages are numbers. Callbacks do
not panic and do not raise events. Messages of other threads are not modelled. The asynchronous variant
(l.189-227, thread.rs l.309-352) has the same sequence of calls; its suspensions are in
`Verif.Events.Suspend`.
-/

namespace Verif.Events.Offline

open Verif.Events.Queue (Tell Ev Kind Payload CtxState dispatch delivered news seen_dispatch)

/-- Ghost: what happens, in order -/
inductive Tr where
  | raised (t : Tell)
  | handled (k : Kind) (p : Payload)
  | sent (m : Nat)
  | processed (m : Nat)
  | quantum (n : Nat)
deriving DecidableEq, Repr

structure World where
  /-- events raised by rendering a quantum -/
  render : List Tr → List Tell
  /-- control messages sent by the callback of the event that was handled last -/
  react : List Tr → List Nat
  /-- control messages sent by a suspend callback -/
  suspended : List Tr → List Nat
  /-- events raised by the destructors -/
  unload : List Tr → List Tell

structure St where
  queue : List Ev := []
  msgs : List Nat := []
  state : CtxState := .suspended
  trace : List Tr := []
deriving DecidableEq, Repr

/-- `send` on the unbounded channel of events -/
def St.raise (s : St) (t : Tell) : St :=
  { s with queue := s.queue ++ [dispatch t], trace := s.trace ++ [.raised t] }

def St.raiseAll (s : St) (ts : List Tell) : St := ts.foldl St.raise s

/-- `send` on the channel of control messages -/
def St.post (s : St) (m : Nat) : St := { s with msgs := s.msgs ++ [m], trace := s.trace ++ [.sent m] }

def St.postAll (s : St) (ms : List Nat) : St := ms.foldl St.post s

/-- `ConcreteBaseAudioContext::set_state`, concrete_base.rs l.393-401 -/
def St.setState (s : St) (st : CtxState) : St :=
  if s.state ≠ st then { s with state := st }.raise (.stateChange st) else s

/-- `handle_control_messages`, thread.rs l.123-252 -/
def St.control (s : St) : St :=
  { s with msgs := [], trace := s.trace ++ s.msgs.map .processed }

/-- one iteration of `handle_pending_events`, events.rs l.230-234 -/
def St.handle (w : World) (s : St) (e : Ev) : St :=
  let s := { s with trace := s.trace ++ [Tr.handled e.kind (delivered e)] }
  s.postAll (w.react s.trace)

/-- `handle_pending_events`, events.rs l.226-237 -/
def St.pending (w : World) (s : St) : St × Bool :=
  (s.queue.foldl (St.handle w) { s with queue := [] }, !s.queue.isEmpty)

/-- the suspend callback as it is stored, offline.rs l.378-382, and the poll after it, thread.rs l.284-285 -/
def St.suspension (w : World) (s : St) : St :=
  let s := s.setState .suspended
  let s := s.postAll (w.suspended s.trace)
  let s := s.setState .running
  s.control

/-- one iteration of the loop, thread.rs l.278-294; `due`: a suspension is scheduled for this quantum -/
def St.quantum (w : World) (due : Nat → Bool) (s : St) (n : Nat) : St :=
  let s := if due n then s.suspension w else s
  let s := { s with trace := s.trace ++ [Tr.quantum n] }
  let s := s.raiseAll (w.render s.trace)
  match s.pending w with
  | (s, true) => s.control
  | (s, false) => s

/-- `render_audiobuffer_sync`, thread.rs l.260-302 -/
def St.render (w : World) (due : Nat → Bool) (length : Nat) (s : St) : St :=
  let s := s.control
  let s := (List.range ((length + 127) / 128)).foldl (St.quantum w due) s
  let s := s.raiseAll (w.unload s.trace)
  (s.pending w).1

/-- `start_rendering_sync`, offline.rs l.156-187; `buffer` is the result -/
def St.start (w : World) (due : Nat → Bool) (length buffer : Nat) (s : St) : St :=
  let s := s.setState .running
  let s := s.render w due length
  let s := s.setState .closed
  let s := s.raise (.complete buffer)
  (s.pending w).1

/-- the context before rendering: control messages were sent, among them those of the constructor -/
def init (ms : List Nat) : St := ({} : St).postAll ms

/-! ## Specification -/

def raisedOf : List Tr → List Tell := List.filterMap fun | .raised t => some t | _ => none
def handledOf : List Tr → List (Kind × Payload) := List.filterMap fun | .handled k p => some (k, p) | _ => none
def sentOf : List Tr → List Nat := List.filterMap fun | .sent m => some m | _ => none
def processedOf : List Tr → List Nat := List.filterMap fun | .processed m => some m | _ => none
def quantaOf : List Tr → List Nat := List.filterMap fun | .quantum n => some n | _ => none

/-- When a quantum is rendered all control messages that were sent have been processed, in order, and all
events were handled, in order, except for changes of state. -/
def Settled (a : List Tr) : Prop :=
  processedOf a = sentOf a ∧
    ∃ l : List CtxState, (raisedOf a).map news = handledOf a ++ l.map fun s => news (.stateChange s)

def SettledAtQuanta (tr : List Tr) : Prop := ∀ a n b, tr = a ++ .quantum n :: b → Settled a

/-! ## Proofs -/

@[simp] theorem raisedOf_append (a b : List Tr) : raisedOf (a ++ b) = raisedOf a ++ raisedOf b :=
  List.filterMap_append
@[simp] theorem handledOf_append (a b : List Tr) : handledOf (a ++ b) = handledOf a ++ handledOf b :=
  List.filterMap_append
@[simp] theorem sentOf_append (a b : List Tr) : sentOf (a ++ b) = sentOf a ++ sentOf b :=
  List.filterMap_append
@[simp] theorem processedOf_append (a b : List Tr) : processedOf (a ++ b) = processedOf a ++ processedOf b :=
  List.filterMap_append
@[simp] theorem quantaOf_append (a b : List Tr) : quantaOf (a ++ b) = quantaOf a ++ quantaOf b :=
  List.filterMap_append

theorem settled_append {tr seg : List Tr} (h : SettledAtQuanta tr) (hs : quantaOf seg = []) :
    SettledAtQuanta (tr ++ seg) := by
  intro a n b hab
  rcases List.append_eq_append_iff.1 hab with ⟨c, rfl, hc⟩ | ⟨c, rfl, hc⟩
  · exfalso
    rw [hc] at hs
    simp [quantaOf, List.filterMap_append] at hs
  · rcases c with _ | ⟨x, c⟩
    · exfalso
      simp only [List.nil_append] at hc
      rw [← hc] at hs
      simp [quantaOf] at hs
    · simp only [List.cons_append, List.cons.injEq] at hc
      obtain ⟨rfl, rfl⟩ := hc
      exact h a n c rfl

theorem settled_quantum {tr : List Tr} {n : Nat} (h : SettledAtQuanta tr) (hs : Settled tr) :
    SettledAtQuanta (tr ++ [.quantum n]) := by
  intro a m b hab
  rcases List.append_eq_append_iff.1 hab with ⟨c, rfl, hc⟩ | ⟨c, rfl, hc⟩
  · rcases c with _ | ⟨x, c⟩
    · simpa using hs
    · simp at hc
  · rcases c with _ | ⟨x, c⟩
    · simp only [List.nil_append, List.cons.injEq] at hc
      simpa using hs
    · simp only [List.cons_append, List.cons.injEq] at hc
      obtain ⟨rfl, rfl⟩ := hc
      exact h a m c rfl

/-- Invariant: `ts` are the waiting events. -/
structure Inv (s : St) (ts : List Tell) : Prop where
  queue : s.queue = ts.map dispatch
  events : (raisedOf s.trace).map news = handledOf s.trace ++ ts.map news
  msgs : sentOf s.trace = processedOf s.trace ++ s.msgs
  good : SettledAtQuanta s.trace

theorem inv_raise {s : St} {ts : List Tell} (h : Inv s ts) (t : Tell) : Inv (s.raise t) (ts ++ [t]) := by
  refine ⟨by simp [St.raise, h.queue], ?_, ?_, settled_append h.good (by simp [quantaOf])⟩
  · simp only [St.raise, raisedOf_append, handledOf_append, List.map_append, h.events]
    simp [raisedOf, handledOf]
  · have := h.msgs
    simp only [St.raise, sentOf_append, processedOf_append, this]
    simp [sentOf, processedOf]

theorem inv_raiseAll {s : St} {ts : List Tell} (h : Inv s ts) (us : List Tell) :
    Inv (s.raiseAll us) (ts ++ us) := by
  induction us generalizing s ts with
  | nil => simpa [St.raiseAll] using h
  | cons u us ih => simpa [St.raiseAll] using ih (inv_raise h u)

theorem inv_post {s : St} {ts : List Tell} (h : Inv s ts) (m : Nat) : Inv (s.post m) ts := by
  refine ⟨h.queue, ?_, ?_, settled_append h.good (by simp [quantaOf])⟩
  · simpa [St.post, raisedOf, handledOf] using h.events
  · have := h.msgs
    simp only [St.post, sentOf_append, processedOf_append, this]
    simp [sentOf, processedOf]

theorem inv_postAll {s : St} {ts : List Tell} (h : Inv s ts) (ms : List Nat) : Inv (s.postAll ms) ts := by
  induction ms generalizing s with
  | nil => simpa [St.postAll] using h
  | cons u us ih => simpa [St.postAll] using ih (inv_post h u)

theorem inv_setState {s : St} {ts : List Tell} (h : Inv s ts) (st : CtxState) :
    ∃ l : List CtxState, Inv (s.setState st) (ts ++ l.map .stateChange) := by
  unfold St.setState
  split
  · exact ⟨[st], inv_raise (s := { s with state := st }) ⟨h.queue, h.events, h.msgs, h.good⟩ _⟩
  · exact ⟨[], by simpa using h⟩

theorem filterMap_processed (ms : List Nat) :
    sentOf (ms.map .processed) = [] ∧ processedOf (ms.map .processed) = ms ∧
    raisedOf (ms.map .processed) = [] ∧ handledOf (ms.map .processed) = [] ∧
    quantaOf (ms.map .processed) = [] := by
  induction ms with
  | nil => simp [sentOf, processedOf, raisedOf, handledOf, quantaOf]
  | cons m ms ih =>
    simp only [sentOf, processedOf, raisedOf, handledOf, quantaOf] at ih ⊢
    simp [ih]

theorem inv_control {s : St} {ts : List Tell} (h : Inv s ts) : Inv s.control ts := by
  obtain ⟨h1, h2, h3, h4, h5⟩ := filterMap_processed s.msgs
  refine ⟨h.queue, ?_, ?_, settled_append h.good h5⟩
  · simpa [St.control, h3, h4] using h.events
  · simp [St.control, h1, h2, h.msgs]

theorem inv_handle {w : World} {s : St} {t : Tell} {ts : List Tell} (hq : s.queue = [])
    (he : (raisedOf s.trace).map news = handledOf s.trace ++ (t :: ts).map news)
    (hm : sentOf s.trace = processedOf s.trace ++ s.msgs) (hg : SettledAtQuanta s.trace) :
    (s.handle w (dispatch t)).queue = [] ∧
    (raisedOf (s.handle w (dispatch t)).trace).map news =
      handledOf (s.handle w (dispatch t)).trace ++ ts.map news ∧
    sentOf (s.handle w (dispatch t)).trace =
      processedOf (s.handle w (dispatch t)).trace ++ (s.handle w (dispatch t)).msgs ∧
    SettledAtQuanta (s.handle w (dispatch t)).trace := by
  -- use the invariant with an artificial queue
  set s1 : St := { s with
    queue := ts.map dispatch
    trace := s.trace ++ [.handled (dispatch t).kind (delivered (dispatch t))] } with hs1
  have hi : Inv s1 ts := by
    refine ⟨rfl, ?_, ?_, settled_append hg (by simp [quantaOf])⟩
    · have := seen_dispatch t
      simp only [hs1, raisedOf_append, handledOf_append, List.map_append, he]
      simp [raisedOf, handledOf, this]
    · simp only [hs1, sentOf_append, processedOf_append, hm]
      simp [sentOf, processedOf]
  have hpost : ∀ (ms : List Nat) (q : List Ev) (x : St), ({ x with queue := q } : St).postAll ms =
      { x.postAll ms with queue := q } := by
    intro ms q
    induction ms with
    | nil => intro x; rfl
    | cons m ms ih => intro x; exact ih (x.post m)
  have hh : s.handle w (dispatch t) = { s1.postAll (w.react s1.trace) with queue := [] } := by
    rw [← hpost]
    simp [St.handle, hs1, hq]
  have := inv_postAll hi (w.react s1.trace)
  rw [hh]
  exact ⟨rfl, this.events, this.msgs, this.good⟩

theorem inv_pending {w : World} {s : St} {ts : List Tell} (h : Inv s ts) :
    Inv (s.pending w).1 [] ∧ ((s.pending w).2 = false → (s.pending w).1.msgs = s.msgs) := by
  have key : ∀ (ts : List Tell) (x : St), x.queue = [] →
      (raisedOf x.trace).map news = handledOf x.trace ++ ts.map news →
      sentOf x.trace = processedOf x.trace ++ x.msgs → SettledAtQuanta x.trace →
      Inv ((ts.map dispatch).foldl (St.handle w) x) [] := by
    intro ts
    induction ts with
    | nil => intro x hq he hm hg; exact ⟨by simpa using hq, by simpa using he, hm, hg⟩
    | cons t ts ih =>
      intro x hq he hm hg
      obtain ⟨h1, h2, h3, h4⟩ := inv_handle (w := w) hq he hm hg
      exact ih _ h1 h2 h3 h4
  refine ⟨?_, ?_⟩
  · simp only [St.pending, h.queue]
    exact key ts _ rfl h.events h.msgs h.good
  · intro hf
    simp only [St.pending] at hf ⊢
    have : s.queue = [] := by simpa using hf
    simp [this]

theorem inv_suspension {w : World} {s : St} {ts : List Tell} (h : Inv s ts) :
    ∃ l : List CtxState, Inv (s.suspension w) (ts ++ l.map .stateChange) ∧ (s.suspension w).msgs = [] := by
  obtain ⟨l1, h1⟩ := inv_setState h .suspended
  have h2 := inv_postAll h1 (w.suspended (s.setState .suspended).trace)
  obtain ⟨l2, h3⟩ := inv_setState h2 .running
  refine ⟨l1 ++ l2, ?_, rfl⟩
  have := inv_control h3
  simpa [St.suspension] using this

theorem inv_quantum {w : World} {due : Nat → Bool} {s : St} {l : List CtxState}
    (h : Inv s (l.map .stateChange)) (hm : s.msgs = []) (n : Nat) :
    Inv (s.quantum w due n) [] ∧ (s.quantum w due n).msgs = [] := by
  obtain ⟨l', h', hm'⟩ : ∃ l' : List CtxState,
      Inv (if due n then s.suspension w else s) (l'.map .stateChange) ∧
        (if due n then s.suspension w else s).msgs = [] := by
    split
    · obtain ⟨l2, h2, h3⟩ := inv_suspension (w := w) h
      exact ⟨l ++ l2, by simpa using h2, h3⟩
    · exact ⟨l, h, hm⟩
  set s1 := if due n then s.suspension w else s with hs1
  have hset : Settled s1.trace := by
    refine ⟨?_, l', ?_⟩
    · rw [h'.msgs, hm', List.append_nil]
    · rw [h'.events]; simp
  have h2 : Inv { s1 with trace := s1.trace ++ [.quantum n] } (l'.map .stateChange) := by
    refine ⟨h'.queue, ?_, ?_, settled_quantum h'.good hset⟩
    · simpa [raisedOf, handledOf] using h'.events
    · simpa [sentOf, processedOf] using h'.msgs
  have h3 := inv_raiseAll h2 (w.render (s1.trace ++ [.quantum n]))
  have hmsgs : ∀ (ts : List Tell) (x : St), (x.raiseAll ts).msgs = x.msgs := by
    intro ts
    induction ts with
    | nil => intro x; rfl
    | cons t ts ih => intro x; exact ih (x.raise t)
  obtain ⟨h4, h5⟩ := inv_pending (w := w) h3
  simp only [St.quantum, ← hs1]
  split
  · rename_i x hx
    rw [hx] at h4
    exact ⟨inv_control h4, rfl⟩
  · rename_i x hx
    rw [hx] at h4 h5
    refine ⟨h4, ?_⟩
    rw [h5 rfl, hmsgs]; exact hm'

theorem inv_init (ms : List Nat) : Inv (init ms) [] :=
  inv_postAll ⟨rfl, rfl, rfl, fun a n b h => by simp at h⟩ ms

theorem inv_loop {w : World} {due : Nat → Bool} {s : St} {l : List CtxState}
    (h : Inv s (l.map .stateChange)) (hm : s.msgs = []) (ns : List Nat) :
    ∃ l' : List CtxState, Inv (ns.foldl (St.quantum w due) s) (l'.map .stateChange) ∧
      (ns.foldl (St.quantum w due) s).msgs = [] ∧ (ns ≠ [] → l' = []) := by
  induction ns generalizing s l with
  | nil => exact ⟨l, h, hm, by simp⟩
  | cons n ns ih =>
    obtain ⟨h1, h2⟩ := inv_quantum (w := w) (due := due) h hm n
    obtain ⟨l', h3, h4, h5⟩ := ih (l := []) h1 h2
    refine ⟨l', h3, h4, fun _ => ?_⟩
    rcases ns with _ | ⟨m, ns⟩
    · have := h3.queue
      have h6 := h1.queue
      simp only [List.foldl_nil] at this
      rw [h6] at this
      rcases l' with _ | ⟨x, l'⟩
      · rfl
      · simp at this
    · exact h5 (by simp)

/-- the quanta in the trace -/
theorem quanta_raiseAll (ts : List Tell) (s : St) : quantaOf (s.raiseAll ts).trace = quantaOf s.trace := by
  induction ts generalizing s with
  | nil => rfl
  | cons t ts ih =>
    refine (ih (s.raise t)).trans ?_
    simp [St.raise, quantaOf]

theorem quanta_postAll (ms : List Nat) (s : St) : quantaOf (s.postAll ms).trace = quantaOf s.trace := by
  induction ms generalizing s with
  | nil => rfl
  | cons t ts ih =>
    refine (ih (s.post t)).trans ?_
    simp [St.post, quantaOf]

theorem quanta_setState (s : St) (st : CtxState) : quantaOf (s.setState st).trace = quantaOf s.trace := by
  unfold St.setState
  split <;> simp [St.raise, quantaOf]

theorem quanta_control (s : St) : quantaOf s.control.trace = quantaOf s.trace := by
  simp [St.control, (filterMap_processed s.msgs).2.2.2.2]

theorem quanta_pending (w : World) (s : St) : quantaOf (s.pending w).1.trace = quantaOf s.trace := by
  have : ∀ (es : List Ev) (x : St), quantaOf (es.foldl (St.handle w) x).trace = quantaOf x.trace := by
    intro es
    induction es with
    | nil => intro x; rfl
    | cons e es ih =>
      intro x
      refine (ih _).trans ?_
      simp only [St.handle, quanta_postAll]
      simp [quantaOf]
  exact this _ _

theorem quanta_quantum (w : World) (due : Nat → Bool) (s : St) (n : Nat) :
    quantaOf (s.quantum w due n).trace = quantaOf s.trace ++ [n] := by
  have h1 : quantaOf (if due n then s.suspension w else s).trace = quantaOf s.trace := by
    split
    · simp only [St.suspension, quanta_control, quanta_setState, quanta_postAll]
    · rfl
  simp only [St.quantum]
  split
  · rename_i x hx
    have hx1 := congrArg Prod.fst hx
    simp only at hx1
    rw [quanta_control, ← hx1, quanta_pending, quanta_raiseAll, quantaOf_append, h1]
    simp [quantaOf]
  · rename_i x hx
    have hx1 := congrArg Prod.fst hx
    simp only at hx1
    rw [← hx1, quanta_pending, quanta_raiseAll, quantaOf_append, h1]
    simp [quantaOf]

theorem quanta_loop (w : World) (due : Nat → Bool) (s : St) (ns : List Nat) :
    quantaOf (ns.foldl (St.quantum w due) s).trace = quantaOf s.trace ++ ns := by
  induction ns generalizing s with
  | nil => simp
  | cons n ns ih => simp [ih, quanta_quantum]

theorem state_pending (w : World) (s : St) : (s.pending w).1.state = s.state := by
  have hp : ∀ (ms : List Nat) (x : St), (x.postAll ms).state = x.state := by
    intro ms
    induction ms with
    | nil => intro x; rfl
    | cons m ms ih => intro x; exact ih (x.post m)
  have : ∀ (es : List Ev) (x : St), (es.foldl (St.handle w) x).state = x.state := by
    intro es
    induction es with
    | nil => intro x; rfl
    | cons e es ih =>
      intro x
      refine (ih _).trans ?_
      simp only [St.handle, hp]
  exact this _ _

theorem state_raiseAll (ts : List Tell) (s : St) : (s.raiseAll ts).state = s.state := by
  induction ts generalizing s with
  | nil => rfl
  | cons t ts ih => exact ih (s.raise t)

theorem state_postAll (ms : List Nat) (s : St) : (s.postAll ms).state = s.state := by
  induction ms generalizing s with
  | nil => rfl
  | cons t ts ih => exact ih (s.post t)

theorem state_setState (s : St) (st : CtxState) : (s.setState st).state = st := by
  unfold St.setState
  split
  · rfl
  · rename_i h; exact not_not.1 h

theorem state_quantum (w : World) (due : Nat → Bool) (s : St) (n : Nat) (h : s.state = .running) :
    (s.quantum w due n).state = .running := by
  have h1 : (if due n then s.suspension w else s).state = .running := by
    split
    · exact state_setState _ _
    · exact h
  simp only [St.quantum]
  split
  · rename_i x hx
    have := state_pending w (St.raiseAll { (if due n then s.suspension w else s) with
      trace := (if due n then s.suspension w else s).trace ++ [.quantum n] }
      (w.render ((if due n then s.suspension w else s).trace ++ [.quantum n])))
    rw [hx, state_raiseAll] at this
    exact this.trans h1
  · rename_i x hx
    have := state_pending w (St.raiseAll { (if due n then s.suspension w else s) with
      trace := (if due n then s.suspension w else s).trace ++ [.quantum n] }
      (w.render ((if due n then s.suspension w else s).trace ++ [.quantum n])))
    rw [hx, state_raiseAll] at this
    exact this.trans h1

theorem state_loop (w : World) (due : Nat → Bool) (s : St) (ns : List Nat) (h : s.state = .running) :
    (ns.foldl (St.quantum w due) s).state = .running := by
  induction ns generalizing s with
  | nil => exact h
  | cons n ns ih => exact ih _ (state_quantum w due s n h)

/-! ## C81 -/

/-- Offline rendering, for every graph, every set of suspensions and every length, whatever the callbacks
do: when `start_rendering_sync` returns every event that was raised was handled, once and in the order in
which it was raised; the last two are the change to closed and the completion with the rendered buffer.
When a quantum is rendered every control message that any callback sent before was processed, and every
event but changes of state was handled. -/
theorem C81_offline_events (w : World) (due : Nat → Bool) (length buffer : Nat) (ms : List Nat) :
    let tr := ((init ms).start w due length buffer).trace
    handledOf tr = (raisedOf tr).map news ∧
      (∃ ts, raisedOf tr = ts ++ [.stateChange .closed, .complete buffer]) ∧
      quantaOf tr = List.range ((length + 127) / 128) ∧ SettledAtQuanta tr := by
  intro tr
  have h0 := inv_init ms
  have q0 : quantaOf (init ms).trace = [] := by
    rw [init, quanta_postAll]; rfl
  have st0 : (init ms).state = .suspended := state_postAll _ _
  set s0 := init ms with hs0
  have hset : s0.setState .running = { s0 with state := .running }.raise (.stateChange .running) := by
    simp [St.setState, st0]
  have h1 : Inv (s0.setState .running) ([CtxState.running].map .stateChange) := by
    rw [hset]
    exact inv_raise (s := { s0 with state := .running }) ⟨h0.queue, h0.events, h0.msgs, h0.good⟩ _
  have h2 := inv_control h1
  have hm2 : (s0.setState .running).control.msgs = [] := rfl
  obtain ⟨l, h3, -, -⟩ := inv_loop (w := w) (due := due) h2 hm2 (List.range ((length + 127) / 128))
  have q3 := quanta_loop w due (s0.setState .running).control (List.range ((length + 127) / 128))
  have st3 := state_loop w due (s0.setState .running).control (List.range ((length + 127) / 128))
    (state_setState _ _)
  set s3 := (List.range ((length + 127) / 128)).foldl (St.quantum w due) (s0.setState .running).control
    with hs3
  have h4 := inv_raiseAll h3 (w.unload s3.trace)
  obtain ⟨h5, -⟩ := inv_pending (w := w) h4
  set s5 := ((s3.raiseAll (w.unload s3.trace)).pending w).1 with hs5
  have hr : (s0.setState .running).render w due length = s5 := rfl
  have st5 : s5.state = .running := by
    rw [hs5, state_pending, state_raiseAll, st3]
  have q5 : quantaOf s5.trace = List.range ((length + 127) / 128) := by
    rw [hs5, quanta_pending, quanta_raiseAll, q3, quanta_control, quanta_setState, q0, List.nil_append]
  have hset5 : s5.setState .closed = { s5 with state := .closed }.raise (.stateChange .closed) := by
    simp [St.setState, st5]
  have h6 : Inv (s5.setState .closed) [.stateChange .closed] := by
    rw [hset5]
    exact inv_raise (s := { s5 with state := .closed }) ⟨h5.queue, h5.events, h5.msgs, h5.good⟩ _
  have h7 := inv_raise h6 (.complete buffer)
  obtain ⟨h8, -⟩ := inv_pending (w := w) h7
  have htr : tr = (((s5.setState .closed).raise (.complete buffer)).pending w).1.trace := rfl
  refine ⟨?_, ?_, ?_, ?_⟩
  · rw [htr]; simpa using h8.events.symm
  · refine ⟨raisedOf s5.trace, ?_⟩
    have hp : ∀ (ms : List Nat) (x : St), raisedOf (x.postAll ms).trace = raisedOf x.trace := by
      intro ms
      induction ms with
      | nil => intro x; rfl
      | cons m ms ih =>
        intro x
        refine (ih (x.post m)).trans ?_
        simp [St.post, raisedOf]
    have : ∀ (es : List Ev) (x : St), raisedOf (es.foldl (St.handle w) x).trace = raisedOf x.trace := by
      intro es
      induction es with
      | nil => intro x; rfl
      | cons e es ih =>
        intro x
        refine (ih _).trans ?_
        simp only [St.handle, hp]
        simp [raisedOf]
    rw [htr]
    refine (this _ _).trans ?_
    rw [hset5]
    simp only [St.raise, raisedOf_append]
    simp [raisedOf]
  · rw [htr, quanta_pending]
    simp only [St.raise, quantaOf_append, quanta_setState, q5]
    simp [quantaOf]
  · rw [htr]; exact h8.good

/-! ### Example -/

/-- a sound ends in every quantum; its callback sends a message; the context is suspended before quantum 1 -/
def sounds : World where
  render tr := [.ended (quantaOf tr).length]
  react tr := [(handledOf tr).length]
  suspended _ := [77]
  unload _ := [.message 5 5]

example : let tr := ((init [100]).start sounds (· == 1) 200 42).trace
    handledOf tr = [(.stateChange, .state .running), (.ended 1, .none), (.stateChange, .state .suspended),
      (.stateChange, .state .running), (.ended 2, .none), (.message 5, .message 5), (.stateChange, .none),
      (.complete, .complete 42)] ∧
    sentOf tr = [100, 1, 2, 77, 3, 4, 5, 6, 7, 8] ∧ processedOf tr = [100, 1, 2, 77, 3, 4, 5] ∧
    quantaOf tr = [0, 1] := by decide +kernel

end Verif.Events.Offline
