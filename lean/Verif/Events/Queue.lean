import Mathlib.Data.List.Basic

/-!
# Model of the delivery of events

Models the channel between the threads that raise events and the event thread of an online context:
`EventDispatch` (`/repo/src/events.rs` l.98-164), `EventLoop::{handle_event, run_in_thread}` (l.188-224,
l.238-255), the channel (`/repo/src/io/mod.rs` l.124-127), the senders in
`/repo/src/render/processor.rs` (l.45-103), `/repo/src/render/thread.rs` (l.207-215, l.534-539) and
`/repo/src/context/concrete_base.rs` (l.322-324, l.393-401).

The handlers themselves are in `Verif.Events.Model`. Here a handler is what it does to the channel: the
events it raises by blocking calls (`set_sink_id` raises `sinkchange`, online.rs l.449; `close` of a
suspended context raises `statechange`, online.rs l.634, l.774), and whether it panics. The channel is a
linearizable queue. The receiver lives as long as a context handle, so `send` never fails: it waits.
-/

namespace Verif.Events.Queue

/-- `EventType`, events.rs l.22-34 -/
inductive Kind where
  | ended (id : Nat)
  | sinkChange
  | stateChange
  | renderCapacity
  | processorError (id : Nat)
  | diagnostics
  | message (id : Nat)
  | complete
  | audioProcessing (id : Nat)
deriving DecidableEq, Repr

/-- `AudioContextState`, context/mod.rs -/
inductive CtxState where
  | suspended
  | running
  | closed
deriving DecidableEq, Repr

/-- `EventPayload`, events.rs l.84-95; the contents are a number -/
inductive Payload where
  | none
  | renderCapacity (v : Nat)
  | processorError (v : Nat)
  | diagnostics (v : Nat)
  | message (v : Nat)
  | state (s : CtxState)
  | complete (v : Nat)
  | audioProcessing (v : Nat)
deriving DecidableEq, Repr

/-- `EventDispatch`, events.rs l.97-101 -/
structure Ev where
  kind : Kind
  payload : Payload
deriving DecidableEq, Repr

/-- what a thread wants to tell: the arguments of the constructors of `EventDispatch` -/
inductive Tell where
  | ended (id : Nat)
  | sinkChange
  | stateChange (s : CtxState)
  | renderCapacity (v : Nat)
  | processorError (id v : Nat)
  | diagnostics (v : Nat)
  | message (id v : Nat)
  | complete (v : Nat)
  | audioProcessing (id v : Nat)
deriving DecidableEq, Repr

/-- the constructors of `EventDispatch`, events.rs l.103-164 -/
def dispatch : Tell → Ev
  | .ended id => ⟨.ended id, .none⟩
  | .sinkChange => ⟨.sinkChange, .none⟩
  | .stateChange s => ⟨.stateChange, .state s⟩
  | .renderCapacity v => ⟨.renderCapacity, .renderCapacity v⟩
  | .processorError id v => ⟨.processorError id, .processorError v⟩
  | .diagnostics v => ⟨.diagnostics, .diagnostics v⟩
  | .message id v => ⟨.message id, .message v⟩
  | .complete v => ⟨.complete, .complete v⟩
  | .audioProcessing id v => ⟨.audioProcessing id, .audioProcessing v⟩

/-- the test of `handle_event`, events.rs l.190-197 -/
def isClosed (e : Ev) : Bool := e.payload == .state .closed

/-- the payload that the callback gets: `event.payload = EventPayload::None`, events.rs l.195 -/
def delivered (e : Ev) : Payload := if isClosed e then .none else e.payload

/-- which payloads the callbacks take without `unreachable!()`: script_processor.rs l.155-158,
audio_node.rs l.450-453, message_port.rs l.37-40, capacity.rs l.148-151, online.rs l.496-501,
offline.rs l.408-417; the callbacks of `ended`, `sinkchange` and `statechange` ignore the payload. -/
def accepts : Kind → Payload → Bool
  | .audioProcessing _, .audioProcessing _ => true
  | .audioProcessing _, _ => false
  | .processorError _, .processorError _ => true
  | .processorError _, _ => false
  | .message _, .message _ => true
  | .message _, _ => false
  | .renderCapacity, .renderCapacity _ => true
  | .renderCapacity, _ => false
  | .diagnostics, .diagnostics _ => true
  | .diagnostics, _ => false
  | .complete, .complete _ => true
  | .complete, _ => false
  | .ended _, _ => true
  | .sinkChange, _ => true
  | .stateChange, _ => true

/-- capacity of the channel, io/mod.rs l.127 -/
def cap : Nat := 256

/-- the event thread, events.rs l.238-255 -/
inductive Loop where
  /-- waiting in `event_recv.iter()` -/
  | idle
  /-- in the callback of an event; `pending`: the callback is inside a blocking `send_event` -/
  | busy (e : Ev) (pending : Option Tell)
  /-- left the loop, or was killed by a panic in a callback -/
  | done
deriving DecidableEq, Repr

structure St where
  /-- contents of the channel -/
  queue : List Ev := []
  loop : Loop := .idle
  /-- the render thread was killed by the `expect` of l.213 -/
  renderDead : Bool := false
  /-- ghost: the events that were handed to their callback, in order, with what the callback got -/
  handled : List (Kind × Payload) := []
deriving DecidableEq, Repr

inductive Act where
  /-- the render thread uses `try_send` and ignores the result: processor.rs l.45-103, thread.rs l.534-539 -/
  | trySend (t : Tell)
  /-- the render thread answers `RunDiagnostics` with `try_send(..).expect(..)`: thread.rs l.211-214 -/
  | diag (v : Nat)
  /-- another thread than the event thread uses the blocking `send_event`: concrete_base.rs l.322-324 -/
  | send (t : Tell)
  /-- the event thread receives the next event and runs its callback -/
  | take
  /-- the running callback calls `send_event` -/
  | call (t : Tell)
  /-- the `send_event` of the running callback succeeds and returns -/
  | sent (t : Tell)
  /-- the callback ends, by a panic or not -/
  | finish (panic : Bool)
deriving DecidableEq, Repr

/-- One step; `none`: the thread of the action can not do it now (it waits, or does not exist any more). -/
def step (s : St) : Act → Option St
  | .trySend t =>
    if s.renderDead then none
    else if s.queue.length < cap then some { s with queue := s.queue ++ [dispatch t] }
    else some s
  | .diag v =>
    if s.renderDead then none
    else if s.queue.length < cap then some { s with queue := s.queue ++ [dispatch (.diagnostics v)] }
    else some { s with renderDead := true }
  | .send t =>
    if s.queue.length < cap then some { s with queue := s.queue ++ [dispatch t] } else none
  | .take =>
    match s.loop, s.queue with
    | .idle, e :: q =>
      some { s with queue := q, loop := .busy e none, handled := s.handled ++ [(e.kind, delivered e)] }
    | _, _ => none
  | .call t =>
    match s.loop with
    | .busy e none => some { s with loop := .busy e (some t) }
    | _ => none
  | .sent t =>
    match s.loop with
    | .busy e (some u) =>
      if u = t ∧ s.queue.length < cap then
        some { s with queue := s.queue ++ [dispatch t], loop := .busy e none }
      else none
    | _ => none
  | .finish panic =>
    match s.loop with
    | .busy e none => some { s with loop := if panic || isClosed e then .done else .idle }
    | _ => none

/-- an execution: a sequence of actions that are all possible -/
def run : St → List Act → Option St
  | s, [] => some s
  | s, a :: as =>
    match step s a with
    | none => none
    | some s => run s as

end Verif.Events.Queue
