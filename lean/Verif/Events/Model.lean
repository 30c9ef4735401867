import Mathlib.Data.List.Basic
import Mathlib.Logic.Function.Basic

/-!
# Model of the event loop

Models `EventLoop::{handle_event, set_handler, clear_handler}` (`/repo/src/events.rs` l.188-224,
l.261-267). Keys are `EventType` (kind and node id). Handlers are identified by a number (one per
registration). While a callback runs the handlers are not locked: the callback itself, and other threads,
may set and clear handlers, which is the `body` of an event. Payloads and the termination of the loop are
not modelled.
-/

namespace Verif.Events

/-- `EventType`: kind of the event and id of the node (0 for events of the context) -/
structure Key where
  kind : Nat
  id : Nat
deriving DecidableEq, Repr

/-- `EventHandler`, events.rs l.169-172 -/
structure Handler where
  n : Nat
  once : Bool
deriving DecidableEq, Repr

/-- `set_handler` and `clear_handler`, events.rs l.257-263 -/
inductive Change where
  | set (k : Key) (h : Handler)
  | clear (k : Key)
deriving DecidableEq, Repr

abbrev Map := Key → Option Handler

def Map.change (m : Map) : Change → Map
  | .set k h => Function.update m k (some h)
  | .clear k => Function.update m k none

inductive Op where
  | change (c : Change)
  /-- an event is handled; `body`: what is set or cleared while the callback runs, if there is one -/
  | event (k : Key) (body : List Change)

/-- handlers and ghost: the callbacks that ran, with the event -/
structure St where
  map : Map := fun _ => none
  log : List (Key × Handler) := []

/-- `handle_event`, events.rs l.188-224: the handler is removed, the callback runs without the lock, and
a `Multiple` handler is inserted again afterwards. -/
def St.event (s : St) (k : Key) (body : List Change) : St :=
  match s.map k with
  | none => s
  | some h =>
    let m := body.foldl Map.change (Function.update s.map k none)
    { map := if h.once then m else Function.update m k (some h), log := s.log ++ [(k, h)] }

def step (s : St) : Op → St
  | .change c => { s with map := s.map.change c }
  | .event k body => s.event k body

def run (ops : List Op) : St := ops.foldl step {}

end Verif.Events
