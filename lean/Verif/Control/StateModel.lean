import Mathlib.Data.List.Basic

/-!
# Model of the life cycle of an `AudioContext`

Models the part of `AudioContext::{suspend, resume, close}` and their `_sync` variants up to the point
where they wait for the render thread (`/repo/src/context/online.rs` l.523-542, l.569-591, l.610-635,
l.662-682, l.710-730, l.749-775), the buffering of messages (`concrete_base.rs` l.276-320), and the
processing of the messages by the render thread with its effect on the state
(`/repo/src/render/thread.rs` l.186-227). Each of these parts is taken as one atomic step. Other control
messages do not influence the state and are `other`. The audio backend is not modelled.
-/

namespace Verif.Control.State

inductive CtxState where
  | suspended
  | running
  | closed
deriving DecidableEq, Repr

inductive CMsg where
  | startup
  | suspend
  | resume
  | close
  | other
deriving DecidableEq, Repr

/-- the shared atomics, `suspended_messages` (`buf`), the channel (`chan`, next message first) -/
structure St where
  state : CtxState := .suspended
  startupPending : Bool := true
  buf : Option (List CMsg) := none
  chan : List CMsg := [.startup]
deriving DecidableEq, Repr

/-- `send_control_msg`, concrete_base.rs l.276-290 -/
def St.send (s : St) (m : CMsg) : St :=
  if s.state = .closed then s
  else match s.buf with
    | some l => { s with buf := some (l ++ [m]) }
    | none => { s with chan := s.chan ++ [m] }

inductive Act where
  | suspend
  | resume
  | close
  | other
  /-- the render thread processes the next message -/
  | render
deriving DecidableEq, Repr

def step (s : St) : Act → St
  | .suspend => -- online.rs l.527-542, l.667-682; suspend_control_msgs
    if s.state = .closed then s
    else if s.state ≠ .running ∧ s.startupPending = false then s
    else { s with buf := some [], chan := s.chan ++ [.suspend] }
  | .resume => -- online.rs l.577-591, l.715-730; resume_control_msgs
    if s.state ≠ .suspended then s
    else { s with buf := none, chan := s.chan ++ s.buf.getD [] ++ [.resume] }
  | .close => -- online.rs l.614-635, l.754-775
    if s.state = .closed then s
    else if s.state = .running then s.send .close
    else { s with state := .closed }
  | .other => s.send .other
  | .render => -- thread.rs l.136-227
    match s.chan with
    | [] => s
    | .startup :: l => { s with chan := l, startupPending := false, state := .running }
    | .suspend :: l => { s with chan := l, state := .suspended }
    | .resume :: l => { s with chan := l, state := .running }
    | .close :: l => { s with chan := l, state := .closed }
    | .other :: l => { s with chan := l }

def run (s : St) (as : List Act) : St := as.foldl step s

end Verif.Control.State
