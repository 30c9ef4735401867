import Mathlib.Data.List.Basic
import Mathlib.Logic.Function.Basic

/-!
# Model of sending control messages

Models `ConcreteBaseAudioContext::{send_control_msg, suspend_control_msgs, resume_control_msgs}`
(`/repo/src/context/concrete_base.rs` l.276-320) as called by several control threads.

Atomic steps are: reading and changing `suspended_messages` (under its mutex), and sending one message
to the channel. Between the two, other threads may run; the `render_channel` lock is only read-locked
and does not exclude them. The channel is FIFO (crossbeam), so the list of messages sent is the order
in which the render thread processes them. The check `state() != Closed` is not modelled here (see
`Verif.Control.State`): the context is not closed.
-/

namespace Verif.Control

/-- A message; ghost: the thread and a number that identify the call that issued it. -/
structure Msg where
  tid : Nat
  n : Nat
deriving DecidableEq, Repr

/-- `suspended_messages` (`buf`), the channel with everything sent so far (`chan`), and for each thread
the messages it is about to send to the channel (`pend`): empty when it is not within a call. Ghost:
`issued`, all calls so far. -/
structure St where
  chan : List Msg := []
  buf : Option (List Msg) := none
  pend : Nat → List Msg := fun _ => []
  issued : List Msg := []

inductive Act where
  /-- thread `i` calls `send_control_msg` -/
  | send (i n : Nat)
  /-- thread `i` calls `suspend_control_msgs` -/
  | suspend (i n : Nat)
  /-- thread `i` calls `resume_control_msgs` -/
  | resume (i n : Nat)
  /-- thread `i` sends the next of the messages it holds to the channel -/
  | push (i : Nat)
deriving DecidableEq, Repr

/-- One atomic step; `none`: not possible in this state. -/
def step (s : St) : Act → Option St
  | .send i n =>
    if s.pend i = [] then
      match s.buf with
      | some l => some { s with buf := some (l ++ [⟨i, n⟩]), issued := s.issued ++ [⟨i, n⟩] }
      | none => some { s with pend := Function.update s.pend i [⟨i, n⟩], issued := s.issued ++ [⟨i, n⟩] }
    else none
  | .suspend i n =>
    if s.pend i = [] then
      some { s with buf := some [], pend := Function.update s.pend i [⟨i, n⟩],
                    issued := s.issued ++ [⟨i, n⟩] }
    else none
  | .resume i n =>
    if s.pend i = [] then
      some { s with buf := none, pend := Function.update s.pend i (s.buf.getD [] ++ [⟨i, n⟩]),
                    issued := s.issued ++ [⟨i, n⟩] }
    else none
  | .push i =>
    match s.pend i with
    | m :: l => some { s with chan := s.chan ++ [m], pend := Function.update s.pend i l }
    | [] => none

def run : St → List Act → Option St
  | s, [] => some s
  | s, a :: as => (step s a).bind fun s => run s as

end Verif.Control
