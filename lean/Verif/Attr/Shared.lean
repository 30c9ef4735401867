import Verif.Valid.Props
import Mathlib.Logic.Function.Basic

/-!
# Settings shared by threads

The channel configuration of a node and the automation rate of a parameter are set with `&self`, so by several threads
at a time. The value is behind a mutex, and the message to the renderer is sent before the mutex is released.

The steps of a call: the assertions, without the mutex; taking the mutex and writing; sending; releasing the mutex. The
scheduler picks a thread, or the render thread handles a message. A thread which has to wait for the mutex does not move
when it is picked. Sending appends to the channel (what happens to messages while the context is suspended or changes its
sink is C19). Not modelled: getters (they read the value with the mutex), poisoned mutexes.
-/

namespace Verif.Attr

open Verif.Valid (Config Kind)

/-- A setting. `ok`: the assertions of the setter, which may read the value; `sends`: the setter goes on after the
assertions; `write`: the assignment with the mutex; `recv`: the assignment in the renderer. -/
structure Shared (Call V : Type) where
  ok : V → Call → Bool
  sends : Call → Bool
  write : V → Call → V
  recv : V → Call → V

/-- How far a thread is with its call. -/
inductive Pc (Call : Type)
  | idle
  /-- the assertions are passed -/
  | ready (c : Call)
  /-- the thread has the mutex and has written -/
  | wrote (c : Call)
  /-- the thread has the mutex and has sent the message -/
  | sent
deriving DecidableEq

/-- `todo t`: the calls that thread `t` has not begun; `log`: the calls in the order in which they had the mutex (for the
theorems, no step reads it). -/
structure Threads (Call V : Type) where
  val : V
  ren : V
  chan : List Call := []
  owner : Option Nat := none
  pc : Nat → Pc Call := fun _ => .idle
  todo : Nat → List Call
  log : List (Nat × Call) := []

inductive Pick
  | thread (t : Nat)
  | deliver

section
variable {Call V : Type}

/-- `ChannelConfig::set_count_mode`, `set_interpretation`, `set_count`, `/repo/src/node/audio_node.rs` l.132-195, and
`AudioParam::set_automation_rate`, `/repo/src/param.rs` l.348-359 -/
def Shared.step (h : Shared Call V) (s : Threads Call V) : Pick → Threads Call V
  | .thread t =>
    match s.pc t with
    | .idle =>
      match s.todo t with
      | [] => s
      | c :: cs =>
        if h.ok s.val c && h.sends c then
          { s with todo := Function.update s.todo t cs, pc := Function.update s.pc t (.ready c) }
        else { s with todo := Function.update s.todo t cs }
    | .ready c =>
      match s.owner with
      | some _ => s
      | none =>
        { s with
          val := h.write s.val c
          owner := some t
          pc := Function.update s.pc t (.wrote c)
          log := s.log ++ [(t, c)] }
    | .wrote c => { s with chan := s.chan ++ [c], pc := Function.update s.pc t .sent }
    | .sent => { s with owner := none, pc := Function.update s.pc t .idle }
  | .deliver =>
    match s.chan with
    | [] => s
    | c :: cs => { s with chan := cs, ren := h.recv s.ren c }

def Shared.run (h : Shared Call V) (s : Threads Call V) (xs : List Pick) : Threads Call V := xs.foldl h.step s

/-- A new node: the renderer has the value of the node (`AudioContextRegistration`, `inner()` l.197-199). -/
def Threads.new (v : V) (todo : Nat → List Call) : Threads Call V := { val := v, ren := v, todo := todo }

end

/-- The channel configuration of a node. `ok`: what the node asserts (`Verif.Valid.set`); the setters of the count of
mergers and splitters do nothing else (channel_merger.rs l.102-104, channel_splitter.rs l.120-122). `write`:
audio_node.rs l.138, l.162, l.184; `recv`: `Graph::set_channel_count` etc., `/repo/src/render/graph.rs` l.306-320. -/
def channels (k : Kind) : Shared Verif.Valid.Call Config where
  ok v c := (Verif.Valid.set k v c).isSome
  sends c :=
    match k, c with
    | .merger, .count _ => false
    | .splitter _, .count _ => false
    | _, _ => true
  write v c :=
    match c with
    | .count n => { v with count := n }
    | .mode m => { v with mode := m }
    | .interp i => { v with interp := i }
  recv v c :=
    match c with
    | .count n => { v with count := n }
    | .mode m => { v with mode := m }
    | .interp i => { v with interp := i }

/-- The automation rate, `true` for a-rate: `set_automation_rate`, param.rs l.348-359, and `onmessage`, l.704-709. -/
def automationRate (constrained : Bool) : Shared Bool Bool where
  ok v c := !constrained || (c == v)
  sends _ := true
  write _ c := c
  recv _ c := c

end Verif.Attr
