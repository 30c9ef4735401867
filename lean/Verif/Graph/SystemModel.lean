import Verif.Graph.RenderModel

/-!
# Model of the control thread(s), the message channel and the render thread

Models the life cycle administration of `/repo/src/context/concrete_base.rs` (id provider l.26-47,
`register` l.232-270, `mark_node_dropped` l.330-347, `connect` l.443-456,
`queue_audio_param_connect` l.461-471, `disconnect` l.474-508, `connect_listener_to_panner`
l.511-513), the FIFO control message channel, and `RenderThread::handle_control_message`
(`/repo/src/render/thread.rs` l.136-252; the messages that concern the graph).

One `Op` is one atomic step of a control thread (under the mutex / channel operation it performs)
or of the render thread (receive one message, render one quantum). A list of ops is an arbitrary
interleaving of any number of control threads with the render thread. `none` means that the render
thread has panicked.

Ghost data (not in the code, no influence on the behaviour): serial numbers `tag` of handles, which
messages carry to express for which node they were meant.
-/

namespace Verif.Render

open Verif.Graph

/-- `ControlMessage` (`/repo/src/message.rs`), the messages that concern the graph. -/
inductive Msg (P M : Type) where
  | register (id tag : Nat) (proc : P) (nin nout : Nat) (cfg : Cfg)
  | connect (src stag : Nat) (e : Edge) (dtag : Nat)
  | disconnect (src stag : Nat) (e : Edge)
  | dropped (id tag : Nat)
  | breaker (id tag : Nat)
  | post (id tag : Nat) (m : M)
  | setCfg (id tag : Nat) (c : Cfg)

/-- `RenderThread::handle_control_message`, thread.rs l.136-252. -/
def RGraph.handle {P S M : Type} (sem : Sem P S M) (g : RGraph P S) : Msg P M → Option (RGraph P S)
  | .register id tag proc nin nout cfg => some (g.addNode sem id tag proc nin nout cfg)
  | .connect src _ e _ => g.addEdge src e
  | .disconnect src _ e => g.removeEdge src e
  | .dropped id _ => g.markDropped id
  | .breaker id _ => g.markBreaker id
  | .post id _ m => g.routeMessage sem id m
  | .setCfg id _ c => g.setCfg id c

/-- A registered `AudioNode` / `AudioParam` on the control side (`AudioContextRegistration`,
`/repo/src/context/mod.rs` l.95-103) with its numbers of inputs and outputs. -/
structure Handle where
  id : Nat
  tag : Nat
  nin : Nat
  nout : Nat
deriving DecidableEq, Repr

/-- `conns` is the `HashSet` `connections` (concrete_base.rs l.116): a duplicate free list. The
reclaim queue is `g.reclaimed`. `alloc` are the ids taken by `register` calls in progress. -/
structure Sys (P S M : Type) where
  g : RGraph P S
  chan : List (Msg P M)
  nextId : Nat
  nextTag : Nat
  alloc : List Nat
  live : List Handle
  conns : List (Nat × Edge)

inductive Op (P M : Type) where
  /-- `AudioNodeIdProvider::get` -/
  | acquire
  /-- the rest of `register`: the closure has returned a node and a processor -/
  | register (id : Nat) (proc : P) (nin nout : Nat) (cfg : Cfg)
  /-- the closure passed to `register` panics: the registration is dropped -/
  | failCreate (id : Nat)
  | connect (a b : Handle) (out inp : Nat)
  /-- connection to the hidden port; `admin`: listed in `connections` -/
  | connectHidden (a b : Handle) (admin : Bool)
  | disconnect (a : Handle) (out dst inp : Option Nat)
  | post (h : Handle) (m : M)
  | setCfg (h : Handle) (c : Cfg)
  | breaker (h : Handle)
  /-- drop of a handle with both parts of `mark_node_dropped` in one step -/
  | drop (h : Handle)
  /-- first part of `mark_node_dropped`: send the message -/
  | dropSend (h : Handle)
  /-- second part of `mark_node_dropped`: clear the administration for this id -/
  | dropClear (id : Nat)
  /-- render thread: handle one message -/
  | recv
  /-- render thread: render one quantum -/
  | quantum

/-- `AudioNodeIdProvider::get`, concrete_base.rs l.40-46. -/
def Sys.acquire {P S M : Type} (s : Sys P S M) : Sys P S M :=
  match s.g.reclaimed with
  | id :: rest => { s with g := { s.g with reclaimed := rest }, alloc := s.alloc ++ [id] }
  | [] => { s with nextId := s.nextId + 1, alloc := s.alloc ++ [s.nextId] }

/-- ids of the destination, the listener and its params are exempt from life cycle management
(concrete_base.rs l.331-335; `/repo/src/context/mod.rs` l.26-31) -/
def isMagic (id : Nat) : Bool := id < 11

/-- selection of `disconnect`, concrete_base.rs l.484-489. A hidden port is never selected by a
given input. -/
def discSel (src : Nat) (out dst inp : Option Nat) (c : Nat × Edge) : Bool :=
  c.1 == src && (match out with | some o => c.2.out == o | none => true)
    && (match dst with | some d => c.2.dst == d | none => true)
    && (match inp with | some i => c.2.port == some i | none => true)

/-- One step. Ops which the types and assertions of the API rule out (a handle which does not exist
any more, ports out of range, ids that are not allocated) leave the state unchanged. -/
def Sys.step {P S M : Type} (sem : Sem P S M) (s : Sys P S M) : Op P M → Option (Sys P S M)
  | .acquire => some s.acquire
  | .register id proc nin nout cfg =>
    if id ∈ s.alloc then
      some { s with
        alloc := s.alloc.erase id
        nextTag := s.nextTag + 1
        live := s.live ++ [⟨id, s.nextTag, nin, nout⟩]
        chan := s.chan ++ [.register id s.nextTag proc nin nout cfg] }
    else some s
  | .failCreate id =>
    if id ∈ s.alloc ∧ isMagic id = false then
      some { s with alloc := s.alloc.erase id, chan := s.chan ++ [.dropped id s.nextTag],
                    conns := s.conns.filter fun c => c.1 ≠ id ∧ c.2.dst ≠ id }
    else some s
  | .connect a b out inp =>
    if a ∈ s.live ∧ b ∈ s.live ∧ out < a.nout ∧ inp < b.nin then
      some { s with
        conns := if (a.id, (⟨out, b.id, some inp⟩ : Edge)) ∈ s.conns then s.conns
                 else s.conns ++ [(a.id, ⟨out, b.id, some inp⟩)]
        chan := s.chan ++ [.connect a.id a.tag ⟨out, b.id, some inp⟩ b.tag] }
    else some s
  | .connectHidden a b admin =>
    if a ∈ s.live ∧ b ∈ s.live ∧ 0 < a.nout then
      some { s with
        conns := if admin = false ∨ (a.id, (⟨0, b.id, none⟩ : Edge)) ∈ s.conns then s.conns
                 else s.conns ++ [(a.id, ⟨0, b.id, none⟩)]
        chan := s.chan ++ [.connect a.id a.tag ⟨0, b.id, none⟩ b.tag] }
    else some s
  | .disconnect a out dst inp =>
    if a ∈ s.live then
      some { s with
        conns := s.conns.filter fun c => !discSel a.id out dst inp c
        chan := s.chan ++ (s.conns.filter (discSel a.id out dst inp)).map fun c =>
          .disconnect a.id a.tag c.2 }
    else some s
  | .post h m => if h ∈ s.live then some { s with chan := s.chan ++ [.post h.id h.tag m] } else some s
  | .setCfg h c =>
    if h ∈ s.live then some { s with chan := s.chan ++ [.setCfg h.id h.tag c] } else some s
  | .breaker h =>
    if h ∈ s.live then some { s with chan := s.chan ++ [.breaker h.id h.tag] } else some s
  | .drop h =>
    if h ∈ s.live ∧ isMagic h.id = false then
      some { s with live := s.live.erase h, chan := s.chan ++ [.dropped h.id h.tag],
                    conns := s.conns.filter fun c => c.1 ≠ h.id ∧ c.2.dst ≠ h.id }
    else some s
  | .dropSend h =>
    if h ∈ s.live ∧ isMagic h.id = false then
      some { s with live := s.live.erase h, chan := s.chan ++ [.dropped h.id h.tag] }
    else some s
  | .dropClear id =>
    some { s with conns := s.conns.filter fun c => c.1 ≠ id ∧ c.2.dst ≠ id }
  | .recv =>
    match s.chan with
    | [] => some s
    | m :: ms => (s.g.handle sem m).map fun g => { s with g, chan := ms }
  | .quantum => (s.g.render sem).map fun r => { s with g := r.1 }

/-- Start: the destination (id 0) is registered, the ids 1..10 of listener and listener params are
taken but their nodes are not registered yet (concrete_base.rs l.169-203, l.260-263). -/
def Sys.init {P S M : Type} (sem : Sem P S M) (dest : P) (cfg : Cfg) : Sys P S M where
  g := RGraph.new.addNode sem 0 0 dest 1 1 cfg
  chan := []
  nextId := 11
  nextTag := 1
  alloc := [1, 2, 3, 4, 5, 6, 7, 8, 9, 10]
  live := [⟨0, 0, 1, 1⟩]
  conns := []

/-- Run a history; `none` as soon as the render thread panics. -/
def Sys.run {P S M : Type} (sem : Sem P S M) (s : Sys P S M) (ops : List (Op P M)) :
    Option (Sys P S M) :=
  RGraph.foldOpt (Sys.step sem) ops s

end Verif.Render
