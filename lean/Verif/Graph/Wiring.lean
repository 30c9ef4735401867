import Mathlib.Data.List.Perm.Basic
import Mathlib.Tactic.Common

/-!
# C84: the public `connect` and `disconnect` methods

Models the methods of the trait `AudioNode` (`/repo/src/node/audio_node.rs` l.247-402), their overrides for the
delay, which consists of two nodes of the engine (`/repo/src/node/delay.rs` l.113-275, l.364-371), and the
administration of connections (`/repo/src/context/concrete_base.rs` l.330-347, l.443-456, l.474-534), for any number
of contexts.

The specification knows objects and wires between them. Ids of nodes may be reused after the object is gone; that an
id is not given to two objects that are alive is the hypothesis of `create` (it is proved in the model of the life
cycle, C06-C09). Dropping an object is one step (see C11 for the race of a drop).
-/

namespace Verif.Wiring

/-! ## Model -/

/-- entry of `connections`, concrete_base.rs l.116; the input `usize::MAX` is `none` -/
structure Conn where
  src : Nat
  out : Nat
  dst : Nat
  inp : Option Nat
deriving DecidableEq, Repr

/-- `ControlMessage`, the messages that concern nodes and connections -/
inductive Msg where
  | register (id nin nout : Nat)
  | connect (c : Conn)
  | disconnect (c : Conn)
  | dropped (id : Nat)
  | breaker (id : Nat)
deriving DecidableEq, Repr

/-- `ConcreteBaseAudioContext`: the set of connections, the messages sent so far and whether the listener has been
added to the graph -/
structure Base where
  conns : List Conn
  sent : List Msg
  listener : Bool

/-- the panics of the methods -/
inductive Err where
  /-- InvalidAccessError - nodes from different contexts -/
  | context
  /-- IndexSizeError - output port out of bounds -/
  | output
  /-- IndexSizeError - input port out of bounds -/
  | input
  /-- InvalidAccessError - attempting to disconnect unconnected nodes -/
  | unconnected
deriving DecidableEq, Repr

namespace Base

/-- `send_control_msg`, concrete_base.rs l.276-290 -/
def send (b : Base) (m : Msg) : Base := { b with sent := b.sent ++ [m] }

/-- `connect`, concrete_base.rs l.443-456 -/
def connect (b : Base) (c : Conn) : Base :=
  { b with conns := if c ∈ b.conns then b.conns else b.conns ++ [c] }.send (.connect c)

/-- what `disconnect` retains, concrete_base.rs l.485-489 -/
def retain (src : Nat) (out dst : Option Nat) (inp : Option Nat) (c : Conn) : Bool :=
  c.src ≠ src || c.out ≠ out.getD c.out || c.dst ≠ dst.getD c.dst ||
    (match inp with | some i => c.inp ≠ some i | none => false)

/-- `disconnect`, concrete_base.rs l.474-508 -/
def disconnect (b : Base) (src : Nat) (out dst inp : Option Nat) : Base × Option Err :=
  let gone := b.conns.filter fun c => !retain src out dst inp c
  let b := { b with conns := b.conns.filter (retain src out dst inp)
                    sent := b.sent ++ gone.map Msg.disconnect }
  if gone.isEmpty && dst.isSome then (b, some .unconnected) else (b, none)

/-- `mark_node_dropped`, concrete_base.rs l.330-347 (ids up to 10 are the destination, the listener and its params) -/
def markDropped (b : Base) (id : Nat) : Base :=
  if id ≤ 10 then b
  else { b.send (.dropped id) with conns := b.conns.filter fun c => c.src ≠ id && c.dst ≠ id }

/-- `ensure_audio_listener_present`, concrete_base.rs l.516-534: the messages that `register` kept are released, the
last one first (the listener was registered after its params, `/repo/src/spatial.rs` l.125-167), the params are
connected to the listener without entry in the administration, and the listener is connected to the hidden input of
the destination. -/
def ensureListener (b : Base) : Base :=
  if b.listener then b
  else
    let params := [2, 3, 4, 5, 6, 7, 8, 9, 10]
    ({ b with listener := true
              sent := b.sent ++ [Msg.register 1 0 9] ++ params.reverse.map (fun i => Msg.register i 1 1) ++
                params.map (fun i => Msg.connect ⟨i, 0, 1, none⟩) }).connect ⟨1, 0, 0, none⟩

end Base

/-- the implementations of `AudioNode` as far as they differ in connecting -/
inductive Kind where
  | plain
  | panner
  /-- `DelayNode` with the id of its reader -/
  | delay (reader : Nat)
deriving DecidableEq, Repr

/-- an `AudioNode` (or an `AudioParam`) of the control thread. `id` is the one of `registration()`. -/
structure Obj where
  ctx : Nat
  id : Nat
  nin : Nat
  nout : Nat
  kind : Kind
deriving DecidableEq, Repr

/-- `AudioNode::connect_from_output_to_input`, audio_node.rs l.259-289 -/
def defaultConnect (b : Base) (self dest : Obj) (out inp : Nat) : Base × Option Err :=
  if ¬ self.ctx = dest.ctx then (b, some .context)
  else if ¬ self.nout > out then (b, some .output)
  else if ¬ dest.nin > inp then (b, some .input)
  else (b.connect ⟨self.id, out, dest.id, some inp⟩, none)

/-- `AudioNode::disconnect`, audio_node.rs l.292-295 -/
def defaultDisconnect (b : Base) (self : Obj) : Base × Option Err := b.disconnect self.id none none none

/-- `AudioNode::disconnect_dest`, audio_node.rs l.304-316 -/
def defaultDisconnectDest (b : Base) (self dest : Obj) : Base × Option Err :=
  if ¬ self.ctx = dest.ctx then (b, some .context)
  else b.disconnect self.id none (some dest.id) none

/-- `AudioNode::disconnect_output`, audio_node.rs l.324-333 -/
def defaultDisconnectOutput (b : Base) (self : Obj) (out : Nat) : Base × Option Err :=
  if ¬ self.nout > out then (b, some .output)
  else b.disconnect self.id (some out) none none

/-- `AudioNode::disconnect_dest_from_output`, audio_node.rs l.343-361 -/
def defaultDisconnectDestFromOutput (b : Base) (self dest : Obj) (out : Nat) : Base × Option Err :=
  if ¬ self.ctx = dest.ctx then (b, some .context)
  else if ¬ self.nout > out then (b, some .output)
  else b.disconnect self.id (some out) (some dest.id) none

/-- `AudioNode::disconnect_dest_from_output_to_input`, audio_node.rs l.373-402 -/
def defaultDisconnectDestFromOutputToInput (b : Base) (self dest : Obj) (out inp : Nat) : Base × Option Err :=
  if ¬ self.ctx = dest.ctx then (b, some .context)
  else if ¬ self.nout > out then (b, some .output)
  else if ¬ dest.nin > inp then (b, some .input)
  else b.disconnect self.id (some out) (some dest.id) (some inp)

/-- `DelayNode::connect_from_output_to_input`, delay.rs l.130-161; `number_of_inputs` and `number_of_outputs` are 1 -/
def delayConnect (b : Base) (self : Obj) (reader : Nat) (dest : Obj) (out inp : Nat) : Base × Option Err :=
  if ¬ self.ctx = dest.ctx then (b, some .context)
  else if ¬ self.nout > out then (b, some .output)
  else if ¬ dest.nin > inp then (b, some .input)
  else (b.connect ⟨reader, out, dest.id, some inp⟩, none)

/-- `DelayNode::disconnect`, delay.rs l.164-167 -/
def delayDisconnect (b : Base) (reader : Nat) : Base × Option Err := b.disconnect reader none none none

/-- `DelayNode::disconnect_dest`, delay.rs l.176-188 -/
def delayDisconnectDest (b : Base) (self : Obj) (reader : Nat) (dest : Obj) : Base × Option Err :=
  if ¬ self.ctx = dest.ctx then (b, some .context)
  else b.disconnect reader none (some dest.id) none

/-- `DelayNode::disconnect_output`, delay.rs l.196-205 -/
def delayDisconnectOutput (b : Base) (self : Obj) (reader out : Nat) : Base × Option Err :=
  if ¬ self.nout > out then (b, some .output)
  else b.disconnect reader (some out) none none

/-- `DelayNode::disconnect_dest_from_output`, delay.rs l.215-233 -/
def delayDisconnectDestFromOutput (b : Base) (self : Obj) (reader : Nat) (dest : Obj) (out : Nat) :
    Base × Option Err :=
  if ¬ self.ctx = dest.ctx then (b, some .context)
  else if ¬ self.nout > out then (b, some .output)
  else b.disconnect reader (some out) (some dest.id) none

/-- `DelayNode::disconnect_dest_from_output_to_input`, delay.rs l.245-274 -/
def delayDisconnectDestFromOutputToInput (b : Base) (self : Obj) (reader : Nat) (dest : Obj) (out inp : Nat) :
    Base × Option Err :=
  if ¬ self.ctx = dest.ctx then (b, some .context)
  else if ¬ self.nout > out then (b, some .output)
  else if ¬ dest.nin > inp then (b, some .input)
  else b.disconnect reader (some out) (some dest.id) (some inp)

/-- What the user does. Objects are named by the order of their creation. -/
inductive Op where
  | create (o : Obj)
  | connect (u v out inp : Nat)
  | disconnect (u : Nat)
  | disconnectDest (u v : Nat)
  | disconnectOutput (u out : Nat)
  | disconnectDestFromOutput (u v out : Nat)
  | disconnectDestFromOutputToInput (u v out inp : Nat)
  | drop (u : Nat)
  /-- `BaseAudioContext::listener` -/
  | listener (ctx : Nat)
deriving DecidableEq, Repr

/-- constructors: `register` (concrete_base.rs l.232-270); the panner ensures the listener and is connected to it
(`/repo/src/node/panner.rs` l.417-504); the delay registers the reader and the writer, marks the writer and connects
it to the reader (delay.rs l.316-371). -/
def construct (b : Base) (o : Obj) : Base :=
  match o.kind with
  | .plain => b.send (.register o.id o.nin o.nout)
  | .panner => ((b.ensureListener).send (.register o.id o.nin o.nout)).connect ⟨1, 0, o.id, none⟩
  | .delay r =>
    (((b.send (.register r o.nin o.nout)).send (.register o.id o.nin o.nout)).send (.breaker o.id)).connect
      ⟨o.id, 0, r, some 0⟩

/-- drop of the registrations of an object, in the order of the fields (delay.rs l.100-105) -/
def discard (b : Base) (o : Obj) : Base :=
  match o.kind with
  | .delay r => (b.markDropped r).markDropped o.id
  | _ => b.markDropped o.id

/-- contexts and the objects that are alive -/
structure World where
  base : Nat → Base
  obj : Nat → Option Obj
  next : Nat

def setBase (w : World) (c : Nat) (r : Base × Option Err) : World × Option Err :=
  ({ w with base := fun k => if k = c then r.1 else w.base k }, r.2)

/-- ids of the nodes of the engine that belong to an object -/
def Obj.ids (o : Obj) : List Nat :=
  match o.kind with
  | .delay r => [o.id, r]
  | _ => [o.id]

/-- Can the object be created: its ids are not those of objects that are alive. -/
def World.Fresh (w : World) (o : Obj) : Prop :=
  (∀ i ∈ o.ids, 10 < i ∧ ∀ u < w.next, ∀ p, w.obj u = some p → p.ctx = o.ctx → i ∉ p.ids) ∧
    (∀ r, o.kind = .delay r → o.id ≠ r)

open Classical in
/-- One call. A call on an object that is gone cannot be written down and has no effect here. The destination and the
params of the listener can be had again after they are dropped, so they stay. `listener`: concrete_base.rs l.363-383. -/
noncomputable def World.step (w : World) : Op → World × Option Err
  | .create o =>
    if w.Fresh o then
      ({ base := fun k => if k = o.ctx then construct (w.base k) o else w.base k
         obj := fun u => if u = w.next then some o else w.obj u
         next := w.next + 1 }, none)
    else (w, none)
  | .connect u v out inp =>
    match w.obj u, w.obj v with
    | some a, some b =>
      setBase w a.ctx (match a.kind with
        | .delay r => delayConnect (w.base a.ctx) a r b out inp
        | _ => defaultConnect (w.base a.ctx) a b out inp)
    | _, _ => (w, none)
  | .disconnect u =>
    match w.obj u with
    | some a =>
      setBase w a.ctx (match a.kind with
        | .delay r => delayDisconnect (w.base a.ctx) r
        | _ => defaultDisconnect (w.base a.ctx) a)
    | none => (w, none)
  | .disconnectDest u v =>
    match w.obj u, w.obj v with
    | some a, some b =>
      setBase w a.ctx (match a.kind with
        | .delay r => delayDisconnectDest (w.base a.ctx) a r b
        | _ => defaultDisconnectDest (w.base a.ctx) a b)
    | _, _ => (w, none)
  | .disconnectOutput u out =>
    match w.obj u with
    | some a =>
      setBase w a.ctx (match a.kind with
        | .delay r => delayDisconnectOutput (w.base a.ctx) a r out
        | _ => defaultDisconnectOutput (w.base a.ctx) a out)
    | none => (w, none)
  | .disconnectDestFromOutput u v out =>
    match w.obj u, w.obj v with
    | some a, some b =>
      setBase w a.ctx (match a.kind with
        | .delay r => delayDisconnectDestFromOutput (w.base a.ctx) a r b out
        | _ => defaultDisconnectDestFromOutput (w.base a.ctx) a b out)
    | _, _ => (w, none)
  | .disconnectDestFromOutputToInput u v out inp =>
    match w.obj u, w.obj v with
    | some a, some b =>
      setBase w a.ctx (match a.kind with
        | .delay r => delayDisconnectDestFromOutputToInput (w.base a.ctx) a r b out inp
        | _ => defaultDisconnectDestFromOutputToInput (w.base a.ctx) a b out inp)
    | _, _ => (w, none)
  | .drop u =>
    match w.obj u with
    | some a =>
      if a.id ≤ 10 then ({ w with base := fun k => if k = a.ctx then discard (w.base k) a else w.base k }, none)
      else ({ w with base := fun k => if k = a.ctx then discard (w.base k) a else w.base k
                     obj := fun k => if k = u then none else w.obj k }, none)
    | none => (w, none)
  | .listener c => setBase w c ((w.base c).ensureListener, none)

/-- `n` contexts: object `10 * c` is the destination of context `c`, `10 * c + 1` to `10 * c + 9` are the params of
its listener (`/repo/src/context/mod.rs` l.26-31) -/
def World.init (n : Nat) : World where
  base := fun _ => ⟨[], [], false⟩
  obj := fun u => if u < 10 * n then some ⟨u / 10, if u % 10 = 0 then 0 else u % 10 + 1, 1, 1, .plain⟩ else none
  next := 10 * n

/-- the state after a history of calls -/
noncomputable def World.run (w : World) (ops : List Op) : World := ops.foldl (fun w op => (w.step op).1) w

/-! ## Specification: objects and wires -/

/-- a connection from an output of an object to an input of an object -/
structure Wire where
  u : Nat
  out : Nat
  v : Nat
  inp : Nat
deriving DecidableEq, Repr

/-- Which documented reason is there to refuse the call? `o u`: the object `u`; `wires`: the connections. -/
def refused (o : Nat → Option Obj) (wires : List Wire) : Op → Option Err
  | .connect u v out inp =>
    match o u, o v with
    | some a, some b =>
      if a.ctx ≠ b.ctx then some .context else if a.nout ≤ out then some .output
      else if b.nin ≤ inp then some .input else none
    | _, _ => none
  | .disconnectDest u v =>
    match o u, o v with
    | some a, some b =>
      if a.ctx ≠ b.ctx then some .context
      else if ∀ w ∈ wires, ¬ (w.u = u ∧ w.v = v) then some .unconnected else none
    | _, _ => none
  | .disconnectOutput u out =>
    match o u with
    | some a => if a.nout ≤ out then some .output else none
    | none => none
  | .disconnectDestFromOutput u v out =>
    match o u, o v with
    | some a, some b =>
      if a.ctx ≠ b.ctx then some .context else if a.nout ≤ out then some .output
      else if ∀ w ∈ wires, ¬ (w.u = u ∧ w.v = v ∧ w.out = out) then some .unconnected else none
    | _, _ => none
  | .disconnectDestFromOutputToInput u v out inp =>
    match o u, o v with
    | some a, some b =>
      if a.ctx ≠ b.ctx then some .context else if a.nout ≤ out then some .output
      else if b.nin ≤ inp then some .input
      else if (⟨u, out, v, inp⟩ : Wire) ∉ wires then some .unconnected else none
    | _, _ => none
  | _ => none

/-- The wires after a call on objects that are alive; a refused call changes nothing. -/
def wired (o : Nat → Option Obj) (wires : List Wire) (op : Op) : List Wire :=
  if (refused o wires op).isSome then wires
  else match op with
  | .connect u v out inp =>
    if (o u).isSome ∧ (o v).isSome then
      if (⟨u, out, v, inp⟩ : Wire) ∈ wires then wires else wires ++ [⟨u, out, v, inp⟩]
    else wires
  | .disconnect u => wires.filter fun w => ¬ w.u = u
  | .disconnectDest u v => wires.filter fun w => ¬ (w.u = u ∧ w.v = v)
  | .disconnectOutput u out => wires.filter fun w => ¬ (w.u = u ∧ w.out = out)
  | .disconnectDestFromOutput u v out => wires.filter fun w => ¬ (w.u = u ∧ w.v = v ∧ w.out = out)
  | .disconnectDestFromOutputToInput u v out inp => wires.filter fun w => w ≠ ⟨u, out, v, inp⟩
  | .drop u =>
    match o u with
    | some a => if a.id ≤ 10 then wires else wires.filter fun w => ¬ (w.u = u ∨ w.v = u)
    | none => wires
  | .create _ => wires
  | .listener _ => wires

/-- the wires after a history of calls -/
noncomputable def wiring (w : World) : List Op → List Wire → List Wire
  | [], ws => ws
  | op :: ops, ws => wiring (w.step op).1 ops (wired w.obj ws op)

/-- The node of the engine that carries the outputs of an object. -/
def Obj.outNode (o : Obj) : Nat :=
  match o.kind with
  | .delay r => r
  | _ => o.id

/-- the connection of the engine for a wire -/
def connOf (o : Nat → Option Obj) (w : Wire) : Option Conn :=
  match o w.u, o w.v with
  | some a, some b => some ⟨a.outNode, w.out, b.id, some w.inp⟩
  | _, _ => none

end Verif.Wiring
