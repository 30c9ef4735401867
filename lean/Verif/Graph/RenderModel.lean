import Verif.Graph.OrderModel

/-!
# Model of the render graph: node store, structural operations, rendering of one quantum

Models `/repo/src/render/graph.rs` l.44-320 and l.489-591 and `/repo/src/render/node_collection.rs`.

The processors are abstract: `Sem` gives an arbitrary (state dependent, possibly panicking)
behaviour for `AudioProcessor::process`, `onmessage` and `has_side_effects`, and an arbitrary
signal type with the operation `AudioRenderQuantum::add`. Everything proved here therefore holds
for all processors.

Uncaught panics of the render thread are `none`.
-/

namespace Verif.Render

open Verif.Graph

/-- `ChannelConfigInner` (`/repo/src/node/audio_node.rs` l.95-100); the three fields are only passed
on to `AudioRenderQuantum::add`, their meaning is modelled in `Verif/Mix`. -/
structure Cfg where
  count : Nat
  mode : Nat
  interp : Nat
deriving DecidableEq, Repr

/-- `OutgoingEdge`, graph.rs l.20-27. The hidden port `usize::MAX` used for AudioParams is `none`. -/
structure Edge where
  out : Nat
  dst : Nat
  port : Option Nat
deriving DecidableEq, Repr

/-- Abstract behaviour of processors (`AudioProcessor`, `/repo/src/render/processor.rs`) and of
signals. `P` processor state, `S` signal of one port for one quantum, `M` message payload.
`process p ins outs params` returns the new processor state, the new output buffers and the tail
flag, or `none` if it panics. The output slice cannot change its length (`process_len`). -/
structure Sem (P S M : Type) where
  process : P → List S → List S → (Nat → Option S) → Option (P × List S × Bool)
  process_len : ∀ p ins outs ps p' outs' t, process p ins outs ps = some (p', outs', t) →
    outs'.length = outs.length
  onmessage : P → M → Option P
  sideEffects : P → Bool
  silence : S
  /-- `AudioRenderQuantum::add` under the channel configuration of the receiving node -/
  add : Cfg → S → S → S

/-- `Node`, graph.rs l.44-64. `tag` is a ghost field: the serial number of the control handle that
created the node; it does not influence the behaviour. -/
structure Node (P S : Type) where
  tag : Nat
  proc : P
  inputs : List S
  outputs : List S
  cfg : Cfg
  edges : List Edge
  dropped : Bool
  hasInputs : Bool
  breaker : Bool

/-- `Graph`, graph.rs l.124-141, with the `Vec<Option<Node>>` of node_collection.rs l.7-9 as length
`cap` and slot function. `reclaimed` is the sequence of ids pushed to `reclaim_id_channel`. -/
structure RGraph (P S : Type) where
  cap : Nat
  slot : Nat → Option (Node P S)
  ordered : List Nat
  reclaimed : List Nat

variable {P S M : Type}

namespace RGraph

/-- `Graph::new`, graph.rs l.153-164; `NodeCollection::new` reserves 64 slots,
node_collection.rs l.12-18. -/
def new : RGraph P S := { cap := 64, slot := fun _ => none, ordered := [], reclaimed := [] }

/-- `NodeCollection::get_unchecked[_mut]`, node_collection.rs l.80-88: `none` is a panic, either
because the index is out of bounds or because the slot is empty. -/
def get (g : RGraph P S) (i : Nat) : Option (Node P S) := if i < g.cap then g.slot i else none

/-- overwrite an existing slot -/
def put (g : RGraph P S) (i : Nat) (n : Option (Node P S)) : RGraph P S :=
  { g with slot := fun j => if j = i then n else g.slot j }

/-- `NodeCollection::keys`, node_collection.rs l.48-53. -/
def keys (g : RGraph P S) : List Nat := (List.range g.cap).filter fun i => (g.slot i).isSome

/-- `Graph::add_node`, graph.rs l.233-267; `insert` grows the vector, node_collection.rs l.34-38. -/
def addNode (sem : Sem P S M) (g : RGraph P S) (id tag : Nat) (proc : P) (nin nout : Nat)
    (cfg : Cfg) : RGraph P S :=
  { g with
    cap := max (id + 1) g.cap
    slot := fun j => if j = id then some
      { tag, proc, inputs := List.replicate nin sem.silence,
        outputs := List.replicate nout sem.silence, cfg, edges := [], dropped := false,
        hasInputs := false, breaker := false } else g.slot j
    ordered := g.ordered ++ [id] }

/-- `Graph::add_edge`, graph.rs l.269-280. -/
def addEdge (g : RGraph P S) (src : Nat) (e : Edge) : Option (RGraph P S) :=
  match g.get src with
  | some n => some { g.put src (some { n with edges := n.edges ++ [e] }) with ordered := [] }
  | none => none

/-- `Graph::remove_edge`, graph.rs l.282-291. -/
def removeEdge (g : RGraph P S) (src : Nat) (e : Edge) : Option (RGraph P S) :=
  match g.get src with
  | some n => some
      { g.put src (some { n with
          edges := n.edges.filter fun x => x.dst ≠ e.dst ∨ x.out ≠ e.out ∨ x.port ≠ e.port })
        with ordered := [] }
  | none => none

/-- `Graph::mark_control_handle_dropped`, graph.rs l.293-300. `get_mut` indexes the vector
(node_collection.rs l.74-76), so an out of bounds id panics while an empty slot is tolerated. -/
def markDropped (g : RGraph P S) (i : Nat) : Option (RGraph P S) :=
  if i < g.cap then
    match g.slot i with
    | some n => some (g.put i (some { n with dropped := true }))
    | none => some g
  else none

/-- `Graph::mark_cycle_breaker`, graph.rs l.302-304. -/
def markBreaker (g : RGraph P S) (i : Nat) : Option (RGraph P S) :=
  (g.get i).map fun n => g.put i (some { n with breaker := true })

/-- `Graph::set_channel_*`, graph.rs l.306-320 (all three fields at once). -/
def setCfg (g : RGraph P S) (i : Nat) (c : Cfg) : Option (RGraph P S) :=
  (g.get i).map fun n => g.put i (some { n with cfg := c })

/-- `Graph::route_message`, graph.rs l.322-324 (not protected by `catch_unwind`). -/
def routeMessage (sem : Sem P S M) (g : RGraph P S) (i : Nat) (m : M) : Option (RGraph P S) :=
  (g.get i).bind fun n => (sem.onmessage n.proc m).map fun p => g.put i (some { n with proc := p })

/-- What `order_nodes` reads of the graph. -/
def topo (g : RGraph P S) : Topo where
  keys := g.keys
  succ := fun i => match g.slot i with | some n => n.edges.map (·.dst) | none => []
  breaker := fun i => match g.slot i with | some n => n.breaker | none => false

/-- `Graph::order_nodes`, graph.rs l.418-487, on the full graph. `orderNodes` reports the topology
with the edges of the applied cycle breakers cleared; an edge list is either kept or cleared. -/
def order (g : RGraph P S) : Option (RGraph P S) :=
  match orderNodes g.topo with
  | .ok (t, o) => some { g with
      slot := fun i => (g.slot i).map fun n => if t.succ i = [] then { n with edges := [] } else n
      ordered := o }
  | _ => none

/-- Body of the `for_each` over the outgoing edges of the node being processed,
graph.rs l.524-535. `none`: target missing, target is the node itself (second `borrow_mut` of the
same `RefCell` panics), or a port index out of bounds. -/
def feed (sem : Sem P S M) (i : Nat) (outs : List S) (g : RGraph P S) (e : Edge) :
    Option (RGraph P S) :=
  match e.port with
  | none => some g
  | some p =>
    if e.dst = i then none else
    match g.get e.dst, outs[e.out]? with
    | some t, some sig =>
      match t.inputs[p]? with
      | some inp => some (g.put e.dst (some
          { t with hasInputs := true, inputs := t.inputs.set p (sem.add t.cfg inp sig) }))
      | none => none
    | _, _ => none

/-- left fold with early exit on panic -/
def foldOpt {α β : Type} (f : β → α → Option β) : List α → β → Option β
  | [], b => some b
  | a :: as, b => match f b a with | some b' => foldOpt f as b' | none => none

end RGraph

/-- `Node::can_free`, graph.rs l.87-115. -/
def Node.canFree (sem : Sem P S M) (n : Node P S) (tail : Bool) : Bool :=
  if !n.dropped then false
  else if !n.hasInputs && (!tail || n.edges.isEmpty) then true
  else if !sem.sideEffects n.proc && n.edges.isEmpty then true
  else false

namespace RGraph

/-- Read access to AudioParam values while node `i` is mutably borrowed
(`AudioParamValues`, `/repo/src/render/processor.rs`; `Node::get_buffer`, graph.rs l.118-120). -/
def params (g : RGraph P S) (i j : Nat) : Option S :=
  if j = i then none else (g.get j).bind (·.outputs.head?)

/-- Removal of a node, graph.rs l.553-574: take it out, push the reclaim id, drop all edges that
point to it. -/
def remove (g : RGraph P S) (i : Nat) : RGraph P S :=
  { g with
    slot := fun j => if j = i then none else
      (g.slot j).map fun n => { n with edges := n.edges.filter fun e => e.dst ≠ i }
    reclaimed := g.reclaimed ++ [i] }

/-- The part of the per-node step that runs the processor: new node and `(success, tail_time)`,
graph.rs l.504-521. On panic the outgoing edges are cleared. -/
def process (sem : Sem P S M) (g : RGraph P S) (i : Nat) (n : Node P S) : Node P S × Bool × Bool :=
  match sem.process n.proc n.inputs n.outputs (g.params i) with
  | some (p, outs, tail) => ({ n with proc := p, outputs := outs }, true, tail)
  | none => ({ n with edges := [] }, false, false)

/-- Processing of one node, graph.rs l.500-575. -/
def renderNode (sem : Sem P S M) (g : RGraph P S) (i : Nat) : Option (RGraph P S) :=
  match g.get i with
  | none => none
  | some n =>
    let (n', success, tail) := g.process sem i n
    match foldOpt (feed sem i n'.outputs) n'.edges (g.put i (some n')) with
    | none => none
    | some g2 =>
      if !success || n'.canFree sem tail then some (g2.remove i)
      else some (g2.put i (some { n' with
        inputs := n'.inputs.map fun _ => sem.silence, hasInputs := false }))

/-- `Graph::render`, graph.rs l.490-591. The clean-up of `ordered` (l.577-587) is written
unconditionally: when no node was dropped all ordered nodes are present, as they have just been
processed. Returns the new graph and the output of the destination. -/
def render (sem : Sem P S M) (g : RGraph P S) : Option (RGraph P S × S) :=
  match (if g.ordered = [] then g.order else some g) with
  | none => none
  | some g1 =>
    match foldOpt (renderNode sem) g1.ordered g1 with
    | none => none
    | some g2 =>
      let g3 := { g2 with ordered := g2.ordered.filter fun i => (g2.slot i).isSome }
      match g3.get 0 with
      | none => none
      | some d => d.outputs.head?.map fun o => (g3, o)

end RGraph

end Verif.Render
