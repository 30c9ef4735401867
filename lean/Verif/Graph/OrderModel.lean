/-!
# Model of the topological ordering of the render graph

Models `/repo/src/render/graph.rs` lines 326-487 (`Graph::visit`, `Graph::order_nodes`).

Simplifications: node ids are natural numbers, a node is reduced to the list of target ids of its
outgoing edges (in order, duplicates kept, AudioParam edges included - the Rust DFS follows all of
them) and its cycle breaker flag. `RefCell` borrows are not modelled here (the DFS only reads).
-/

namespace Verif.Graph

/-- Topology of the audio graph, `Graph::nodes` of `/repo/src/render/graph.rs` l.124-141 restricted
to what the ordering reads. `keys` are the occupied slots in ascending order
(`NodeCollection::keys`, `/repo/src/render/node_collection.rs` l.48-53); `succ n` the targets of
`outgoing_edges` of node `n`; `breaker n` its `cycle_breaker` flag. -/
structure Topo where
  keys : List Nat
  succ : Nat → List Nat
  breaker : Nat → Bool

/-- The bookkeeping vectors that `visit` mutates, graph.rs l.331-339. -/
structure Dfs where
  marked : List Nat := []
  temp : List Nat := []
  ordered : List Nat := []
  inCycle : List Nat := []
  breakers : List Nat := []
deriving DecidableEq

/-- Outcome of a traversal. `panic` is the `unwrap` in `get_unchecked` on a missing node
(node_collection.rs l.80-82). `fuel` is a model artefact (recursion bound exhausted) which is
proved unreachable. -/
inductive Res (α : Type) where
  | ok (a : α)
  | panic
  | fuel
deriving DecidableEq

/-- The `for edge in ...outgoing_edges` loop with its early return, graph.rs l.375-393, and the
`for node_id in self.nodes.keys()` loop with its `break`, l.443-456. `rec` is the recursive call. -/
def visitList (rec : Nat → Dfs → Res (Bool × Dfs)) : List Nat → Dfs → Res (Bool × Dfs)
  | [], st => .ok (false, st)
  | e :: es, st =>
    match rec e st with
    | .ok (true, st') => .ok (true, st')
    | .ok (false, st') => visitList rec es st'
    | .panic => .panic
    | .fuel => .fuel

/-- `Graph::visit`, graph.rs l.331-402. `marked_temp[pos..]` with `pos` the first position of the
node (l.341, l.345, l.357) is `temp.dropWhile (· ≠ n)`. -/
def visit (g : Topo) : Nat → Nat → Dfs → Res (Bool × Dfs)
  | 0, _, _ => .fuel
  | f + 1, n, st =>
    if n ∈ st.temp then
      match (st.temp.dropWhile (· ≠ n)).find? g.breaker with
      | some b => .ok (true, { st with breakers := st.breakers ++ [b] })
      | none => .ok (false, { st with inCycle := st.inCycle ++ st.temp.dropWhile (· ≠ n) })
    else if n ∈ st.marked then .ok (false, st)
    else if n ∈ g.keys then
      match visitList (visit g f) (g.succ n)
          { st with marked := st.marked ++ [n], temp := st.temp ++ [n] } with
      | .ok (true, st') => .ok (true, st')
      | .ok (false, st') =>
        .ok (false, { st' with ordered := st'.ordered ++ [n], temp := st'.temp.filter (· ≠ n) })
      | .panic => .panic
      | .fuel => .fuel
    else .panic

/-- One pass of the `loop` body up to l.456. The recursion depth never exceeds the number of
nodes plus one (proved). -/
def orderPass (g : Topo) : Res (Bool × Dfs) :=
  visitList (visit g (g.keys.length + 1)) g.keys {}

/-- Clearing the outgoing edges of the recognised cycle breakers, graph.rs l.458-465. -/
def clearEdges (g : Topo) (bs : List Nat) : Topo :=
  { g with succ := fun n => if n ∈ bs then [] else g.succ n }

/-- Number of connections in the graph. -/
def edgeCount (g : Topo) : Nat := (g.keys.map fun n => (g.succ n).length).sum

/-- The `loop` of `order_nodes`, graph.rs l.429-471. -/
def orderLoop : Nat → Topo → Res (Topo × Dfs)
  | 0, _ => .fuel
  | k + 1, g =>
    match orderPass g with
    | .ok (true, st) => orderLoop k (clearEdges g st.breakers)
    | .ok (false, st) => .ok (g, st)
    | .panic => .panic
    | .fuel => .fuel

/-- `Graph::order_nodes`, graph.rs l.418-487: the topology after cutting at cycle breakers, and the
processing order (`ordered` without `in_cycle`, reversed). -/
def orderNodes (g : Topo) : Res (Topo × List Nat) :=
  match orderLoop (edgeCount g + 1) g with
  | .ok (g', st) => .ok (g', (st.ordered.filter (· ∉ st.inCycle)).reverse)
  | .panic => .panic
  | .fuel => .fuel

end Verif.Graph
