import Verif.Graph.SystemModel

/-!
# Translations of processors and signals

A translation `Hom sem' sem` maps processors, signals and messages so that it does not matter whether one first lets a
processor work (sums signals, handles a message) and then translates, or the other way round. The theorems of this file:
then it does not matter either for whole histories of the system (`Verif.Graph.SystemModel`): all operations of the
graph (`/repo/src/render/graph.rs`) treat processors and signals as black boxes.
-/

namespace Verif.Render

open Verif.Graph

variable {P S M P' S' M' : Type}

/-- A translation of processors, signals and messages. -/
structure Hom (sem : Sem P S M) (sem' : Sem P' S' M') where
  fP : P → P'
  fS : S → S'
  fM : M → M'
  process : ∀ p ins outs (ps : Nat → Option S),
    sem'.process (fP p) (ins.map fS) (outs.map fS) (fun j => (ps j).map fS) =
      (sem.process p ins outs ps).map fun r => (fP r.1, r.2.1.map fS, r.2.2)
  onmessage : ∀ p m, sem'.onmessage (fP p) (fM m) = (sem.onmessage p m).map fP
  side : ∀ p, sem'.sideEffects (fP p) = sem.sideEffects p
  silence : sem'.silence = fS sem.silence
  add : ∀ c a b, sem'.add c (fS a) (fS b) = fS (sem.add c a b)

variable {sem : Sem P S M} {sem' : Sem P' S' M'}

/-- translated node -/
def Hom.node (h : Hom sem sem') (n : Node P S) : Node P' S' where
  tag := n.tag
  proc := h.fP n.proc
  inputs := n.inputs.map h.fS
  outputs := n.outputs.map h.fS
  cfg := n.cfg
  edges := n.edges
  dropped := n.dropped
  hasInputs := n.hasInputs
  breaker := n.breaker

/-- translated graph -/
def Hom.graph (h : Hom sem sem') (g : RGraph P S) : RGraph P' S' where
  cap := g.cap
  slot := fun i => (g.slot i).map h.node
  ordered := g.ordered
  reclaimed := g.reclaimed

/-- translated control message -/
def Hom.msg (h : Hom sem sem') : Msg P M → Msg P' M'
  | .register id tag proc nin nout cfg => .register id tag (h.fP proc) nin nout cfg
  | .connect src stag e dtag => .connect src stag e dtag
  | .disconnect src stag e => .disconnect src stag e
  | .dropped id tag => .dropped id tag
  | .breaker id tag => .breaker id tag
  | .post id tag m => .post id tag (h.fM m)
  | .setCfg id tag c => .setCfg id tag c

/-- translated step of a history -/
def Hom.op (h : Hom sem sem') : Op P M → Op P' M'
  | .acquire => .acquire
  | .register id proc nin nout cfg => .register id (h.fP proc) nin nout cfg
  | .failCreate id => .failCreate id
  | .connect a b out inp => .connect a b out inp
  | .connectHidden a b admin => .connectHidden a b admin
  | .disconnect a out dst inp => .disconnect a out dst inp
  | .post x m => .post x (h.fM m)
  | .setCfg x c => .setCfg x c
  | .breaker x => .breaker x
  | .drop x => .drop x
  | .dropSend x => .dropSend x
  | .dropClear id => .dropClear id
  | .recv => .recv
  | .quantum => .quantum

/-- translated system -/
def Hom.sys (h : Hom sem sem') (s : Sys P S M) : Sys P' S' M' where
  g := h.graph s.g
  chan := s.chan.map h.msg
  nextId := s.nextId
  nextTag := s.nextTag
  alloc := s.alloc
  live := s.live
  conns := s.conns

namespace Hom

variable (h : Hom sem sem')

theorem graph_get (g : RGraph P S) (i : Nat) : (h.graph g).get i = (g.get i).map h.node := by
  unfold RGraph.get graph
  split <;> rfl

theorem graph_put (g : RGraph P S) (i : Nat) (n : Option (Node P S)) :
    h.graph (g.put i n) = (h.graph g).put i (n.map h.node) := by
  simp only [graph, RGraph.put, RGraph.mk.injEq, true_and, and_true]
  funext j
  split <;> rfl

theorem graph_addNode (g : RGraph P S) (id tag : Nat) (proc : P) (nin nout : Nat) (cfg : Cfg) :
    h.graph (g.addNode sem id tag proc nin nout cfg) =
      (h.graph g).addNode sem' id tag (h.fP proc) nin nout cfg := by
  simp only [graph, RGraph.addNode, RGraph.mk.injEq, true_and, and_true]
  funext j
  split
  · simp [node, h.silence]
  · rfl

theorem graph_addEdge (g : RGraph P S) (src : Nat) (e : Edge) :
    (h.graph g).addEdge src e = (g.addEdge src e).map h.graph := by
  unfold RGraph.addEdge
  rw [graph_get]
  cases g.get src with
  | none => rfl
  | some n =>
    simp only [Option.map_some, Option.some.injEq]
    simp only [graph, RGraph.put, RGraph.mk.injEq, true_and, and_true]
    funext j
    split <;> rfl

theorem graph_removeEdge (g : RGraph P S) (src : Nat) (e : Edge) :
    (h.graph g).removeEdge src e = (g.removeEdge src e).map h.graph := by
  unfold RGraph.removeEdge
  rw [graph_get]
  cases g.get src with
  | none => rfl
  | some n =>
    simp only [Option.map_some, Option.some.injEq]
    simp only [graph, RGraph.put, RGraph.mk.injEq, true_and, and_true]
    funext j
    split <;> rfl

theorem graph_markDropped (g : RGraph P S) (i : Nat) :
    (h.graph g).markDropped i = (g.markDropped i).map h.graph := by
  unfold RGraph.markDropped
  by_cases hi : i < g.cap
  · have hi' : i < (h.graph g).cap := hi
    rw [if_pos hi, if_pos hi']
    have hs : (h.graph g).slot i = (g.slot i).map h.node := rfl
    rw [hs]
    cases g.slot i with
    | none => rfl
    | some n => simp only [Option.map_some, graph_put]; rfl
  · have hi' : ¬ i < (h.graph g).cap := hi
    rw [if_neg hi, if_neg hi']
    rfl

theorem graph_markBreaker (g : RGraph P S) (i : Nat) :
    (h.graph g).markBreaker i = (g.markBreaker i).map h.graph := by
  unfold RGraph.markBreaker
  rw [graph_get]
  cases g.get i with
  | none => rfl
  | some n => simp only [Option.map_some, graph_put]; rfl

theorem graph_setCfg (g : RGraph P S) (i : Nat) (c : Cfg) :
    (h.graph g).setCfg i c = (g.setCfg i c).map h.graph := by
  unfold RGraph.setCfg
  rw [graph_get]
  cases g.get i with
  | none => rfl
  | some n => simp only [Option.map_some, graph_put]; rfl

theorem graph_routeMessage (g : RGraph P S) (i : Nat) (m : M) :
    (h.graph g).routeMessage sem' i (h.fM m) = (g.routeMessage sem i m).map h.graph := by
  unfold RGraph.routeMessage
  rw [graph_get]
  cases g.get i with
  | none => rfl
  | some n =>
    simp only [Option.map_some, Option.bind_some]
    rw [show (h.node n).proc = h.fP n.proc from rfl, h.onmessage]
    cases sem.onmessage n.proc m with
    | none => rfl
    | some p => simp only [Option.map_some, graph_put]; rfl

theorem graph_handle (g : RGraph P S) (m : Msg P M) :
    (h.graph g).handle sem' (h.msg m) = (g.handle sem m).map h.graph := by
  cases m with
  | register id tag proc nin nout cfg => simp only [RGraph.handle, msg, graph_addNode, Option.map_some]
  | connect src stag e dtag => exact graph_addEdge h g src e
  | disconnect src stag e => exact graph_removeEdge h g src e
  | dropped id tag => exact graph_markDropped h g id
  | breaker id tag => exact graph_markBreaker h g id
  | post id tag m => exact graph_routeMessage h g id m
  | setCfg id tag c => exact graph_setCfg h g id c

theorem graph_topo (g : RGraph P S) : (h.graph g).topo = g.topo := by
  unfold RGraph.topo RGraph.keys
  simp only [Topo.mk.injEq]
  refine ⟨?_, ?_, ?_⟩
  · simp [graph]
  · funext i
    simp only [graph]
    cases g.slot i <;> rfl
  · funext i
    simp only [graph]
    cases g.slot i <;> rfl

theorem graph_order (g : RGraph P S) : (h.graph g).order = g.order.map h.graph := by
  unfold RGraph.order
  rw [graph_topo]
  cases orderNodes g.topo with
  | ok r =>
    simp only [Option.map_some, Option.some.injEq]
    simp only [graph, RGraph.mk.injEq, true_and, and_true]
    funext i
    cases g.slot i with
    | none => rfl
    | some n =>
      simp only [Option.map_some, Option.some.injEq]
      split <;> rfl
  | _ => rfl

theorem graph_feed (i : Nat) (outs : List S) (g : RGraph P S) (e : Edge) :
    RGraph.feed sem' i (outs.map h.fS) (h.graph g) e = (RGraph.feed sem i outs g e).map h.graph := by
  unfold RGraph.feed
  cases e.port with
  | none => rfl
  | some p =>
    simp only
    split
    · rfl
    · rw [graph_get, List.getElem?_map]
      cases g.get e.dst with
      | none => rfl
      | some t =>
        cases outs[e.out]? with
        | none => rfl
        | some sig =>
          simp only [Option.map_some]
          rw [show (h.node t).inputs = t.inputs.map h.fS from rfl, List.getElem?_map]
          cases t.inputs[p]? with
          | none => rfl
          | some inp =>
            simp only [Option.map_some, graph_put]
            simp [node, h.add, List.map_set]

theorem foldOpt_map {α β β' : Type} (φ : β → β') (f : β → α → Option β) (f' : β' → α → Option β')
    (hf : ∀ b a, f' (φ b) a = (f b a).map φ) (l : List α) : ∀ b, RGraph.foldOpt f' l (φ b) = (RGraph.foldOpt f l b).map φ := by
  induction l with
  | nil => intro b; rfl
  | cons a l ih =>
    intro b
    simp only [RGraph.foldOpt, hf]
    cases f b a with
    | none => rfl
    | some b' => exact ih b'

theorem graph_params (g : RGraph P S) (i j : Nat) : (h.graph g).params i j = (g.params i j).map h.fS := by
  unfold RGraph.params
  split
  · rfl
  · rw [graph_get]
    cases g.get j with
    | none => rfl
    | some n => simp [node]

theorem graph_remove (g : RGraph P S) (i : Nat) : (h.graph g).remove i = h.graph (g.remove i) := by
  simp only [graph, RGraph.remove, RGraph.mk.injEq, true_and, and_true]
  funext j
  split
  · rfl
  · cases g.slot j <;> rfl

theorem node_process (g : RGraph P S) (i : Nat) (n : Node P S) :
    (h.graph g).process sem' i (h.node n) = (h.node (g.process sem i n).1, (g.process sem i n).2) := by
  unfold RGraph.process
  have hp := h.process n.proc n.inputs n.outputs (g.params i)
  rw [show (h.graph g).params i = fun j => (g.params i j).map h.fS from funext (graph_params h g i)]
  rw [show (h.node n).proc = h.fP n.proc from rfl, show (h.node n).inputs = n.inputs.map h.fS from rfl,
    show (h.node n).outputs = n.outputs.map h.fS from rfl, hp]
  cases sem.process n.proc n.inputs n.outputs (g.params i) with
  | none => rfl
  | some r => rfl

theorem node_canFree (n : Node P S) (tail : Bool) : (h.node n).canFree sem' tail = n.canFree sem tail := by
  unfold Node.canFree
  simp only [node, h.side]

theorem graph_renderNode (g : RGraph P S) (i : Nat) :
    (h.graph g).renderNode sem' i = (g.renderNode sem i).map h.graph := by
  unfold RGraph.renderNode
  rw [graph_get]
  cases g.get i with
  | none => rfl
  | some n =>
    simp only [Option.map_some, node_process]
    generalize g.process sem i n = r
    obtain ⟨n', success, tail⟩ := r
    simp only
    have hput : (h.graph g).put i (some (h.node n')) = h.graph (g.put i (some n')) := by
      rw [graph_put]; rfl
    rw [hput, show (h.node n').edges = n'.edges from rfl, show (h.node n').outputs = n'.outputs.map h.fS from rfl,
      foldOpt_map h.graph (RGraph.feed sem i n'.outputs) _ (fun b a => graph_feed h i n'.outputs b a), node_canFree]
    cases RGraph.foldOpt (RGraph.feed sem i n'.outputs) n'.edges (g.put i (some n')) with
    | none => rfl
    | some g2 =>
      simp only [Option.map_some]
      split
      · simp only [graph_remove, Option.map_some]
      · simp only [Option.map_some, graph_put]
        simp only [node, h.silence, List.map_map]
        rfl

/-- one quantum -/
theorem graph_render (g : RGraph P S) :
    (h.graph g).render sem' = (g.render sem).map fun r => (h.graph r.1, h.fS r.2) := by
  unfold RGraph.render
  have h0 : (if (h.graph g).ordered = [] then (h.graph g).order else some (h.graph g)) =
      (if g.ordered = [] then g.order else some g).map h.graph := by
    rw [show (h.graph g).ordered = g.ordered from rfl]
    split
    · exact graph_order h g
    · rfl
  rw [h0]
  cases (if g.ordered = [] then g.order else some g) with
  | none => rfl
  | some g1 =>
    simp only [Option.map_some]
    rw [show (h.graph g1).ordered = g1.ordered from rfl,
      foldOpt_map h.graph (RGraph.renderNode sem) _ (fun b a => graph_renderNode h b a)]
    cases RGraph.foldOpt (RGraph.renderNode sem) g1.ordered g1 with
    | none => rfl
    | some g2 =>
      simp only [Option.map_some]
      have h3 : ({ h.graph g2 with ordered := (h.graph g2).ordered.filter fun i => ((h.graph g2).slot i).isSome } :
            RGraph P' S') =
          h.graph { g2 with ordered := g2.ordered.filter fun i => (g2.slot i).isSome } := by
        simp [graph]
      rw [h3, graph_get]
      cases RGraph.get { g2 with ordered := g2.ordered.filter fun i => (g2.slot i).isSome } 0 with
      | none => rfl
      | some d =>
        simp only [Option.map_some, node, List.head?_map, Option.map_map]
        rfl

theorem sys_step (s : Sys P S M) (op : Op P M) : (h.sys s).step sem' (h.op op) = (s.step sem op).map h.sys := by
  cases op with
  | acquire =>
    simp only [Sys.step, op, Option.map_some, Option.some.injEq]
    unfold Sys.acquire
    simp only [sys, graph]
    split <;> simp_all
  | recv =>
    simp only [Sys.step, op, sys]
    cases hc : s.chan with
    | nil => simp [sys, hc]
    | cons m ms =>
      simp only [List.map_cons, graph_handle, Option.map_map]
      rfl
  | quantum =>
    simp only [Sys.step, op, sys, graph_render, Option.map_map]
    rfl
  | dropClear id => rfl
  | connect a b out inp =>
    simp only [Sys.step, op]
    by_cases hc : a ∈ s.live ∧ b ∈ s.live ∧ out < a.nout ∧ inp < b.nin
    · rw [if_pos hc, if_pos (by exact hc)]
      simp only [sys, Option.map_some, List.map_append, List.map_cons, List.map_nil, msg]
      rfl
    · rw [if_neg hc, if_neg (by exact hc)]
      rfl
  | connectHidden a b admin =>
    simp only [Sys.step, op]
    by_cases hc : a ∈ s.live ∧ b ∈ s.live ∧ 0 < a.nout
    · rw [if_pos hc, if_pos (by exact hc)]
      simp only [sys, Option.map_some, List.map_append, List.map_cons, List.map_nil, msg]
      rfl
    · rw [if_neg hc, if_neg (by exact hc)]
      rfl
  | _ =>
    simp only [Sys.step, op]
    split <;> rename_i hc
    all_goals simp only [sys] at hc
    all_goals first
      | (simp only [if_pos hc, Option.map_some]; simp [sys, msg]; done)
      | (simp only [if_neg hc]; rfl)

theorem sys_run (ops : List (Op P M)) (s : Sys P S M) :
    (h.sys s).run sem' (ops.map h.op) = (s.run sem ops).map h.sys := by
  unfold Sys.run
  induction ops generalizing s with
  | nil => rfl
  | cons o ops ih =>
    simp only [List.map_cons, RGraph.foldOpt, sys_step]
    cases s.step sem o with
    | none => rfl
    | some s' => exact ih s'

theorem sys_init (dest : P) (cfg : Cfg) : h.sys (Sys.init sem dest cfg) = Sys.init sem' (h.fP dest) cfg := by
  simp only [sys, Sys.init, graph_addNode, Sys.mk.injEq, and_true, List.map_nil]
  rfl

end Hom

/-! ## The sound of a history -/

/-- The outputs of the destination in the quanta of a history, and the final state; `none` if the render thread
panics. -/
def Sys.sound (sem : Sem P S M) : Sys P S M → List (Op P M) → Option (Sys P S M × List S)
  | s, [] => some (s, [])
  | s, .quantum :: ops =>
    match s.g.render sem with
    | none => none
    | some (g, o) => (Sys.sound sem { s with g := g } ops).map fun r => (r.1, o :: r.2)
  | s, op :: ops =>
    match s.step sem op with
    | none => none
    | some s' => Sys.sound sem s' ops

/-- The sound of a translated history is the translated sound. -/
theorem Hom.sys_sound (h : Hom sem sem') (ops : List (Op P M)) : ∀ (s : Sys P S M),
    (h.sys s).sound sem' (ops.map h.op) = (s.sound sem ops).map fun r => (h.sys r.1, r.2.map h.fS) := by
  induction ops with
  | nil => intro s; rfl
  | cons o ops ih =>
    intro s
    by_cases hq : o = .quantum
    · subst hq
      simp only [List.map_cons, Hom.op, Sys.sound]
      rw [show (h.sys s).g = h.graph s.g from rfl, graph_render]
      cases s.g.render sem with
      | none => rfl
      | some r =>
        simp only [Option.map_some]
        have := ih { s with g := r.1 }
        rw [show ({ h.sys s with g := h.graph r.1 } : Sys P' S' M') = h.sys { s with g := r.1 } from rfl, this,
          Option.map_map, Option.map_map]
        rfl
    · have e1 : Sys.sound sem s (o :: ops) = match s.step sem o with
          | none => none
          | some s' => Sys.sound sem s' ops := by
        cases o <;> first | rfl | exact absurd rfl hq
      have e2 : Sys.sound sem' (h.sys s) ((o :: ops).map h.op) = match (h.sys s).step sem' (h.op o) with
          | none => none
          | some s' => Sys.sound sem' s' (ops.map h.op) := by
        cases o <;> first | rfl | exact absurd rfl hq
      rw [e1, e2, sys_step]
      cases s.step sem o with
      | none => rfl
      | some s' => exact ih s'

end Verif.Render
