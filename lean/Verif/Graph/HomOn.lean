import Verif.Graph.Hom

/-!
# Translations that are correct under an invariant

As `Verif.Graph.Hom`, but the translation only has to commute with processing where an invariant of processors, inputs
and outputs holds, and it need not preserve the tail times of processors. In return the histories must not drop handles
and not change channel configurations (graph: `/repo/src/render/graph.rs`; the tail time matters for dropped nodes only,
l.87-115).
-/

namespace Verif.Render

open Verif.Graph

variable {P S M P' S' M' : Type}

/-- A translation of processors, signals and messages under an invariant. -/
structure HomOn (sem : Sem P S M) (sem' : Sem P' S' M') where
  fP : P → P'
  fS : S → S'
  fM : M → M'
  /-- processors of nodes with a channel configuration -/
  okP : Cfg → P → Prop
  /-- inputs of nodes with a channel configuration -/
  okI : Cfg → S → Prop
  okO : S → Prop
  okM : M → Prop
  process : ∀ c p ins outs (ps : Nat → Option S), okP c p → (∀ x ∈ ins, okI c x) → (∀ x ∈ outs, okO x) →
    (sem'.process (fP p) (ins.map fS) (outs.map fS) (fun j => (ps j).map fS)).map (fun r => (r.1, r.2.1)) =
      (sem.process p ins outs ps).map fun r => (fP r.1, r.2.1.map fS)
  process_ok : ∀ c p ins outs (ps : Nat → Option S) r, okP c p → (∀ x ∈ ins, okI c x) → (∀ x ∈ outs, okO x) →
    sem.process p ins outs ps = some r → okP c r.1 ∧ ∀ x ∈ r.2.1, okO x
  onmessage : ∀ c p m, okP c p → okM m → sem'.onmessage (fP p) (fM m) = (sem.onmessage p m).map fP
  onmessage_ok : ∀ c p m p', okP c p → okM m → sem.onmessage p m = some p' → okP c p'
  silence : sem'.silence = fS sem.silence
  silence_okI : ∀ c, okI c sem.silence
  silence_okO : okO sem.silence
  /-- configurations of nodes -/
  okC : Cfg → Prop
  okP_okC : ∀ c p, okP c p → okC c
  add : ∀ c a b, okC c → okI c a → okO b → sem'.add c (fS a) (fS b) = fS (sem.add c a b)
  add_ok : ∀ c a b, okC c → okI c a → okO b → okI c (sem.add c a b)

variable {sem : Sem P S M} {sem' : Sem P' S' M'}

/-- translated node -/
def HomOn.node (h : HomOn sem sem') (n : Node P S) : Node P' S' where
  tag := n.tag
  proc := h.fP n.proc
  inputs := n.inputs.map h.fS
  outputs := n.outputs.map h.fS
  cfg := n.cfg
  edges := n.edges
  dropped := n.dropped
  hasInputs := n.hasInputs
  breaker := n.breaker

/-- translated graph -/
def HomOn.graph (h : HomOn sem sem') (g : RGraph P S) : RGraph P' S' where
  cap := g.cap
  slot := fun i => (g.slot i).map h.node
  ordered := g.ordered
  reclaimed := g.reclaimed

/-- translated control message -/
def HomOn.msg (h : HomOn sem sem') : Msg P M → Msg P' M'
  | .register id tag proc nin nout cfg => .register id tag (h.fP proc) nin nout cfg
  | .connect src stag e dtag => .connect src stag e dtag
  | .disconnect src stag e => .disconnect src stag e
  | .dropped id tag => .dropped id tag
  | .breaker id tag => .breaker id tag
  | .post id tag m => .post id tag (h.fM m)
  | .setCfg id tag c => .setCfg id tag c

/-- translated step of a history -/
def HomOn.op (h : HomOn sem sem') : Op P M → Op P' M'
  | .acquire => .acquire
  | .register id proc nin nout cfg => .register id (h.fP proc) nin nout cfg
  | .failCreate id => .failCreate id
  | .connect a b out inp => .connect a b out inp
  | .connectHidden a b admin => .connectHidden a b admin
  | .disconnect a out dst inp => .disconnect a out dst inp
  | .post x m => .post x (h.fM m)
  | .setCfg x c => .setCfg x c
  | .breaker x => .breaker x
  | .drop x => .drop x
  | .dropSend x => .dropSend x
  | .dropClear id => .dropClear id
  | .recv => .recv
  | .quantum => .quantum

/-- translated system -/
def HomOn.sys (h : HomOn sem sem') (s : Sys P S M) : Sys P' S' M' where
  g := h.graph s.g
  chan := s.chan.map h.msg
  nextId := s.nextId
  nextTag := s.nextTag
  alloc := s.alloc
  live := s.live
  conns := s.conns


/-! ## The invariant -/

/-- invariant of a node -/
def HomOn.okNode (h : HomOn sem sem') (n : Node P S) : Prop :=
  n.dropped = false ∧ h.okP n.cfg n.proc ∧ (∀ x ∈ n.inputs, h.okI n.cfg x) ∧ ∀ x ∈ n.outputs, h.okO x

/-- invariant of a graph -/
def HomOn.okGraph (h : HomOn sem sem') (g : RGraph P S) : Prop := ∀ i n, g.slot i = some n → h.okNode n

/-- messages that keep the invariant -/
def HomOn.okMsg (h : HomOn sem sem') : Msg P M → Prop
  | .register _ _ proc _ _ cfg => h.okP cfg proc
  | .dropped _ _ => False
  | .setCfg _ _ _ => False
  | .post _ _ m => h.okM m
  | _ => True

/-- steps of histories that keep the invariant -/
def HomOn.okOp (h : HomOn sem sem') : Op P M → Prop
  | .register _ proc _ _ cfg => h.okP cfg proc
  | .post _ m => h.okM m
  | .setCfg _ _ => False
  | .drop _ => False
  | .dropSend _ => False
  | .failCreate _ => False
  | _ => True

/-- invariant of a system -/
def HomOn.okSys (h : HomOn sem sem') (s : Sys P S M) : Prop := h.okGraph s.g ∧ ∀ m ∈ s.chan, h.okMsg m

namespace HomOn

variable (h : HomOn sem sem')

theorem graph_get (g : RGraph P S) (i : Nat) : (h.graph g).get i = (g.get i).map h.node := by
  unfold RGraph.get graph
  split <;> rfl

theorem graph_put (g : RGraph P S) (i : Nat) (n : Option (Node P S)) :
    h.graph (g.put i n) = (h.graph g).put i (n.map h.node) := by
  simp only [graph, RGraph.put, RGraph.mk.injEq, true_and, and_true]
  funext j
  split <;> rfl

theorem graph_addNode (g : RGraph P S) (id tag : Nat) (proc : P) (nin nout : Nat) (cfg : Cfg) :
    h.graph (g.addNode sem id tag proc nin nout cfg) =
      (h.graph g).addNode sem' id tag (h.fP proc) nin nout cfg := by
  simp only [graph, RGraph.addNode, RGraph.mk.injEq, true_and, and_true]
  funext j
  split
  · simp [node, h.silence]
  · rfl

theorem graph_addEdge (g : RGraph P S) (src : Nat) (e : Edge) :
    (h.graph g).addEdge src e = (g.addEdge src e).map h.graph := by
  unfold RGraph.addEdge
  rw [graph_get]
  cases g.get src with
  | none => rfl
  | some n =>
    simp only [Option.map_some, Option.some.injEq]
    simp only [graph, RGraph.put, RGraph.mk.injEq, true_and, and_true]
    funext j
    split <;> rfl

theorem graph_removeEdge (g : RGraph P S) (src : Nat) (e : Edge) :
    (h.graph g).removeEdge src e = (g.removeEdge src e).map h.graph := by
  unfold RGraph.removeEdge
  rw [graph_get]
  cases g.get src with
  | none => rfl
  | some n =>
    simp only [Option.map_some, Option.some.injEq]
    simp only [graph, RGraph.put, RGraph.mk.injEq, true_and, and_true]
    funext j
    split <;> rfl

theorem graph_markDropped (g : RGraph P S) (i : Nat) :
    (h.graph g).markDropped i = (g.markDropped i).map h.graph := by
  unfold RGraph.markDropped
  by_cases hi : i < g.cap
  · have hi' : i < (h.graph g).cap := hi
    rw [if_pos hi, if_pos hi']
    have hs : (h.graph g).slot i = (g.slot i).map h.node := rfl
    rw [hs]
    cases g.slot i with
    | none => rfl
    | some n => simp only [Option.map_some, graph_put]; rfl
  · have hi' : ¬ i < (h.graph g).cap := hi
    rw [if_neg hi, if_neg hi']
    rfl

theorem graph_markBreaker (g : RGraph P S) (i : Nat) :
    (h.graph g).markBreaker i = (g.markBreaker i).map h.graph := by
  unfold RGraph.markBreaker
  rw [graph_get]
  cases g.get i with
  | none => rfl
  | some n => simp only [Option.map_some, graph_put]; rfl

theorem graph_setCfg (g : RGraph P S) (i : Nat) (c : Cfg) :
    (h.graph g).setCfg i c = (g.setCfg i c).map h.graph := by
  unfold RGraph.setCfg
  rw [graph_get]
  cases g.get i with
  | none => rfl
  | some n => simp only [Option.map_some, graph_put]; rfl

theorem ok_put {g : RGraph P S} (hg : h.okGraph g) {i : Nat} {n : Node P S} (hn : h.okNode n) :
    h.okGraph (g.put i (some n)) := by
  intro j m hj
  simp only [RGraph.put] at hj
  split at hj
  · cases hj; exact hn
  · exact hg j m hj

theorem ok_get {g : RGraph P S} (hg : h.okGraph g) {i : Nat} {n : Node P S} (hn : g.get i = some n) : h.okNode n := by
  unfold RGraph.get at hn
  split at hn
  · exact hg i n hn
  · cases hn

theorem graph_handle {g : RGraph P S} (hg : h.okGraph g) {m : Msg P M} (hm : h.okMsg m) :
    (h.graph g).handle sem' (h.msg m) = (g.handle sem m).map h.graph ∧
      ∀ g', g.handle sem m = some g' → h.okGraph g' := by
  cases m with
  | register id tag proc nin nout cfg =>
    refine ⟨by simp only [RGraph.handle, msg, graph_addNode, Option.map_some], ?_⟩
    intro g' hg'
    simp only [RGraph.handle, Option.some.injEq] at hg'
    subst hg'
    intro j n hj
    simp only [RGraph.addNode] at hj
    split at hj
    · cases hj
      refine ⟨rfl, hm, fun x hx => ?_, fun x hx => ?_⟩
      · rw [List.eq_of_mem_replicate hx]; exact h.silence_okI _
      · rw [List.eq_of_mem_replicate hx]; exact h.silence_okO
    · exact hg j n hj
  | connect src stag e dtag =>
    refine ⟨graph_addEdge h g src e, fun g' hg' => ?_⟩
    simp only [RGraph.handle, RGraph.addEdge] at hg'
    split at hg'
    · rename_i n hn
      cases hg'
      have := ok_get h hg hn
      exact ok_put (n := { n with edges := n.edges ++ [e] }) h hg this
    · cases hg'
  | disconnect src stag e =>
    refine ⟨graph_removeEdge h g src e, fun g' hg' => ?_⟩
    simp only [RGraph.handle, RGraph.removeEdge] at hg'
    split at hg'
    · rename_i n hn
      cases hg'
      have := ok_get h hg hn
      exact ok_put (n := { n with edges := _ }) h hg this
    · cases hg'
  | dropped id tag => exact absurd hm _root_.id
  | breaker id tag =>
    refine ⟨graph_markBreaker h g id, fun g' hg' => ?_⟩
    simp only [RGraph.handle, RGraph.markBreaker, Option.map_eq_some_iff] at hg'
    obtain ⟨n, hn, rfl⟩ := hg'
    have := ok_get h hg hn
    exact ok_put (n := { n with breaker := true }) h hg this
  | post id tag m =>
    simp only [RGraph.handle, msg, RGraph.routeMessage, graph_get]
    cases hn : g.get id with
    | none => exact ⟨rfl, fun g' hg' => by cases hg'⟩
    | some n =>
      have hok := ok_get h hg hn
      simp only [Option.map_some, Option.bind_some]
      rw [show (h.node n).proc = h.fP n.proc from rfl, h.onmessage _ _ _ hok.2.1 hm]
      cases hp : sem.onmessage n.proc m with
      | none => exact ⟨rfl, fun g' hg' => by cases hg'⟩
      | some p =>
        refine ⟨by simp only [Option.map_some, graph_put]; rfl, fun g' hg' => ?_⟩
        cases hg'
        exact ok_put (n := { n with proc := p }) h hg ⟨hok.1, h.onmessage_ok _ _ _ _ hok.2.1 hm hp, hok.2.2⟩
  | setCfg id tag c => exact absurd hm _root_.id

theorem graph_topo (g : RGraph P S) : (h.graph g).topo = g.topo := by
  unfold RGraph.topo RGraph.keys
  simp only [Topo.mk.injEq]
  refine ⟨?_, ?_, ?_⟩
  · simp [graph]
  · funext i
    simp only [graph]
    cases g.slot i <;> rfl
  · funext i
    simp only [graph]
    cases g.slot i <;> rfl

theorem graph_order (g : RGraph P S) : (h.graph g).order = g.order.map h.graph := by
  unfold RGraph.order
  rw [graph_topo]
  cases orderNodes g.topo with
  | ok r =>
    simp only [Option.map_some, Option.some.injEq]
    simp only [graph, RGraph.mk.injEq, true_and, and_true]
    funext i
    cases g.slot i with
    | none => rfl
    | some n =>
      simp only [Option.map_some, Option.some.injEq]
      split <;> rfl
  | _ => rfl

theorem ok_order {g g' : RGraph P S} (hg : h.okGraph g) (ho : g.order = some g') : h.okGraph g' := by
  unfold RGraph.order at ho
  split at ho
  · cases ho
    intro i n hn
    simp only [Option.map_eq_some_iff] at hn
    obtain ⟨m, hm, rfl⟩ := hn
    have := hg i m hm
    split <;> exact this
  · cases ho

theorem graph_feed (i : Nat) {outs : List S} (ho : ∀ x ∈ outs, h.okO x) {g : RGraph P S} (hg : h.okGraph g) (e : Edge) :
    RGraph.feed sem' i (outs.map h.fS) (h.graph g) e = (RGraph.feed sem i outs g e).map h.graph ∧
      ∀ g', RGraph.feed sem i outs g e = some g' → h.okGraph g' := by
  unfold RGraph.feed
  cases e.port with
  | none => exact ⟨rfl, fun g' hg' => by cases hg'; exact hg⟩
  | some p =>
    simp only
    split
    · exact ⟨rfl, fun g' hg' => by cases hg'⟩
    · rw [graph_get, List.getElem?_map]
      cases ht : g.get e.dst with
      | none => exact ⟨rfl, fun g' hg' => by cases hg'⟩
      | some t =>
        cases hs : outs[e.out]? with
        | none => exact ⟨rfl, fun g' hg' => by cases hg'⟩
        | some sig =>
          simp only [Option.map_some]
          rw [show (h.node t).inputs = t.inputs.map h.fS from rfl, List.getElem?_map]
          cases hi : t.inputs[p]? with
          | none => exact ⟨rfl, fun g' hg' => by cases hg'⟩
          | some inp =>
            have hok := ok_get h hg ht
            have hc := h.okP_okC _ _ hok.2.1
            have h1 := hok.2.2.1 inp (List.mem_of_getElem? hi)
            have h2 := ho sig (List.mem_of_getElem? hs)
            refine ⟨?_, fun g' hg' => ?_⟩
            · simp only [Option.map_some, graph_put]
              simp [node, h.add _ _ _ hc h1 h2, List.map_set]
            · cases hg'
              refine ok_put h hg ⟨hok.1, hok.2.1, fun x hx => ?_, hok.2.2.2⟩
              rcases List.mem_or_eq_of_mem_set hx with hx | hx
              · exact hok.2.2.1 x hx
              · rw [hx]; exact h.add_ok _ _ _ hc h1 h2

theorem foldOpt_map {α β β' : Type} (φ : β → β') (I : β → Prop) (f : β → α → Option β) (f' : β' → α → Option β')
    (hf : ∀ b a, I b → f' (φ b) a = (f b a).map φ ∧ ∀ b', f b a = some b' → I b') (l : List α) :
    ∀ b, I b → RGraph.foldOpt f' l (φ b) = (RGraph.foldOpt f l b).map φ ∧
      ∀ b', RGraph.foldOpt f l b = some b' → I b' := by
  induction l with
  | nil => intro b hb; exact ⟨rfl, fun b' hb' => by cases hb'; exact hb⟩
  | cons a l ih =>
    intro b hb
    have h1 := hf b a hb
    simp only [RGraph.foldOpt, h1.1]
    cases hc : f b a with
    | none => exact ⟨rfl, fun b' hb' => by cases hb'⟩
    | some b' => exact ih b' (h1.2 b' hc)

theorem graph_params (g : RGraph P S) (i j : Nat) : (h.graph g).params i j = (g.params i j).map h.fS := by
  unfold RGraph.params
  split
  · rfl
  · rw [graph_get]
    cases g.get j with
    | none => rfl
    | some n => simp [node]

theorem graph_remove (g : RGraph P S) (i : Nat) : (h.graph g).remove i = h.graph (g.remove i) := by
  simp only [graph, RGraph.remove, RGraph.mk.injEq, true_and, and_true]
  funext j
  split
  · rfl
  · cases g.slot j <;> rfl

theorem node_process (g : RGraph P S) (i : Nat) {n : Node P S} (hn : h.okNode n) :
    ((h.graph g).process sem' i (h.node n)).1 = h.node (g.process sem i n).1 ∧
      ((h.graph g).process sem' i (h.node n)).2.1 = (g.process sem i n).2.1 ∧ h.okNode (g.process sem i n).1 := by
  unfold RGraph.process
  have hp := h.process n.cfg n.proc n.inputs n.outputs (g.params i) hn.2.1 hn.2.2.1 hn.2.2.2
  rw [show (h.graph g).params i = fun j => (g.params i j).map h.fS from funext (graph_params h g i)]
  rw [show (h.node n).proc = h.fP n.proc from rfl, show (h.node n).inputs = n.inputs.map h.fS from rfl,
    show (h.node n).outputs = n.outputs.map h.fS from rfl]
  cases hr : sem.process n.proc n.inputs n.outputs (g.params i) with
  | none =>
    rw [hr, Option.map_none, Option.map_eq_none_iff] at hp
    rw [hp]
    exact ⟨rfl, rfl, hn⟩
  | some r =>
    rw [hr, Option.map_some, Option.map_eq_some_iff] at hp
    obtain ⟨r', h1, h2⟩ := hp
    rw [h1]
    have hk := h.process_ok _ _ _ _ _ _ hn.2.1 hn.2.2.1 hn.2.2.2 hr
    simp only [Prod.mk.injEq] at h2
    refine ⟨?_, rfl, hn.1, hk.1, hn.2.2.1, hk.2⟩
    simp only [node, h2.1, h2.2]

theorem ok_remove {g : RGraph P S} (hg : h.okGraph g) (i : Nat) : h.okGraph (g.remove i) := by
  intro j n hn
  simp only [RGraph.remove] at hn
  split at hn
  · cases hn
  · simp only [Option.map_eq_some_iff] at hn
    obtain ⟨m, hm, rfl⟩ := hn
    exact hg j m hm

theorem graph_renderNode {g : RGraph P S} (hg : h.okGraph g) (i : Nat) :
    (h.graph g).renderNode sem' i = (g.renderNode sem i).map h.graph ∧
      ∀ g', g.renderNode sem i = some g' → h.okGraph g' := by
  unfold RGraph.renderNode
  rw [graph_get]
  cases hn : g.get i with
  | none => exact ⟨rfl, fun g' hg' => by cases hg'⟩
  | some n =>
    have hok := ok_get h hg hn
    obtain ⟨hp1, hp2, hp3⟩ := node_process h g i hok
    simp only [Option.map_some]
    generalize g.process sem i n = r at hp1 hp2 hp3
    generalize (h.graph g).process sem' i (h.node n) = r' at hp1 hp2
    obtain ⟨n', success, tail⟩ := r
    obtain ⟨n2, success', tail'⟩ := r'
    simp only at hp1 hp2 hp3
    subst hp1 hp2
    simp only
    have hput : (h.graph g).put i (some (h.node n')) = h.graph (g.put i (some n')) := by
      rw [graph_put]; rfl
    obtain ⟨hf1, hf2⟩ := foldOpt_map h.graph h.okGraph (RGraph.feed sem i n'.outputs)
      (RGraph.feed sem' i (n'.outputs.map h.fS)) (fun b a hb => graph_feed h i hp3.2.2.2 hb a) n'.edges
      (g.put i (some n')) (ok_put h hg hp3)
    have c1 : n'.canFree sem tail = false := by simp [Node.canFree, hp3.1]
    have c2 : (h.node n').canFree sem' tail' = false := by simp [Node.canFree, node, hp3.1]
    rw [hput, show (h.node n').edges = n'.edges from rfl, show (h.node n').outputs = n'.outputs.map h.fS from rfl,
      hf1, c1, c2]
    cases hc : RGraph.foldOpt (RGraph.feed sem i n'.outputs) n'.edges (g.put i (some n')) with
    | none => exact ⟨rfl, fun g' hg' => by cases hg'⟩
    | some g2 =>
      have hg2 := hf2 g2 hc
      simp only [Option.map_some]
      split
      · refine ⟨by simp only [graph_remove, Option.map_some], fun g' hg' => ?_⟩
        cases hg'
        exact ok_remove h hg2 i
      · refine ⟨?_, fun g' hg' => ?_⟩
        · simp only [Option.map_some, graph_put]
          simp only [node, h.silence, List.map_map]
          rfl
        · cases hg'
          refine ok_put h hg2 ⟨hp3.1, hp3.2.1, fun x hx => ?_, hp3.2.2.2⟩
          obtain ⟨_, _, rfl⟩ := List.mem_map.1 hx
          exact h.silence_okI _

/-- one quantum -/
theorem graph_render {g : RGraph P S} (hg : h.okGraph g) :
    (h.graph g).render sem' = (g.render sem).map (fun r => (h.graph r.1, h.fS r.2)) ∧
      ∀ r, g.render sem = some r → h.okGraph r.1 ∧ h.okO r.2 := by
  unfold RGraph.render
  have h0 : (if (h.graph g).ordered = [] then (h.graph g).order else some (h.graph g)) =
      (if g.ordered = [] then g.order else some g).map h.graph := by
    rw [show (h.graph g).ordered = g.ordered from rfl]
    split
    · exact graph_order h g
    · rfl
  have h1 : ∀ g1, (if g.ordered = [] then g.order else some g) = some g1 → h.okGraph g1 := by
    intro g1 hg1
    split at hg1
    · exact ok_order h hg hg1
    · cases hg1; exact hg
  rw [h0]
  cases hc : (if g.ordered = [] then g.order else some g) with
  | none => exact ⟨rfl, fun g' hg' => by cases hg'⟩
  | some g1 =>
    obtain ⟨hf1, hf2⟩ := foldOpt_map h.graph h.okGraph (RGraph.renderNode sem) (RGraph.renderNode sem')
      (fun b a hb => graph_renderNode h hb a) g1.ordered g1 (h1 g1 hc)
    simp only [Option.map_some]
    rw [show (h.graph g1).ordered = g1.ordered from rfl, hf1]
    cases hd : RGraph.foldOpt (RGraph.renderNode sem) g1.ordered g1 with
    | none => exact ⟨rfl, fun g' hg' => by cases hg'⟩
    | some g2 =>
      have hg2 := hf2 g2 hd
      simp only [Option.map_some]
      have h3 : ({ h.graph g2 with ordered := (h.graph g2).ordered.filter fun i => ((h.graph g2).slot i).isSome } :
            RGraph P' S') =
          h.graph { g2 with ordered := g2.ordered.filter fun i => (g2.slot i).isSome } := by
        simp [graph]
      rw [h3, graph_get]
      cases he : RGraph.get { g2 with ordered := g2.ordered.filter fun i => (g2.slot i).isSome } 0 with
      | none => exact ⟨rfl, fun g' hg' => by cases hg'⟩
      | some d =>
        have hd : h.okNode d := by
          refine ok_get (g := { g2 with ordered := g2.ordered.filter fun i => (g2.slot i).isSome }) h ?_ he
          exact hg2
        refine ⟨?_, fun r hr => ?_⟩
        · simp only [Option.map_some, node, List.head?_map, Option.map_map]
          rfl
        · simp only [Option.map_eq_some_iff] at hr
          obtain ⟨o, ho, rfl⟩ := hr
          exact ⟨hg2, hd.2.2.2 o (List.mem_of_head? ho)⟩

theorem sys_step {s : Sys P S M} (hs : h.okSys s) {op : Op P M} (ho : h.okOp op) :
    (h.sys s).step sem' (h.op op) = (s.step sem op).map h.sys ∧ ∀ s', s.step sem op = some s' → h.okSys s' := by
  have happ : ∀ (ms : List (Msg P M)), (∀ m ∈ ms, h.okMsg m) → ∀ m ∈ s.chan ++ ms, h.okMsg m := by
    intro ms hms m hm
    rcases List.mem_append.1 hm with hm | hm
    · exact hs.2 m hm
    · exact hms m hm
  cases op with
  | acquire =>
    refine ⟨?_, fun s' hs' => ?_⟩
    · simp only [Sys.step, HomOn.op, Option.map_some, Option.some.injEq]
      unfold Sys.acquire
      simp only [sys, graph]
      split <;> simp_all
    · simp only [Sys.step, Option.some.injEq] at hs'
      subst hs'
      unfold Sys.acquire
      split <;> exact hs
  | recv =>
    simp only [Sys.step, HomOn.op, sys]
    cases hc : s.chan with
    | nil => exact ⟨by simp [sys, hc], fun s' hs' => by cases hs'; exact hs⟩
    | cons m ms =>
      have hm := graph_handle h hs.1 (hs.2 m (by rw [hc]; simp))
      refine ⟨?_, fun s' hs' => ?_⟩
      · simp only [List.map_cons, hm.1, Option.map_map]
        rfl
      · simp only [Option.map_eq_some_iff] at hs'
        obtain ⟨g, hg, rfl⟩ := hs'
        exact ⟨hm.2 g hg, fun x hx => hs.2 x (by rw [hc]; simp [hx])⟩
  | quantum =>
    have hm := graph_render h hs.1
    refine ⟨?_, fun s' hs' => ?_⟩
    · simp only [Sys.step, HomOn.op, sys, hm.1, Option.map_map]
      rfl
    · simp only [Sys.step, Option.map_eq_some_iff] at hs'
      obtain ⟨r, hr, rfl⟩ := hs'
      exact ⟨(hm.2 r hr).1, hs.2⟩
  | dropClear id =>
    refine ⟨rfl, fun s' hs' => ?_⟩
    simp only [Sys.step, Option.some.injEq] at hs'
    subst hs'
    exact hs
  | connect a b out inp =>
    simp only [Sys.step, HomOn.op]
    by_cases hc : a ∈ s.live ∧ b ∈ s.live ∧ out < a.nout ∧ inp < b.nin
    · rw [if_pos hc, if_pos (by exact hc)]
      refine ⟨?_, fun s' hs' => ?_⟩
      · simp only [sys, Option.map_some, List.map_append, List.map_cons, List.map_nil, msg]
        rfl
      · cases hs'
        exact ⟨hs.1, happ _ (by simp [okMsg])⟩
    · rw [if_neg hc, if_neg (by exact hc)]
      exact ⟨rfl, fun s' hs' => by cases hs'; exact hs⟩
  | connectHidden a b admin =>
    simp only [Sys.step, HomOn.op]
    by_cases hc : a ∈ s.live ∧ b ∈ s.live ∧ 0 < a.nout
    · rw [if_pos hc, if_pos (by exact hc)]
      refine ⟨?_, fun s' hs' => ?_⟩
      · simp only [sys, Option.map_some, List.map_append, List.map_cons, List.map_nil, msg]
        rfl
      · cases hs'
        exact ⟨hs.1, happ _ (by simp [okMsg])⟩
    · rw [if_neg hc, if_neg (by exact hc)]
      exact ⟨rfl, fun s' hs' => by cases hs'; exact hs⟩
  | failCreate id => exact absurd ho _root_.id
  | setCfg x c => exact absurd ho _root_.id
  | drop x => exact absurd ho _root_.id
  | dropSend x => exact absurd ho _root_.id
  | register id proc nin nout cfg =>
    simp only [Sys.step, HomOn.op]
    by_cases hc : id ∈ s.alloc
    · rw [if_pos hc, if_pos (by exact hc)]
      refine ⟨by simp [sys, msg], fun s' hs' => ?_⟩
      cases hs'
      exact ⟨hs.1, happ _ (by simpa [okMsg, okOp] using ho)⟩
    · rw [if_neg hc, if_neg (by exact hc)]
      exact ⟨rfl, fun s' hs' => by cases hs'; exact hs⟩
  | disconnect a out dst inp =>
    simp only [Sys.step, HomOn.op]
    by_cases hc : a ∈ s.live
    · rw [if_pos hc, if_pos (by exact hc)]
      refine ⟨by simp [sys, msg], fun s' hs' => ?_⟩
      cases hs'
      refine ⟨hs.1, happ _ fun m hm => ?_⟩
      obtain ⟨_, _, rfl⟩ := List.mem_map.1 hm
      trivial
    · rw [if_neg hc, if_neg (by exact hc)]
      exact ⟨rfl, fun s' hs' => by cases hs'; exact hs⟩
  | post x m =>
    simp only [Sys.step, HomOn.op]
    by_cases hc : x ∈ s.live
    · rw [if_pos hc, if_pos (by exact hc)]
      refine ⟨by simp [sys, msg], fun s' hs' => ?_⟩
      cases hs'
      exact ⟨hs.1, happ _ (by simpa [okMsg, okOp] using ho)⟩
    · rw [if_neg hc, if_neg (by exact hc)]
      exact ⟨rfl, fun s' hs' => by cases hs'; exact hs⟩
  | breaker x =>
    simp only [Sys.step, HomOn.op]
    by_cases hc : x ∈ s.live
    · rw [if_pos hc, if_pos (by exact hc)]
      refine ⟨by simp [sys, msg], fun s' hs' => ?_⟩
      cases hs'
      exact ⟨hs.1, happ _ (by simp [okMsg])⟩
    · rw [if_neg hc, if_neg (by exact hc)]
      exact ⟨rfl, fun s' hs' => by cases hs'; exact hs⟩

theorem sys_init (dest : P) (cfg : Cfg) : h.sys (Sys.init sem dest cfg) = Sys.init sem' (h.fP dest) cfg := by
  simp only [sys, Sys.init, graph_addNode, Sys.mk.injEq, and_true, List.map_nil]
  rfl

theorem init_ok {dest : P} {cfg : Cfg} (hd : h.okP cfg dest) : h.okSys (Sys.init sem dest cfg) := by
  refine ⟨?_, fun m hm => by cases hm⟩
  intro j n hj
  simp only [Sys.init, RGraph.addNode, RGraph.new] at hj
  split at hj
  · cases hj
    refine ⟨rfl, hd, fun x hx => ?_, fun x hx => ?_⟩
    · rw [List.eq_of_mem_replicate hx]; exact h.silence_okI _
    · rw [List.eq_of_mem_replicate hx]; exact h.silence_okO
  · cases hj

/-- The sound of a translated history is the translated sound, and it meets the invariant of outputs. -/
theorem sys_sound (ops : List (Op P M)) (ho : ∀ op ∈ ops, h.okOp op) : ∀ (s : Sys P S M), h.okSys s →
    (h.sys s).sound sem' (ops.map h.op) = (s.sound sem ops).map (fun r => (h.sys r.1, r.2.map h.fS)) ∧
      ∀ r, s.sound sem ops = some r → ∀ x ∈ r.2, h.okO x := by
  induction ops with
  | nil => intro s _; exact ⟨rfl, fun r hr => by cases hr; simp⟩
  | cons o ops ih =>
    intro s hs
    have ih := ih fun op hop => ho op (by simp [hop])
    by_cases hq : o = .quantum
    · subst hq
      have hm := graph_render h hs.1
      simp only [List.map_cons, HomOn.op, Sys.sound]
      rw [show (h.sys s).g = h.graph s.g from rfl, hm.1]
      cases hc : s.g.render sem with
      | none => exact ⟨rfl, fun g' hg' => by cases hg'⟩
      | some r =>
        have hr := hm.2 r hc
        simp only [Option.map_some]
        have := ih { s with g := r.1 } ⟨hr.1, hs.2⟩
        rw [show ({ h.sys s with g := h.graph r.1 } : Sys P' S' M') = h.sys { s with g := r.1 } from rfl, this.1,
          Option.map_map, Option.map_map]
        refine ⟨rfl, fun r' hr' => ?_⟩
        simp only [Option.map_eq_some_iff] at hr'
        obtain ⟨r2, h2, rfl⟩ := hr'
        intro x hx
        rcases List.mem_cons.1 hx with rfl | hx
        · exact hr.2
        · exact this.2 r2 h2 x hx
    · have e1 : Sys.sound sem s (o :: ops) = match s.step sem o with
          | none => none
          | some s' => Sys.sound sem s' ops := by
        cases o <;> first | rfl | exact absurd rfl hq
      have e2 : Sys.sound sem' (h.sys s) ((o :: ops).map h.op) = match (h.sys s).step sem' (h.op o) with
          | none => none
          | some s' => Sys.sound sem' s' (ops.map h.op) := by
        cases o <;> first | rfl | exact absurd rfl hq
      have hm := sys_step h hs (ho o (by simp))
      rw [e1, e2, hm.1]
      cases hc : s.step sem o with
      | none => exact ⟨rfl, fun g' hg' => by cases hg'⟩
      | some s' => exact ih s' (hm.2 s' hc)

end HomOn

end Verif.Render
