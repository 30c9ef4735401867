import Verif.Graph.Hom

/-!
# Processors that share memory

The graph of `Verif.Graph.RenderModel` for processors that share memory with each other (`Rc<RefCell<…>>`), as the two halves of a delay node
do (`/repo/src/node/delay.rs` l.305-317): `W` is the state of all shared memory of the render thread. Between two processors the graph is
that of `RGraph.renderNode`; what a processor does depends on the memory, and it changes the memory.
-/

namespace Verif.Render

open Verif.Graph

/-- Behaviour of processors with shared memory. `base w` is their behaviour while the memory is `w`. -/
structure SemS (P S M W : Type) where
  base : W → Sem P S M
  /-- the memory after `AudioProcessor::process` -/
  memory : W → P → List S → List S → (Nat → Option S) → W
  /-- the memory after the drop of a processor -/
  dropped : W → P → W
  /-- the memory at the beginning of the next quantum (the current frame of `AudioWorkletGlobalScope` is a part of it) -/
  tick : W → W

variable {P S M W P' S' M' W' : Type}

/-- Processing of a node, `/repo/src/render/graph.rs` l.500-575; a node that is removed is dropped at once (l.562). -/
def RGraph.renderNodeS (sem : SemS P S M W) (s : RGraph P S × W) (i : Nat) : Option (RGraph P S × W) :=
  match s.1.get i with
  | none => none
  | some n =>
    let w := sem.memory s.2 n.proc n.inputs n.outputs (s.1.params i)
    (s.1.renderNode (sem.base s.2) i).map fun g =>
      (g, if (g.slot i).isSome then w else sem.dropped w (s.1.process (sem.base s.2) i n).1.proc)

/-- `Graph::render`, graph.rs l.490-591 -/
def RGraph.renderS (sem : SemS P S M W) (g : RGraph P S) (w : W) : Option ((RGraph P S × W) × S) :=
  match (if g.ordered = [] then g.order else some g) with
  | none => none
  | some g1 =>
    match RGraph.foldOpt (RGraph.renderNodeS sem) g1.ordered (g1, w) with
    | none => none
    | some (g2, w2) =>
      let g3 := { g2 with ordered := g2.ordered.filter fun i => (g2.slot i).isSome }
      match g3.get 0 with
      | none => none
      | some d => d.outputs.head?.map fun o => ((g3, sem.tick w2), o)

/-- The outputs of the destination in the quanta of a history, and the final state, as `Sys.sound`. -/
def Sys.soundS (sem : SemS P S M W) : Sys P S M × W → List (Op P M) → Option ((Sys P S M × W) × List S)
  | s, [] => some (s, [])
  | s, .quantum :: ops =>
    match s.1.g.renderS sem s.2 with
    | none => none
    | some (g, o) => (Sys.soundS sem ({ s.1 with g := g.1 }, g.2) ops).map fun r => (r.1, o :: r.2)
  | s, op :: ops =>
    match s.1.step (sem.base s.2) op with
    | none => none
    | some s' => Sys.soundS sem (s', s.2) ops

/-- Without memory this is the graph of `Verif.Graph.RenderModel`. -/
def SemS.ofSem (sem : Sem P S M) : SemS P S M Unit where
  base _ := sem
  memory _ _ _ _ _ := ()
  dropped _ _ := ()
  tick _ := ()

theorem renderS_ofSem (sem : Sem P S M) (g : RGraph P S) :
    g.renderS (SemS.ofSem sem) () = (g.render sem).map fun r => ((r.1, ()), r.2) := by
  have hn : ∀ (l : List Nat) (g : RGraph P S), RGraph.foldOpt (RGraph.renderNodeS (SemS.ofSem sem)) l (g, ()) =
      (RGraph.foldOpt (RGraph.renderNode sem) l g).map fun g => (g, ()) := by
    intro l
    induction l with
    | nil => intro g; rfl
    | cons i l ih =>
      intro g
      have : RGraph.renderNodeS (SemS.ofSem sem) (g, ()) i = (g.renderNode sem i).map fun g => (g, ()) := by
        unfold RGraph.renderNodeS
        cases hg : g.get i with
        | none => simp [RGraph.renderNode, hg]
        | some n => simp only; rfl
      simp only [RGraph.foldOpt, this]
      cases g.renderNode sem i with
      | none => rfl
      | some g' => exact ih g'
  unfold RGraph.renderS RGraph.render
  cases (if g.ordered = [] then g.order else some g) with
  | none => rfl
  | some g1 =>
    simp only [hn]
    cases RGraph.foldOpt (RGraph.renderNode sem) g1.ordered g1 with
    | none => rfl
    | some g2 =>
      simp only [Option.map_some]
      cases RGraph.get { g2 with ordered := g2.ordered.filter fun i => (g2.slot i).isSome } 0 with
      | none => rfl
      | some d =>
        simp only [Option.map_map]
        rfl

/-- the sound of a history without shared memory -/
theorem soundS_ofSem (sem : Sem P S M) (ops : List (Op P M)) : ∀ s : Sys P S M,
    Sys.soundS (SemS.ofSem sem) (s, ()) ops = (Sys.sound sem s ops).map fun r => ((r.1, ()), r.2) := by
  induction ops with
  | nil => intro s; rfl
  | cons o ops ih =>
    intro s
    by_cases hq : o = .quantum
    · subst hq
      simp only [Sys.soundS, Sys.sound, renderS_ofSem]
      cases s.g.render sem with
      | none => rfl
      | some r =>
        simp only [Option.map_some, ih, Option.map_map]
        rfl
    · have e1 : Sys.sound sem s (o :: ops) = match s.step sem o with
          | none => none
          | some s' => Sys.sound sem s' ops := by
        cases o <;> first | rfl | exact absurd rfl hq
      have e2 : Sys.soundS (SemS.ofSem sem) (s, ()) (o :: ops) = match s.step sem o with
          | none => none
          | some s' => Sys.soundS (SemS.ofSem sem) (s', ()) ops := by
        cases o <;> first | rfl | exact absurd rfl hq
      rw [e1, e2]
      cases s.step sem o with
      | none => rfl
      | some s' => exact ih s'

/-- A translation of processors, signals, messages and memory. -/
structure HomS (sem : SemS P S M W) (sem' : SemS P' S' M' W') where
  fP : P → P'
  fS : S → S'
  fM : M → M'
  fW : W → W'
  process : ∀ w p ins outs (ps : Nat → Option S),
    (sem'.base (fW w)).process (fP p) (ins.map fS) (outs.map fS) (fun j => (ps j).map fS) =
      ((sem.base w).process p ins outs ps).map fun r => (fP r.1, r.2.1.map fS, r.2.2)
  onmessage : ∀ w p m, (sem'.base (fW w)).onmessage (fP p) (fM m) = ((sem.base w).onmessage p m).map fP
  side : ∀ w p, (sem'.base (fW w)).sideEffects (fP p) = (sem.base w).sideEffects p
  silence : ∀ w, (sem'.base (fW w)).silence = fS (sem.base w).silence
  add : ∀ w c a b, (sem'.base (fW w)).add c (fS a) (fS b) = fS ((sem.base w).add c a b)
  memory : ∀ w p ins outs (ps : Nat → Option S),
    sem'.memory (fW w) (fP p) (ins.map fS) (outs.map fS) (fun j => (ps j).map fS) = fW (sem.memory w p ins outs ps)
  dropped : ∀ w p, sem'.dropped (fW w) (fP p) = fW (sem.dropped w p)
  tick : ∀ w, sem'.tick (fW w) = fW (sem.tick w)

namespace HomS

variable {sem : SemS P S M W} {sem' : SemS P' S' M' W'} (h : HomS sem sem')

/-- the translation while the memory is `w`; what it does to graphs does not depend on `w` -/
def hom (w : W) : Hom (sem.base w) (sem'.base (h.fW w)) where
  fP := h.fP
  fS := h.fS
  fM := h.fM
  process := h.process w
  onmessage := h.onmessage w
  side := h.side w
  silence := h.silence w
  add := h.add w

theorem graph_const (w v : W) (g : RGraph P S) : (h.hom w).graph g = (h.hom v).graph g := rfl

theorem renderNode_map (v : W) (s : RGraph P S × W) (i : Nat) :
    RGraph.renderNodeS sem' ((h.hom v).graph s.1, h.fW s.2) i =
      (RGraph.renderNodeS sem s i).map fun s => ((h.hom v).graph s.1, h.fW s.2) := by
  obtain ⟨g, w⟩ := s
  unfold RGraph.renderNodeS
  simp only
  rw [Hom.graph_get]
  cases g.get i with
  | none => rfl
  | some n =>
    simp only [Option.map_some]
    have hm := h.memory w n.proc n.inputs n.outputs (g.params i)
    rw [show ((h.hom v).graph g).params i = fun j => (g.params i j).map h.fS from funext (Hom.graph_params (h.hom v) g i),
      show ((h.hom v).node n).proc = h.fP n.proc from rfl, show ((h.hom v).node n).inputs = n.inputs.map h.fS from rfl,
      show ((h.hom v).node n).outputs = n.outputs.map h.fS from rfl, hm]
    rw [show ((h.hom v).graph g).renderNode (sem'.base (h.fW w)) i = ((g.renderNode (sem.base w) i).map (h.hom v).graph) from
      Hom.graph_renderNode (h.hom w) g i,
      show ((h.hom v).graph g).process (sem'.base (h.fW w)) i ((h.hom v).node n) =
        ((h.hom v).node (g.process (sem.base w) i n).1, (g.process (sem.base w) i n).2) from Hom.node_process (h.hom w) g i n]
    rw [Option.map_map, Option.map_map]
    congr 1
    funext g'
    simp only [Function.comp_apply, Prod.mk.injEq, true_and]
    have hs : (((h.hom v).graph g').slot i).isSome = (g'.slot i).isSome := by
      show ((g'.slot i).map (h.hom v).node).isSome = _
      cases g'.slot i <;> rfl
    rw [hs]
    split
    · rfl
    · exact h.dropped _ _

theorem render_map (v : W) (g : RGraph P S) (w : W) :
    ((h.hom v).graph g).renderS sem' (h.fW w) =
      (g.renderS sem w).map fun r => (((h.hom v).graph r.1.1, h.fW r.1.2), h.fS r.2) := by
  unfold RGraph.renderS
  have h0 : (if ((h.hom v).graph g).ordered = [] then ((h.hom v).graph g).order else some ((h.hom v).graph g)) =
      (if g.ordered = [] then g.order else some g).map (h.hom v).graph := by
    rw [show ((h.hom v).graph g).ordered = g.ordered from rfl]
    split
    · exact Hom.graph_order (h.hom v) g
    · rfl
  rw [h0]
  cases (if g.ordered = [] then g.order else some g) with
  | none => rfl
  | some g1 =>
    simp only [Option.map_some]
    rw [show ((h.hom v).graph g1).ordered = g1.ordered from rfl,
      Hom.foldOpt_map (fun s : RGraph P S × W => ((h.hom v).graph s.1, h.fW s.2)) (RGraph.renderNodeS sem) (RGraph.renderNodeS sem')
        (fun b a => renderNode_map h v b a) g1.ordered (g1, w)]
    cases RGraph.foldOpt (RGraph.renderNodeS sem) g1.ordered (g1, w) with
    | none => rfl
    | some r =>
      obtain ⟨g2, w2⟩ := r
      simp only [Option.map_some]
      have h3 : ({ (h.hom v).graph g2 with ordered := ((h.hom v).graph g2).ordered.filter fun i => (((h.hom v).graph g2).slot i).isSome } :
            RGraph P' S') =
          (h.hom v).graph { g2 with ordered := g2.ordered.filter fun i => (g2.slot i).isSome } := by
        simp [Hom.graph]
      rw [h3, Hom.graph_get]
      cases RGraph.get { g2 with ordered := g2.ordered.filter fun i => (g2.slot i).isSome } 0 with
      | none => rfl
      | some d =>
        simp only [Option.map_some, Hom.node, List.head?_map, Option.map_map, h.tick]
        rfl

/-- The sound of a translated history is the translated sound. -/
theorem sound_map (v : W) (ops : List (Op P M)) : ∀ (s : Sys P S M) (w : W),
    Sys.soundS sem' ((h.hom v).sys s, h.fW w) (ops.map (h.hom v).op) =
      (Sys.soundS sem (s, w) ops).map fun r => (((h.hom v).sys r.1.1, h.fW r.1.2), r.2.map h.fS) := by
  induction ops with
  | nil => intro s w; rfl
  | cons o ops ih =>
    intro s w
    by_cases hq : o = .quantum
    · subst hq
      simp only [List.map_cons, Hom.op, Sys.soundS]
      rw [show ((h.hom v).sys s).g = (h.hom v).graph s.g from rfl, render_map]
      cases s.g.renderS sem w with
      | none => rfl
      | some r =>
        simp only [Option.map_some]
        have := ih { s with g := r.1.1 } r.1.2
        rw [show ({ (h.hom v).sys s with g := (h.hom v).graph r.1.1 } : Sys P' S' M') = (h.hom v).sys { s with g := r.1.1 } from rfl,
          this, Option.map_map, Option.map_map]
        rfl
    · have e1 : Sys.soundS sem (s, w) (o :: ops) = match s.step (sem.base w) o with
          | none => none
          | some s' => Sys.soundS sem (s', w) ops := by
        cases o <;> first | rfl | exact absurd rfl hq
      have e2 : Sys.soundS sem' ((h.hom v).sys s, h.fW w) ((o :: ops).map (h.hom v).op) =
          match ((h.hom v).sys s).step (sem'.base (h.fW w)) ((h.hom v).op o) with
          | none => none
          | some s' => Sys.soundS sem' (s', h.fW w) (ops.map (h.hom v).op) := by
        cases o <;> first | rfl | exact absurd rfl hq
      rw [e1, e2, show ((h.hom v).sys s).step (sem'.base (h.fW w)) ((h.hom v).op o) = (s.step (sem.base w) o).map (h.hom v).sys from
        Hom.sys_step (h.hom w) s o]
      cases s.step (sem.base w) o with
      | none => rfl
      | some s' => exact ih s' w

end HomS

end Verif.Render
