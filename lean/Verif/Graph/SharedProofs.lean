import Verif.Graph.Shared
import Verif.Graph.QuantumProps

/-!
# The loop over the nodes, for processors that share memory

As in `Verif.Graph.RenderProofs`: the loop does not panic; a node finds at its inputs what the nodes before it have sent in the same quantum;
a part of the memory that belongs to some processors is changed only by them.
-/

namespace Verif.Render

open Verif.Graph

variable {P S M W X : Type}

namespace RGraph

/-- the memory after the processing of a node -/
def after (sem : SemS P S M W) (s : RGraph P S × W) (i : Nat) (n : Node P S) : W :=
  if s.1.freed (sem.base s.2) i n then
    sem.dropped (sem.memory s.2 n.proc n.inputs n.outputs (s.1.params i)) (s.1.process (sem.base s.2) i n).1.proc
  else sem.memory s.2 n.proc n.inputs n.outputs (s.1.params i)

theorem loop_stepS (sem : SemS P S M W) {L : List Nat} (hL : L.Nodup) {i : Nat} {post : List Nat} {s : RGraph P S × W}
    (hi : i ∈ L) (hnd : (i :: post).Nodup) (h : LoopInv L (i :: post) s.1) :
    ∃ n g', s.1.slot i = some n ∧ renderNodeS sem s i = some (g', after sem s i n) ∧
      NodeStep (sem.base s.2) s.1 i n g' ∧ LoopInv L post g' := by
  obtain ⟨n, g', hn, _, hr, hs, h1⟩ := loop_step (sem.base s.2) hL hi hnd h
  refine ⟨n, g', hn, ?_, hs, h1⟩
  have hiso : (g'.slot i).isSome = !s.1.freed (sem.base s.2) i n := by
    rw [hs.self]
    cases s.1.freed (sem.base s.2) i n <;> rfl
  unfold renderNodeS after
  rw [get_eq_slot h.toWFe, hn]
  simp only [hr, Option.map_some, hiso]
  cases s.1.freed (sem.base s.2) i n <;> rfl

theorem loop_specS (sem : SemS P S M W) {L : List Nat} (hL : L.Nodup) (todo post : List Nat) (s : RGraph P S × W)
    (hsub : ∀ i ∈ todo, i ∈ L) (hnd : (todo ++ post).Nodup) (h : LoopInv L (todo ++ post) s.1) :
    ∃ s', foldOpt (renderNodeS sem) todo s = some s' ∧ LoopInv L post s'.1 := by
  induction todo generalizing s with
  | nil => exact ⟨s, rfl, h⟩
  | cons i todo ih =>
    obtain ⟨n, g1, hn, hr, hs, h1⟩ := loop_stepS sem hL (hsub i (by simp)) hnd h
    obtain ⟨s2, h2, h3⟩ := ih (g1, after sem s i n) (fun j hj => hsub j (by simp [hj])) (List.nodup_cons.1 hnd).2 h1
    exact ⟨s2, by simp [foldOpt, hr, h2], h3⟩

/-- What the nodes of `todo` send in this quantum: id, produced outputs, connections at that time. -/
def traceS (sem : SemS P S M W) : List Nat → RGraph P S × W → List (Nat × List S × List Edge)
  | [], _ => []
  | i :: is, s =>
    match s.1.slot i, renderNodeS sem s i with
    | some n, some s' =>
      (i, (s.1.process (sem.base s.2) i n).1.outputs, (s.1.process (sem.base s.2) i n).1.edges) :: traceS sem is s'
    | _, _ => []

/-- A part of the memory, which belongs to the processors `uses`. -/
structure Part (sem : SemS P S M W) (uses : P → Prop) (part : W → X) : Prop where
  memory : ∀ w p ins outs ps, ¬ uses p → part (sem.memory w p ins outs ps) = part w
  dropped : ∀ w p, ¬ uses p → part (sem.dropped w p) = part w
  keeps : ∀ w p ins outs ps p' o t, (sem.base w).process p ins outs ps = some (p', o, t) → (uses p' ↔ uses p)

theorem Part.process {sem : SemS P S M W} {uses : P → Prop} {part : W → X} (h : Part sem uses part) (s : RGraph P S × W) (i : Nat)
    (n : Node P S) : uses (s.1.process (sem.base s.2) i n).1.proc ↔ uses n.proc := by
  rcases process_cases (sem.base s.2) s.1 i n with ⟨p, o, t, h1, _, h2⟩ | ⟨_, h2⟩
  · rw [h2]; exact h.keeps _ _ _ _ _ _ _ _ h1
  · rw [h2]

theorem Part.after {sem : SemS P S M W} {uses : P → Prop} {part : W → X} (h : Part sem uses part) (s : RGraph P S × W) (i : Nat)
    (n : Node P S) (hn : ¬ uses n.proc) : part (RGraph.after sem s i n) = part s.2 := by
  unfold RGraph.after
  split
  · rw [h.dropped _ _ (by rw [h.process]; exact hn), h.memory _ _ _ _ _ hn]
  · exact h.memory _ _ _ _ _ hn

/-- A node that is not in `todo`, after the loop over `todo`. -/
theorem loop_inputsS (sem : SemS P S M W) {L : List Nat} (hL : L.Nodup) (todo post : List Nat) (s s' : RGraph P S × W)
    (hsub : ∀ i ∈ todo, i ∈ L) (hnd : (todo ++ post).Nodup) (h : LoopInv L (todo ++ post) s.1)
    (hf : foldOpt (renderNodeS sem) todo s = some s') (k : Nat) (hk : k ∉ todo) (n : Node P S)
    (hn : s.1.slot k = some n) (hadd : ∀ w v, (sem.base w).add = (sem.base v).add) (w0 : W) :
    ∃ n', s'.1.slot k = some n' ∧ n'.proc = n.proc ∧ n'.outputs = n.outputs ∧ n'.dropped = n.dropped ∧
      n'.inputs.length = n.inputs.length ∧
      ∀ p, n'.inputs[p]? = (n.inputs[p]?).map fun x => (arrived (traceS sem todo s) k p).foldl ((sem.base w0).add n.cfg) x := by
  induction todo generalizing s n with
  | nil =>
    simp only [foldOpt, Option.some.injEq] at hf; subst hf
    exact ⟨n, hn, rfl, rfl, rfl, rfl, by simp [traceS, arrived]⟩
  | cons j todo ih =>
    obtain ⟨nj, g1, hnj, hr, hs, h1⟩ := loop_stepS sem hL (hsub j (by simp)) hnd h
    simp only [foldOpt, hr] at hf
    simp only [List.mem_cons, not_or] at hk
    obtain ⟨m, a, b1, b2, b3, b4, b5, b6, b7, b8, b9, b10⟩ := hs.some k n hk.1 hn
    obtain ⟨n', c1, c2, c3, c4, c5, c6⟩ := ih (g1, RGraph.after sem s j nj) (fun i hi => hsub i (by simp [hi]))
      (List.nodup_cons.1 hnd).2 h1 hf hk.2 m a
    refine ⟨n', c1, c2.trans b2, c3.trans b3, c4.trans b5, c5.trans b7, ?_⟩
    intro p
    rw [c6, b10, b4, Option.map_map]
    simp only [traceS, hnj, hr, arrived, List.flatMap_cons, List.foldl_append, hadd s.2 w0]
    rfl

/-- A part of the memory, after a loop over nodes that do not use it. -/
theorem loop_quiet {sem : SemS P S M W} {uses : P → Prop} {part : W → X} (hp : Part sem uses part) {L : List Nat} (hL : L.Nodup)
    (todo post : List Nat) (s s' : RGraph P S × W) (hsub : ∀ i ∈ todo, i ∈ L) (hnd : (todo ++ post).Nodup)
    (h : LoopInv L (todo ++ post) s.1) (hf : foldOpt (renderNodeS sem) todo s = some s')
    (hq : ∀ i ∈ todo, ∀ n, s.1.slot i = some n → ¬ uses n.proc) : part s'.2 = part s.2 := by
  induction todo generalizing s with
  | nil => simp only [foldOpt, Option.some.injEq] at hf; subst hf; rfl
  | cons j todo ih =>
    obtain ⟨nj, g1, hnj, hr, hs, h1⟩ := loop_stepS sem hL (hsub j (by simp)) hnd h
    simp only [foldOpt, hr] at hf
    have hnd' := List.nodup_cons.1 hnd
    rw [ih (g1, RGraph.after sem s j nj) (fun i hi => hsub i (by simp [hi])) hnd'.2 h1 hf, hp.after s j nj (hq j (by simp) nj hnj)]
    intro i hi n' hn'
    have hij : i ≠ j := by rintro rfl; exact hnd'.1 (by simp [hi])
    obtain ⟨m, hm⟩ := h.mem i (by simp [hi])
    obtain ⟨m', a, _, b2, _⟩ := hs.some i m hij hm
    rw [hn'] at a; cases a
    rw [b2]
    exact hq i (by simp [hi]) m hm

/-- The processors of other nodes, after the loop over `todo`: still not users of the memory. -/
theorem loop_others {sem : SemS P S M W} {uses : P → Prop} {part : W → X} (hp : Part sem uses part) {L : List Nat} (hL : L.Nodup)
    (todo post : List Nat) (s s' : RGraph P S × W) (hsub : ∀ i ∈ todo, i ∈ L) (hnd : (todo ++ post).Nodup)
    (h : LoopInv L (todo ++ post) s.1) (hf : foldOpt (renderNodeS sem) todo s = some s') (k : Nat)
    (hq : ∀ n, s.1.slot k = some n → ¬ uses n.proc) : ∀ n, s'.1.slot k = some n → ¬ uses n.proc := by
  induction todo generalizing s with
  | nil => simp only [foldOpt, Option.some.injEq] at hf; subst hf; exact hq
  | cons j todo ih =>
    obtain ⟨nj, g1, hnj, hr, hs, h1⟩ := loop_stepS sem hL (hsub j (by simp)) hnd h
    simp only [foldOpt, hr] at hf
    refine ih (g1, RGraph.after sem s j nj) (fun i hi => hsub i (by simp [hi])) (List.nodup_cons.1 hnd).2 h1 hf ?_
    intro n' hn'
    dsimp only at hn'
    by_cases hkj : k = j
    · subst hkj
      rw [hs.self] at hn'
      split at hn'
      · cases hn'
      · cases hn'
        show ¬ uses (s.1.process (sem.base s.2) k nj).1.proc
        rw [hp.process]
        exact hq nj hnj
    · cases hk : s.1.slot k with
      | none => rw [hs.none k hkj hk] at hn'; cases hn'
      | some m =>
        obtain ⟨m', a, _, b2, _⟩ := hs.some k m hkj hk
        rw [hn'] at a; cases a
        rw [b2]
        exact hq m hk

theorem renderS_eq (sem : SemS P S M W) {g : RGraph P S} (wf : WF g) (w : W) :
    ∃ g1 s2, g.orderedGraph = some g1 ∧ WF g1 ∧ foldOpt (renderNodeS sem) g1.ordered (g1, w) = some s2 ∧ LoopInv g1.ordered [] s2.1 ∧
      g.renderS sem w = (s2.1.slot 0).bind fun d => d.outputs.head?.map fun o =>
        (({ s2.1 with ordered := s2.1.ordered.filter fun i => (s2.1.slot i).isSome }, sem.tick s2.2), o) := by
  obtain ⟨g1, h1, w1, _⟩ := orderedGraph_spec wf
  obtain ⟨s2, h2, h3⟩ := loop_specS sem w1.nodup g1.ordered [] (g1, w) (fun i h => h)
    (by simpa using w1.nodup) (by simpa using wf_loopInv w1)
  have hw := prune_wf w1.nodup h3
  refine ⟨g1, s2, h1, w1, h2, h3, ?_⟩
  unfold renderS
  rw [show (if g.ordered = [] then g.order else some g) = some g1 from h1]
  simp only [h2]
  rw [get_eq_slot' (fun i n hn => hw.bound i n hn)]
  cases s2.1.slot 0 <;> rfl

end RGraph

end Verif.Render
