import Verif.Graph.Isolated

/-!
# Nodes whose handles have been dropped are released (C104)

`Graph::render` (`/repo/src/render/graph.rs` l.490-591) takes a node out of the graph when `Node::can_free`
(l.87-115) says so. C06 says that this never happens too early; here it is shown that it happens: a part of the
graph whose handles have been dropped is gone after finitely many quanta, whatever the rest of the application does.
-/

namespace Verif.Render

open Verif.Graph Relation

variable {P S M : Type}

/-! ## Specification -/

/-- `q` is a state that processor `p` can be in later -/
inductive Becomes (sem : Sem P S M) (p : P) : P → Prop
  | refl : Becomes sem p p
  | step {q q' : P} {ins outs : List S} {ps : Nat → Option S} {outs' : List S} {t : Bool} : Becomes sem p q →
      sem.process q ins outs ps = some (q', outs', t) → Becomes sem p q'

/-- The processor reports the end of its tail (`tail_time` false, `/repo/src/render/processor.rs` l.124-139) within
`n` calls if its inputs are silent from now on, whatever the parameters are. -/
def Fades (sem : Sem P S M) : Nat → P → Prop
  | 0, _ => False
  | n + 1, p => ∀ (ins outs : List S) (ps : Nat → Option S), (∀ s ∈ ins, s = sem.silence) →
      ∀ p' outs' t, sem.process p ins outs ps = some (p', outs', t) → t = false ∨ Fades sem n p'

/-- whatever happens to it first, the tail of the processor is finite -/
def Fading (sem : Sem P S M) (p : P) : Prop := ∀ q, Becomes sem p q → ∃ n, Fades sem n q

/-- The message leaves alone the nodes with tags in `old`. (The tag is the number of the handle, which the application
no longer has.) -/
def Msg.spares (old : Nat → Bool) (g : RGraph P S) : Msg P M → Prop
  | .register id tag _ _ _ _ => (∀ n, g.slot id = some n → old n.tag = false) ∧ old tag = false
  | .connect src _ e _ => (∀ n, g.slot src = some n → old n.tag = false) ∧
      ∀ n, g.slot e.dst = some n → old n.tag = false
  | .disconnect src _ _ => ∀ n, g.slot src = some n → old n.tag = false
  | .dropped id _ => ∀ n, g.slot id = some n → old n.tag = false
  | .breaker id _ => ∀ n, g.slot id = some n → old n.tag = false
  | .post id _ _ => ∀ n, g.slot id = some n → old n.tag = false
  | .setCfg id _ _ => ∀ n, g.slot id = some n → old n.tag = false

/-- no sound flows from the rest of the graph into the nodes in `old` -/
def Apart (old : Nat → Bool) (g : RGraph P S) : Prop :=
  ∀ j m, g.slot j = some m → old m.tag = false → ∀ e ∈ m.edges, ∀ t, g.slot e.dst = some t → old t.tag = true →
    e.port = none

/-! ## One quantum -/

namespace RGraph

/-- connections in the trace were there at the start -/
theorem trace_edges (sem : Sem P S M) {L : List Nat} (hL : L.Nodup) (todo post : List Nat) (g : RGraph P S)
    (hsub : ∀ i ∈ todo, i ∈ L) (hnd : (todo ++ post).Nodup) (h : LoopInv L (todo ++ post) g) :
    ∀ x ∈ trace sem todo g, ∃ m, g.slot x.1 = some m ∧ ∀ e ∈ x.2.2, e ∈ m.edges := by
  induction todo generalizing g with
  | nil => simp [trace]
  | cons j todo ih =>
    obtain ⟨nj, g1, hnj, hself, hr, hs, h1⟩ := loop_step sem hL (hsub j (by simp)) hnd h
    intro x hx
    simp only [trace, hnj, hr, List.mem_cons] at hx
    rcases hx with rfl | hx
    · refine ⟨nj, hnj, fun e he => ?_⟩
      rcases process_edges sem (g := g) j nj with hh | hh
      · simp only [hh] at he; exact he
      · simp only [hh] at he; simp at he
    · obtain ⟨m1, hm1, he1⟩ := ih g1 (fun i hi => hsub i (by simp [hi])) (List.nodup_cons.1 hnd).2 h1 x hx
      obtain ⟨m, hm, _, _, _, _, _, _, hsubE, _⟩ := hs.back sem hnj hm1
      exact ⟨m, hm, fun e he => hsubE e (he1 e he)⟩

/-- nodes keep the number of their inputs -/
theorem loop_len (sem : Sem P S M) {L : List Nat} (hL : L.Nodup) (todo : List Nat) (g g' : RGraph P S)
    (hsub : ∀ i ∈ todo, i ∈ L) (hnd : todo.Nodup) (h : LoopInv L todo g)
    (hf : foldOpt (renderNode sem) todo g = some g') {i : Nat} {n n' : Node P S} (hn : g.slot i = some n)
    (hn' : g'.slot i = some n') : n'.inputs.length = n.inputs.length := by
  induction todo generalizing g n with
  | nil =>
    simp only [foldOpt, Option.some.injEq] at hf
    subst hf
    rw [hn] at hn'; cases hn'; rfl
  | cons j todo ih =>
    obtain ⟨nj, g1, hnj, hself, hr, hs, h1⟩ := loop_step sem hL (hsub j (by simp)) hnd h
    simp only [foldOpt, hr] at hf
    obtain ⟨f1, _⟩ := loop_fate sem hL todo g1 g' (fun i hi => hsub i (by simp [hi])) (List.nodup_cons.1 hnd).2 h1 hf
    cases hs1 : g1.slot i with
    | none => rw [f1 i hs1] at hn'; simp at hn'
    | some m =>
      obtain ⟨m0, hm0, _, _, _, _, hlen, _⟩ := hs.back sem hnj hs1
      rw [hn] at hm0; cases hm0
      exact (ih g1 (fun i hi => hsub i (by simp [hi])) (List.nodup_cons.1 hnd).2 h1 hf hs1).trans hlen

end RGraph

/-- nothing arrives at node `i` -/
def Quiet (sem : Sem P S M) (g : RGraph P S) (i : Nat) (n : Node P S) : Prop :=
  n.hasInputs = false ∧ (∀ s ∈ n.inputs, s = sem.silence) ∧
    ∀ j m, g.slot j = some m → ∀ e ∈ m.edges, e.dst = i → e.port = none

/-- what is left of a node after a quantum -/
structure Survives (sem : Sem P S M) (g : RGraph P S) (i : Nat) (n n' : Node P S) : Prop where
  tag : n'.tag = n.tag
  dropped : n'.dropped = n.dropped
  edges : ∀ e ∈ n'.edges, e ∈ n.edges
  hasInputs : n'.hasInputs = false
  inputs : ∀ s ∈ n'.inputs, s = sem.silence
  run : ∃ ins outs ps outs' t, sem.process n.proc ins outs ps = some (n'.proc, outs', t) ∧
    (n.dropped = true → Quiet sem g i n → (∀ s ∈ ins, s = sem.silence) ∧ t = true ∧ n.edges ≠ [])

theorem quantum_step (sem : Sem P S M) {g g' : RGraph P S} (w : WF g) (hc : Complete g) (hac : Acyclic g) {o : S}
    (hr : g.render sem = some (g', o)) :
    WF g' ∧ (∀ i, g.slot i = none → g'.slot i = none) ∧
      (∀ i n, g.slot i = some n → (g'.slot i = none ∧ i ∈ g'.reclaimed) ∨
        ∃ n', g'.slot i = some n' ∧ Survives sem g i n n') ∧
      ∃ l, g'.reclaimed = g.reclaimed ++ l := by
  obtain ⟨g1', g2', c1, c2, c3, c4, c5⟩ := C05_every_node_processed_partial sem w hc hac
  obtain ⟨hne, hcomp⟩ := c5 g' o hr
  have hreset := C53_inputs_reset_partial sem w hr
  obtain ⟨g1, g2, h1, w1, h2, h3, h4, h5⟩ := RGraph.render_spec sem w
  have e1 : g1' = g1 := by
    have : g.orderedGraph = some g1' := c1
    rw [h1] at this; cases this; rfl
  subst e1
  have hs1 := (ordered_slot w hac h1).2
  obtain ⟨g1'', d1, _, _, d2, _⟩ := RGraph.orderedGraph_spec w
  rw [h1] at d1; cases d1
  have hinv := RGraph.wf_loopInv w1
  obtain ⟨r1, r2, r3⟩ := RGraph.loop_reclaimed sem w1.nodup g1'.ordered g1' g2 (fun _ h => h) w1.nodup hinv h2
  obtain ⟨f1, f2, f3⟩ := RGraph.loop_fate sem w1.nodup g1'.ordered g1' g2 (fun _ h => h) w1.nodup hinv h2
  rw [h5] at hr
  cases hd : g2.slot 0 with
  | none => rw [hd] at hr; simp at hr
  | some d =>
    rw [hd] at hr
    simp only [Option.bind_some, Option.map_eq_some_iff, Prod.mk.injEq] at hr
    obtain ⟨o', _, rfl, _⟩ := hr
    refine ⟨h4, fun i hi => f1 i (by rw [hs1]; exact hi), ?_, ⟨_, by rw [← d2]; exact r1⟩⟩
    intro i n hn
    have hn1 : g1'.slot i = some n := by rw [hs1]; exact hn
    have hi : i ∈ g1'.ordered := (c3 i).2 (by simp [hn])
    have hrec : g2.slot i = none → i ∈ g2.reclaimed := fun h => by
      rw [r1]
      exact List.mem_append_right _ (List.mem_filter.2 ⟨hi, by simp [h]⟩)
    obtain ⟨ga, na, k0, k1, k2, k3, k4, k5, k6, k7, k8, k9, k10, k11⟩ := f3 i n hi hn1
    by_cases hf : ga.freed sem i na = true
    · rw [if_pos hf] at k11
      exact .inl ⟨k11, hrec k11⟩
    · rw [if_neg hf] at k11
      obtain ⟨n', l1, l2, l3, l4, l5, l6, l7, l8⟩ := k11
      refine .inr ⟨n', l1, ?_⟩
      have hi' : i ∈ g2.ordered.filter fun i => (g2.slot i).isSome :=
        List.mem_filter.2 ⟨by rw [r3]; exact hi, by simp [l1]⟩
      obtain ⟨n'', m1, m2, m3⟩ := hreset i hi'
      have : n'' = n' := by
        have h := m1.symm.trans (show _ = some n' from l1)
        exact Option.some.inj h
      subst this
      -- the node at its turn
      have hsplit := split_at hi
      have hipre : i ∉ g1'.ordered.takeWhile (· ≠ i) := by
        intro h; have := List.mem_takeWhile_imp h; simp at this
      have hpre : ∀ j ∈ g1'.ordered.takeWhile (· ≠ i), j ∈ g1'.ordered :=
        fun j hj => List.takeWhile_subset _ hj
      have hndp : (g1'.ordered.takeWhile (· ≠ i) ++ i :: (g1'.ordered.dropWhile (· ≠ i)).tail).Nodup :=
        hsplit ▸ w1.nodup
      have hinv2 : RGraph.LoopInv g1'.ordered
          (g1'.ordered.takeWhile (· ≠ i) ++ i :: (g1'.ordered.dropWhile (· ≠ i)).tail) g1' :=
        hsplit ▸ RGraph.wf_loopInv w1
      obtain ⟨na', p1, p2, p3⟩ := RGraph.loop_inputs sem w1.nodup _ _ g1' ga hpre hndp hinv2 k1 i hipre n hn1
      rw [k2] at p1; cases p1
      have htr := RGraph.trace_edges sem w1.nodup _ _ g1' hpre hndp hinv2
      rcases RGraph.process_cases sem ga i na with ⟨p, outs, tail, q1, q2, q3⟩ | ⟨q1, q2⟩
      · refine ⟨l2, l6, l8, m2, m3, na.inputs, na.outputs, ga.params i, outs, tail, ?_, ?_⟩
        · rw [l3, q3, ← k4]; exact q1
        · rintro hdrop ⟨u1, u2, u3⟩
          have hno : ∀ x ∈ RGraph.trace sem (g1'.ordered.takeWhile (· ≠ i)) g1', ∀ e ∈ x.2.2, e.dst = i →
              e.port = none := by
            intro x hx e he hdst
            obtain ⟨m, hm, hme⟩ := htr x hx
            exact u3 x.1 m (by rw [← hs1]; exact hm) e (hme e he) hdst
          have hin : na.hasInputs = false := by
            cases hh : na.hasInputs with
            | false => rfl
            | true =>
              rcases p3.1 hh with h8 | ⟨x, hx, e, he, hdst, hport⟩
              · rw [u1] at h8; simp at h8
              · exact absurd (hno x hx e he hdst) hport
          have hsil : ∀ s ∈ na.inputs, s = sem.silence := by
            intro s hs
            obtain ⟨q, hq, hqe⟩ := List.getElem_of_mem hs
            have hp := p2 q
            have harr : RGraph.arrived (RGraph.trace sem (g1'.ordered.takeWhile (· ≠ i)) g1') i q = [] := by
              rw [RGraph.arrived, List.flatMap_eq_nil_iff]
              intro x hx
              rw [RGraph.contrib, List.filterMap_eq_nil_iff]
              intro e he
              rw [if_neg]
              rintro ⟨a, b⟩
              rw [hno x hx e he a] at b
              simp at b
            rw [harr, List.getElem?_eq_getElem hq, hqe] at hp
            cases hq2 : n.inputs[q]? with
            | none => rw [hq2] at hp; simp at hp
            | some v =>
              rw [hq2] at hp
              simp only [Option.map_some, List.foldl_nil, Option.some.injEq] at hp
              rw [hp]
              exact u2 v (List.mem_of_getElem? hq2)
          have hfree : ¬ ((ga.process sem i na).1.canFree sem tail = true) := by
            intro hcf
            apply hf
            unfold RGraph.freed
            rw [q3] at hcf ⊢
            simp [hcf]
          rw [q3] at hfree
          have hnd : na.dropped = true := k7.trans hdrop
          simp only [Node.canFree, hnd, hin, Bool.not_true, Bool.false_eq_true, if_false, Bool.not_false,
            Bool.true_and] at hfree
          have h9 : tail = true ∧ na.edges ≠ [] := by
            by_contra hcon
            apply hfree
            rw [if_pos]
            cases tail with
            | false => rfl
            | true =>
              have : na.edges = [] := by
                by_contra hh; exact hcon ⟨rfl, hh⟩
              simp [this]
          refine ⟨hsil, h9.1, fun hemp => h9.2 ?_⟩
          apply List.eq_nil_iff_forall_not_mem.2
          intro e he
          have := k10 e he
          rw [hemp] at this
          simp at this
      · exact absurd (by unfold RGraph.freed; rw [q2]; rfl) hf

/-! ## Messages -/

/-- the nodes in `old` are the same in both graphs -/
def SameOld (old : Nat → Bool) (g h : RGraph P S) : Prop :=
  ∀ i n, old n.tag = true → (h.slot i = some n ↔ g.slot i = some n)

theorem SameOld.refl (old : Nat → Bool) (g : RGraph P S) : SameOld old g g := fun _ _ _ => Iff.rfl

theorem SameOld.trans {old : Nat → Bool} {a b c : RGraph P S} (h : SameOld old a b) (k : SameOld old b c) :
    SameOld old a c := fun i n hn => (k i n hn).trans (h i n hn)

theorem SameOld.spares {old : Nat → Bool} {g h : RGraph P S} (a : SameOld old g h) {m : Msg P M}
    (hm : m.spares old g) : m.spares old h := by
  have key : ∀ i, (∀ n, g.slot i = some n → old n.tag = false) → ∀ n, h.slot i = some n → old n.tag = false := by
    intro i hi n hn
    cases ho : old n.tag with
    | false => rfl
    | true => rw [← ho]; exact hi n ((a i n ho).1 hn)
  cases m with
  | register id tag proc nin nout cfg => exact ⟨key id hm.1, hm.2⟩
  | connect src t e t' => exact ⟨key src hm.1, key e.dst hm.2⟩
  | disconnect src t e => exact key src hm
  | dropped id t => exact key id hm
  | breaker id t => exact key id hm
  | post id t m => exact key id hm
  | setCfg id t c => exact key id hm

/-- overwriting a node that is not in `old` -/
theorem put_same {old : Nat → Bool} {g : RGraph P S} {i : Nat} {n n' : Node P S} (hs : g.slot i = some n)
    (ho : old n.tag = false) (ht : n'.tag = n.tag) : SameOld old g (g.put i (some n')) := by
  intro j m hm
  simp only [RGraph.put]
  by_cases hj : j = i
  · subst hj
    rw [if_pos rfl, hs]
    constructor
    · intro h; cases h; rw [ht, ho] at hm; simp at hm
    · intro h; cases h; rw [ho] at hm; simp at hm
  · rw [if_neg hj]

theorem put_apart {old : Nat → Bool} {g : RGraph P S} {i : Nat} {n n' : Node P S} (hs : g.slot i = some n)
    (ho : old n.tag = false) (ht : n'.tag = n.tag) (ha : Apart old g)
    (he : ∀ e ∈ n'.edges, e ∈ n.edges ∨ ∀ t, g.slot e.dst = some t → old t.tag = false) :
    Apart old (g.put i (some n')) := by
  intro j m hj hm e hem t htt hto
  have htg := (put_same hs ho ht e.dst t hto).1 htt
  simp only [RGraph.put] at hj
  split at hj
  · cases hj
    rcases he e hem with h | h
    · exact ha i n hs ho e h t htg hto
    · rw [h t htg] at hto; simp at hto
  · exact ha j m hj hm e hem t htg hto

theorem get_some {g : RGraph P S} {i : Nat} {n : Node P S} (h : g.get i = some n) : g.slot i = some n := by
  unfold RGraph.get at h
  split at h
  · exact h
  · simp at h

/-- A message that spares the old nodes does not change them, and connects nothing to them. -/
theorem handle_old (sem : Sem P S M) {old : Nat → Bool} {g h : RGraph P S} {m : Msg P M} (hm : m.spares old g)
    (hh : g.handle sem m = some h) :
    SameOld old g h ∧ (Apart old g → Apart old h) ∧ h.reclaimed = g.reclaimed := by
  have reorder : ∀ (k : RGraph P S) (l : List Nat), SameOld old g k → (Apart old g → Apart old k) →
      SameOld old g { k with ordered := l } ∧ (Apart old g → Apart old { k with ordered := l }) :=
    fun k l h1 h2 => ⟨h1, h2⟩
  cases m with
  | register id tag proc nin nout cfg =>
    simp only [RGraph.handle, Option.some.injEq] at hh
    subst hh
    have hsame : SameOld old g (g.addNode sem id tag proc nin nout cfg) := by
      intro j n hn
      simp only [RGraph.addNode]
      by_cases hj : j = id
      · subst hj
        rw [if_pos rfl]
        constructor
        · intro h; cases h; rw [hm.2] at hn; simp at hn
        · intro h; rw [hm.1 n h] at hn; simp at hn
      · rw [if_neg hj]
    refine ⟨hsame, fun ha => ?_, rfl⟩
    intro j n hj hn e he t ht hto
    have htg := (hsame e.dst t hto).1 ht
    simp only [RGraph.addNode] at hj
    split at hj
    · cases hj; simp at he
    · exact ha j n hj hn e he t htg hto
  | connect src t e t' =>
    simp only [RGraph.handle, RGraph.addEdge] at hh
    split at hh
    · rename_i n hn
      cases hh
      have hs := get_some hn
      refine ⟨put_same hs (hm.1 n hs) rfl, fun ha => put_apart hs (hm.1 n hs) rfl ha ?_, rfl⟩
      intro x hx
      rcases List.mem_append.1 hx with h | h
      · exact .inl h
      · rw [List.mem_singleton.1 h]; exact .inr hm.2
    · simp at hh
  | disconnect src t e =>
    simp only [RGraph.handle, RGraph.removeEdge] at hh
    split at hh
    · rename_i n hn
      cases hh
      have hs := get_some hn
      refine ⟨put_same hs (hm n hs) rfl, fun ha => put_apart hs (hm n hs) rfl ha ?_, rfl⟩
      intro x hx
      exact .inl (List.mem_filter.1 hx).1
    · simp at hh
  | dropped id t =>
    simp only [RGraph.handle, RGraph.markDropped] at hh
    split at hh
    · split at hh
      · rename_i n hn
        cases hh
        exact ⟨put_same hn (hm n hn) rfl, fun ha => put_apart hn (hm n hn) rfl ha fun x hx => .inl hx, rfl⟩
      · cases hh; exact ⟨.refl _ _, fun h => h, rfl⟩
    · simp at hh
  | breaker id t =>
    simp only [RGraph.handle, RGraph.markBreaker, Option.map_eq_some_iff] at hh
    obtain ⟨n, hn, rfl⟩ := hh
    have hs := get_some hn
    exact ⟨put_same hs (hm n hs) rfl, fun ha => put_apart hs (hm n hs) rfl ha fun x hx => .inl hx, rfl⟩
  | post id t m =>
    simp only [RGraph.handle, RGraph.routeMessage, Option.bind_eq_some_iff, Option.map_eq_some_iff] at hh
    obtain ⟨n, hn, p, _, rfl⟩ := hh
    have hs := get_some hn
    exact ⟨put_same hs (hm n hs) rfl, fun ha => put_apart hs (hm n hs) rfl ha fun x hx => .inl hx, rfl⟩
  | setCfg id t c =>
    simp only [RGraph.handle, RGraph.setCfg, Option.map_eq_some_iff] at hh
    obtain ⟨n, hn, rfl⟩ := hh
    have hs := get_some hn
    exact ⟨put_same hs (hm n hs) rfl, fun ha => put_apart hs (hm n hs) rfl ha fun x hx => .inl hx, rfl⟩

theorem handles_old (sem : Sem P S M) {old : Nat → Bool} (ms : List (Msg P M)) {g h : RGraph P S}
    (hm : ∀ m ∈ ms, m.spares old g) (hh : RGraph.foldOpt (RGraph.handle sem) ms g = some h) :
    SameOld old g h ∧ (Apart old g → Apart old h) ∧ h.reclaimed = g.reclaimed := by
  induction ms generalizing g with
  | nil => cases hh; exact ⟨.refl _ _, fun h => h, rfl⟩
  | cons m ms ih =>
    simp only [RGraph.foldOpt] at hh
    cases h1 : g.handle sem m with
    | none => rw [h1] at hh; simp at hh
    | some g1 =>
      rw [h1] at hh
      obtain ⟨a1, a2, a3⟩ := handle_old sem (hm m (by simp)) h1
      obtain ⟨b1, b2, b3⟩ := ih (fun x hx => a1.spares (hm x (by simp [hx]))) hh
      exact ⟨a1.trans b1, fun h => b2 (a2 h), b3.trans a3⟩

/-! ## Whole histories -/

/-- `G k` is the graph at the start of quantum `k`, `H k` after the messages `bs k` have been handled, and all goes
well: no panic of the render thread, no cycles, no node left out of the order (C05). -/
structure History (sem : Sem P S M) (bs : Nat → List (Msg P M)) (G H : Nat → RGraph P S) : Prop where
  msgs : ∀ k, RGraph.foldOpt (RGraph.handle sem) (bs k) (G k) = some (H k)
  wf : ∀ k, WF (H k)
  complete : ∀ k, Complete (H k)
  acyclic : ∀ k, Acyclic (H k)
  quantum : ∀ k, ∃ o, (H k).render sem = some (G (k + 1), o)

/-- at time `k` there is no old node with this id -/
def Gone (old : Nat → Bool) (H : Nat → RGraph P S) (i k : Nat) : Prop :=
  ∀ n, (H k).slot i = some n → old n.tag = false

section
variable {sem : Sem P S M} {bs : Nat → List (Msg P M)} {G H : Nat → RGraph P S} {old : Nat → Bool}

theorem History.next (h : History sem bs G H) (hs : ∀ k, ∀ m ∈ bs k, m.spares old (G k)) {k i : Nat} {n' : Node P S}
    (hn : (H (k + 1)).slot i = some n') (ho : old n'.tag = true) :
    ∃ n, (H k).slot i = some n ∧ Survives sem (H k) i n n' := by
  obtain ⟨o, hr⟩ := h.quantum k
  obtain ⟨_, q2, q3, _⟩ := quantum_step sem (h.wf k) (h.complete k) (h.acyclic k) hr
  have hG := ((handles_old sem _ (hs (k + 1)) (h.msgs (k + 1))).1 i n' ho).1 hn
  cases hsl : (H k).slot i with
  | none => rw [q2 i hsl] at hG; simp at hG
  | some n =>
    rcases q3 i n hsl with ⟨h1, _⟩ | ⟨n2, h1, h2⟩
    · rw [h1] at hG; simp at hG
    · rw [hG] at h1; cases h1; exact ⟨n, rfl, h2⟩

theorem History.gone_mono (h : History sem bs G H) (hs : ∀ k, ∀ m ∈ bs k, m.spares old (G k)) {i k : Nat}
    (hg : Gone old H i k) (m : Nat) : Gone old H i (k + m) := by
  induction m with
  | zero => exact hg
  | succ m ih =>
    intro n' hn'
    cases ho : old n'.tag with
    | false => rfl
    | true =>
      obtain ⟨n, hn, hsv⟩ := h.next hs (k := k + m) hn' ho
      rw [hsv.tag, ih n hn] at ho
      simp at ho

theorem History.gone_le (h : History sem bs G H) (hs : ∀ k, ∀ m ∈ bs k, m.spares old (G k)) {i k m : Nat}
    (hg : Gone old H i k) (hm : k ≤ m) : Gone old H i m := by
  obtain ⟨d, rfl⟩ := Nat.exists_eq_add_of_le hm
  exact h.gone_mono hs hg d

/-- an old node and what it was at the start -/
theorem History.origin (h : History sem bs G H) (hs : ∀ k, ∀ m ∈ bs k, m.spares old (G k)) (k : Nat) :
    ∀ {i : Nat} {n : Node P S}, (H k).slot i = some n → old n.tag = true →
      ∃ n0, (H 0).slot i = some n0 ∧ n.tag = n0.tag ∧ n.dropped = n0.dropped ∧ (∀ e ∈ n.edges, e ∈ n0.edges) ∧
        Becomes sem n0.proc n.proc ∧
        ∀ e ∈ n.edges, ∀ t0, (H 0).slot e.dst = some t0 → old t0.tag = true →
          ∃ t, (H k).slot e.dst = some t ∧ old t.tag = true := by
  induction k with
  | zero => exact fun {i n} hn ho => ⟨n, hn, rfl, rfl, fun _ h => h, .refl, fun e _ t0 h1 h2 => ⟨t0, h1, h2⟩⟩
  | succ k ih =>
    intro i n' hn' ho
    obtain ⟨n, hn, hsv⟩ := h.next hs hn' ho
    obtain ⟨n0, a1, a2, a3, a4, a5, a6⟩ := ih hn (by rw [← hsv.tag]; exact ho)
    obtain ⟨ins, outs, ps, outs', t, hp, _⟩ := hsv.run
    refine ⟨n0, a1, hsv.tag.trans a2, hsv.dropped.trans a3, fun e he => a4 e (hsv.edges e he), a5.step hp, ?_⟩
    intro e he t0 ht0 hto
    obtain ⟨t, ht, hto'⟩ := a6 e (hsv.edges e he) t0 ht0 hto
    obtain ⟨o, hr⟩ := h.quantum k
    obtain ⟨w', _, q3, _⟩ := quantum_step sem (h.wf k) (h.complete k) (h.acyclic k) hr
    have hsame := (handles_old sem _ (hs (k + 1)) (h.msgs (k + 1))).1
    have hG := (hsame i n' ho).1 hn'
    obtain ⟨_, t', ht', _⟩ := w'.edges i n' hG e he
    rcases q3 e.dst t ht with ⟨h1, _⟩ | ⟨t2, h1, h2⟩
    · rw [ht'] at h1; simp at h1
    · have hto2 : old t2.tag = true := by rw [h2.tag]; exact hto'
      exact ⟨t2, (hsame e.dst t2 hto2).2 h1, hto2⟩

theorem History.apart (h : History sem bs G H) (hs : ∀ k, ∀ m ∈ bs k, m.spares old (G k)) (ha : Apart old (G 0)) (k : Nat) :
    Apart old (H k) := by
  induction k with
  | zero => exact (handles_old sem _ (hs 0) (h.msgs 0)).2.1 ha
  | succ k ih =>
    refine (handles_old sem _ (hs (k + 1)) (h.msgs (k + 1))).2.1 ?_
    obtain ⟨o, hr⟩ := h.quantum k
    obtain ⟨_, q2, q3, _⟩ := quantum_step sem (h.wf k) (h.complete k) (h.acyclic k) hr
    have back : ∀ i n', (G (k + 1)).slot i = some n' → ∃ n, (H k).slot i = some n ∧ n'.tag = n.tag ∧
        ∀ e ∈ n'.edges, e ∈ n.edges := by
      intro i n' hn'
      cases hsl : (H k).slot i with
      | none => rw [q2 i hsl] at hn'; simp at hn'
      | some n =>
        rcases q3 i n hsl with ⟨h1, _⟩ | ⟨n2, h1, h2⟩
        · rw [h1] at hn'; simp at hn'
        · rw [hn'] at h1; cases h1; exact ⟨n, rfl, h2.tag, h2.edges⟩
    intro j m' hj hm e he t' ht' hto
    obtain ⟨m, b1, b2, b3⟩ := back j m' hj
    obtain ⟨t, d1, d2, _⟩ := back e.dst t' ht'
    exact ih j m b1 (by rw [← b2]; exact hm) e (b3 e he) t d1 (by rw [← d2]; exact hto)

/-- a silent node with a finite tail goes -/
theorem History.fade (h : History sem bs G H) (hs : ∀ k, ∀ m ∈ bs k, m.spares old (G k)) {i : Nat}
    (N : Nat) : ∀ (k : Nat) (n : Node P S), (H k).slot i = some n → old n.tag = true → n.dropped = true →
      Fades sem N n.proc →
      (∀ m n', k ≤ m → (H m).slot i = some n' → old n'.tag = true → Quiet sem (H m) i n') →
      ∃ m, k ≤ m ∧ Gone old H i m := by
  induction N with
  | zero => intro k n _ _ _ hf; exact hf.elim
  | succ N ih =>
    intro k n hn ho hd hf hq
    by_cases hg : Gone old H i (k + 1)
    · exact ⟨k + 1, by omega, hg⟩
    · simp only [Gone, not_forall] at hg
      obtain ⟨n', hn', ho'⟩ := hg
      have ho' : old n'.tag = true := by simpa using ho'
      obtain ⟨n2, h2, hsv⟩ := h.next hs hn' ho'
      rw [hn] at h2; cases h2
      obtain ⟨ins, outs, ps, outs', t, hp, himp⟩ := hsv.run
      obtain ⟨hsil, ht, _⟩ := himp hd (hq k n (Nat.le_refl _) hn ho)
      rcases hf ins outs ps hsil _ _ _ hp with h3 | h3
      · rw [ht] at h3; simp at h3
      · obtain ⟨m, hm1, hm2⟩ := ih (k + 1) n' hn' ho' (hsv.dropped.trans hd) h3
          (fun m n'' hm => hq m n'' (by omega))
        exact ⟨m, by omega, hm2⟩
end

section
variable {sem : Sem P S M} {bs : Nat → List (Msg P M)} {G H : Nat → RGraph P S} {old : Nat → Bool}

/-- What is required of the nodes that are to be released: their handles are dropped, and they are either nodes with a
finite tail, or parameters of such nodes: parameters never report an end of their tail
(`AudioParamProcessor::process`, `/repo/src/param.rs` l.686-702), and are connected to the hidden port of their
node. -/
def Releasable (sem : Sem P S M) (old : Nat → Bool) (g : RGraph P S) : Prop :=
  ∀ i n, g.slot i = some n → old n.tag = true → n.dropped = true ∧
    (Fading sem n.proc ∨ ∀ e ∈ n.edges, e.port = none ∧
      ∃ t, g.slot e.dst = some t ∧ old t.tag = true ∧ Fading sem t.proc)

theorem History.quiet (h : History sem bs G H) (hs : ∀ k, ∀ m ∈ bs k, m.spares old (G k)) (ha : Apart old (G 0))
    (hrel : Releasable sem old (H 0)) {L : List Nat} (hL : L.Nodup)
    (hfwd : ∀ u n, (H 0).slot u = some n → ∀ e ∈ n.edges, Before L u e.dst) {k i : Nat}
    (hk : ∀ j n, L.idxOf j < L.idxOf i → (H 0).slot j = some n → old n.tag = true → Fading sem n.proc →
      Gone old H j (k + 1))
    {n : Node P S} (hn : (H (k + 1)).slot i = some n) (ho : old n.tag = true) : Quiet sem (H (k + 1)) i n := by
  obtain ⟨n1, _, hsv⟩ := h.next hs hn ho
  refine ⟨hsv.hasInputs, hsv.inputs, ?_⟩
  intro j m hj e he hd
  subst hd
  cases hom : old m.tag with
  | false => exact h.apart hs ha (k + 1) j m hj hom e he n hn ho
  | true =>
    obtain ⟨m0, a1, a2, a3, a4, a5, a6⟩ := h.origin hs (k + 1) hj hom
    rcases (hrel j m0 a1 (by rw [← a2]; exact hom)).2 with hf | hp
    · exfalso
      have hb := hfwd j m0 a1 e (a4 e he)
      have hlt : L.idxOf j < L.idxOf e.dst := by
        obtain ⟨p, q, r, rfl⟩ := hb
        have hnd := List.nodup_append.1 hL
        have hnd2 := List.nodup_append.1 hnd.1
        have hjp : j ∉ p := fun hx => hnd2.2.2 j hx j (by simp) rfl
        have hdp : e.dst ∉ p ++ j :: q := fun hx => hnd.2.2 _ hx _ (by simp) rfl
        rw [List.idxOf_append_of_notMem hdp, List.append_assoc, List.idxOf_append_of_notMem hjp]
        simp
      have := hk j m0 hlt a1 (by rw [← a2]; exact hom) hf m hj
      rw [this] at hom
      simp at hom
    · exact (hp e (a4 e he)).1

/-- **C104.** Take a part of the graph (`old`) whose handles have all been dropped. The rest of the application may go
on: create nodes (also with ids that have become free), connect, disconnect, control and drop them, as long as it sends
nothing to the dropped nodes (it has no handle to do so) and its own nodes do not feed them. If every dropped node has a
tail that is finite once its inputs are silent, or is a parameter of such a node, then after finitely many quanta none
of them is left in the graph, for good, and all their ids have been handed back for reuse. -/
theorem C104_released_partial (h : History sem bs G H) (hs : ∀ k, ∀ m ∈ bs k, m.spares old (G k)) (ha : Apart old (G 0))
    (hrel : Releasable sem old (H 0)) :
    ∃ k, ∀ m, k ≤ m → (∀ i n, (G m).slot i = some n → old n.tag = false) ∧
      ∀ i n, (H 0).slot i = some n → old n.tag = true → i ∈ (G m).reclaimed := by
  -- an order in which the nodes can go
  obtain ⟨L, hL, hmem, hfwd⟩ : ∃ L : List Nat, L.Nodup ∧ (∀ i, ((H 0).slot i).isSome → i ∈ L) ∧
      ∀ u n, (H 0).slot u = some n → ∀ e ∈ n.edges, Before L u e.dst := by
    obtain ⟨g1, g2, c1, c2, c3, _, _⟩ := C05_every_node_processed_partial sem (h.wf 0) (h.complete 0) (h.acyclic 0)
    obtain ⟨w1, hs1⟩ := ordered_slot (h.wf 0) (h.acyclic 0) c1
    refine ⟨g1.ordered, c2, fun i hi => (c3 i).2 hi, fun u n hn e he => ?_⟩
    obtain ⟨_, t, ht, _⟩ := (h.wf 0).edges u n hn e he
    exact w1.fwd u ((c3 u).2 (by simp [hn])) e.dst ((c3 _).2 (by simp [ht])) n (by rw [hs1]; exact hn) ⟨e, he, rfl⟩
  -- nodes with a finite tail
  have phase1 : ∀ r, ∃ k, ∀ j n, L.idxOf j < r → (H 0).slot j = some n → old n.tag = true → Fading sem n.proc →
      Gone old H j k := by
    intro r
    induction r with
    | zero => exact ⟨0, fun j n hj => absurd hj (by omega)⟩
    | succ r ih =>
      obtain ⟨k, hk⟩ := ih
      by_cases hex : ∃ i n, L.idxOf i = r ∧ (H 0).slot i = some n ∧ old n.tag = true ∧ Fading sem n.proc
      · obtain ⟨i, n0, hir, hn0, ho0, hf0⟩ := hex
        have huniq : ∀ j n, (H 0).slot j = some n → L.idxOf j = r → j = i := by
          intro j n hj hjr
          have h1 := hmem j (by simp [hj])
          have h2 := hmem i (by simp [hn0])
          exact (List.idxOf_inj h1).1 (hjr.trans hir.symm)
        have hgone : ∃ m, k ≤ m ∧ Gone old H i m := by
          by_cases hg : Gone old H i (k + 1)
          · exact ⟨k + 1, by omega, hg⟩
          · simp only [Gone, not_forall] at hg
            obtain ⟨n, hn, ho⟩ := hg
            have ho : old n.tag = true := by simpa using ho
            obtain ⟨n0', a1, a2, a3, a4, a5, a6⟩ := h.origin hs (k + 1) hn ho
            rw [hn0] at a1; cases a1
            obtain ⟨N, hN⟩ := hf0 n.proc a5
            obtain ⟨m, hm1, hm2⟩ := h.fade hs N (k + 1) n hn ho (a3.trans (hrel i n0 hn0 ho0).1) hN (by
              intro m n' hm hn' ho'
              obtain ⟨d, rfl⟩ : ∃ d, m = d + 1 := ⟨m - 1, by omega⟩
              exact h.quiet hs ha hrel hL hfwd
                (fun j nj hj h1 h2 h3 => h.gone_le hs (hk j nj (by omega) h1 h2 h3) (by omega)) hn' ho')
            exact ⟨m, by omega, hm2⟩
        obtain ⟨m, hm1, hm2⟩ := hgone
        refine ⟨m, fun j n hj h1 h2 h3 => ?_⟩
        rcases Nat.lt_succ_iff_lt_or_eq.1 hj with hlt | heq
        · exact h.gone_le hs (hk j n hlt h1 h2 h3) hm1
        · rw [huniq j n h1 heq]; exact hm2
      · refine ⟨k, fun j n hj h1 h2 h3 => ?_⟩
        rcases Nat.lt_succ_iff_lt_or_eq.1 hj with hlt | heq
        · exact hk j n hlt h1 h2 h3
        · exact absurd ⟨j, n, heq, h1, h2, h3⟩ hex
  obtain ⟨k, hk⟩ := phase1 (L.length + 1)
  have hk' : ∀ m, k ≤ m → ∀ j n, (H 0).slot j = some n → old n.tag = true → Fading sem n.proc → Gone old H j m :=
    fun m hm j n h1 h2 h3 => h.gone_le hs (hk j n (Nat.lt_succ_of_le List.idxOf_le_length) h1 h2 h3) hm
  -- parameters
  have phase2 : ∀ i, Gone old H i (k + 2) := by
    intro i n' hn'
    cases ho' : old n'.tag with
    | false => rfl
    | true =>
      exfalso
      obtain ⟨n, hn, hsv⟩ := h.next hs (k := k + 1) hn' ho'
      have ho : old n.tag = true := by rw [← hsv.tag]; exact ho'
      obtain ⟨n0, a1, a2, a3, a4, a5, a6⟩ := h.origin hs (k + 1) hn ho
      have ho0 : old n0.tag = true := by rw [← a2]; exact ho
      obtain ⟨hd0, hcase⟩ := hrel i n0 a1 ho0
      rcases hcase with hf | hp
      · have := hk' (k + 1) (by omega) i n0 a1 ho0 hf n hn
        rw [this] at ho; simp at ho
      · have hemp : n.edges = [] := by
          apply List.eq_nil_iff_forall_not_mem.2
          intro e he
          obtain ⟨_, t0, ht0, hot0, hft0⟩ := hp e (a4 e he)
          obtain ⟨t, ht, hot⟩ := a6 e he t0 ht0 hot0
          rw [hk' (k + 1) (by omega) e.dst t0 ht0 hot0 hft0 t ht] at hot
          simp at hot
        obtain ⟨_, _, _, _, _, _, himp⟩ := hsv.run
        have hq : Quiet sem (H (k + 1)) i n := h.quiet hs ha hrel hL hfwd
          (fun j nj _ h1 h2 h3 => hk' (k + 1) (by omega) j nj h1 h2 h3) hn ho
        exact (himp (a3.trans hd0) hq).2.2 hemp
  -- conclusion
  have hGgone : ∀ m, k + 2 ≤ m → ∀ i n, (G m).slot i = some n → old n.tag = false := by
    intro m hm i n hn
    cases ho : old n.tag with
    | false => rfl
    | true =>
      rw [← ho]
      exact h.gone_le hs (phase2 i) hm n (((handles_old sem _ (hs m) (h.msgs m)).1 i n ho).2 hn)
  have hrec : ∀ m i n0, (H 0).slot i = some n0 → old n0.tag = true →
      (∃ n, (H m).slot i = some n ∧ old n.tag = true) ∨ i ∈ (H m).reclaimed := by
    intro m
    induction m with
    | zero => exact fun i n0 h1 h2 => .inl ⟨n0, h1, h2⟩
    | succ m ih =>
      intro i n0 h1 h2
      obtain ⟨o, hr⟩ := h.quantum m
      obtain ⟨_, q2, q3, l, q4⟩ := quantum_step sem (h.wf m) (h.complete m) (h.acyclic m) hr
      obtain ⟨s1, _, s3⟩ := handles_old sem _ (hs (m + 1)) (h.msgs (m + 1))
      rcases ih i n0 h1 h2 with ⟨n, hn, ho⟩ | hi
      · rcases q3 i n hn with ⟨_, hg⟩ | ⟨n', hn', hsv⟩
        · exact .inr (by rw [s3]; exact hg)
        · have ho' : old n'.tag = true := by rw [hsv.tag]; exact ho
          exact .inl ⟨n', (s1 i n' ho').2 hn', ho'⟩
      · exact .inr (by rw [s3, q4]; exact List.mem_append_left _ hi)
  refine ⟨k + 2, fun m hm => ⟨hGgone m hm, fun i n0 h1 h2 => ?_⟩⟩
  rcases hrec m i n0 h1 h2 with ⟨n, hn, ho⟩ | hi
  · rw [h.gone_le hs (phase2 i) hm n hn] at ho; simp at ho
  · rw [(handles_old sem _ (hs m) (h.msgs m)).2.2] at hi; exact hi
end

/-! ## An application that does nothing more -/

/-- the destination of a context: it has an input and an output, is never dropped and never panics
(`/repo/src/node/destination.rs` l.142-163) -/
def Sink (sem : Sem P S M) (g : RGraph P S) : Prop :=
  ∃ d, g.slot 0 = some d ∧ d.dropped = false ∧ d.outputs ≠ [] ∧ d.inputs ≠ [] ∧
    ∀ q, Becomes sem d.proc q → ∀ ins outs ps, ins ≠ [] → outs ≠ [] → sem.process q ins outs ps ≠ none

theorem Becomes.trans {sem : Sem P S M} {p q r : P} (h : Becomes sem p q) (k : Becomes sem q r) : Becomes sem p r := by
  induction k with
  | refl => exact h
  | step _ hp ih => exact ih.step hp

theorem sink_render (sem : Sem P S M) {g : RGraph P S} (w : WF g) (hc : Complete g) (hac : Acyclic g) (hd : Sink sem g) :
    ∃ g' o, g.render sem = some (g', o) ∧ WF g' ∧ Complete g' ∧ Acyclic g' ∧ Sink sem g' := by
  obtain ⟨d, hd1, hd2, hd3, hd5, hd4⟩ := hd
  obtain ⟨g1', g2', c1, c2, c3, c4, c5⟩ := C05_every_node_processed_partial sem w hc hac
  obtain ⟨g1, g2, h1, w1, h2, h3, h4, h5⟩ := RGraph.render_spec sem w
  have e1 : g1' = g1 := by
    have : g.orderedGraph = some g1' := c1
    rw [h1] at this; cases this; rfl
  subst e1
  have hs1 := (ordered_slot w hac h1).2
  obtain ⟨f1, f2, f3⟩ := RGraph.loop_fate sem w1.nodup g1'.ordered g1' g2 (fun _ h => h) w1.nodup (RGraph.wf_loopInv w1) h2
  obtain ⟨ga, na, k0, k1, k2, k3, k4, k5, k6, k7, k8, k9, k10, k11⟩ :=
    f3 0 d ((c3 0).2 (by simp [hd1])) (by rw [hs1]; exact hd1)
  obtain ⟨d', l1, l2, hlen⟩ : ∃ d', g2.slot 0 = some d' ∧ Becomes sem d.proc d'.proc ∧
      d'.dropped = false ∧ d'.outputs ≠ [] := by
    rcases RGraph.process_cases sem ga 0 na with ⟨p, outs, tail, q1, q2, q3⟩ | ⟨q1, q2⟩
    · have hf : ¬ ga.freed sem 0 na = true := by
        unfold RGraph.freed
        rw [q3]
        simp [Node.canFree, k7, hd2]
      rw [if_neg hf] at k11
      obtain ⟨n', l1, l2, l3, l4, l5, l6, _⟩ := k11
      refine ⟨n', l1, ?_, l6.trans hd2, ?_⟩
      · rw [l3, q3, ← k4]; exact Becomes.refl.step q1
      · intro hh
        rw [l4, q3] at hh
        have hh : outs = [] := hh
        rw [hh, k5] at q2
        exact hd3 (List.length_eq_zero_iff.1 q2.symm)
    · rw [k4] at q1
      exact absurd q1 (hd4 _ .refl _ _ _ (fun hh => hd5 (List.length_eq_zero_iff.1 (by rw [← k9, hh]; rfl)))
        (by rw [k5]; exact hd3))
  obtain ⟨hdr, hout⟩ := hlen
  have hin : d'.inputs.length = d.inputs.length := RGraph.loop_len sem w1.nodup g1'.ordered g1' g2 (fun _ h => h)
    w1.nodup (RGraph.wf_loopInv w1) h2 (by rw [hs1]; exact hd1) l1
  cases ho : d'.outputs.head? with
  | none => exact absurd (List.head?_eq_none_iff.1 ho) hout
  | some o =>
    have hr : g.render sem = some ({ g2 with ordered := g2.ordered.filter fun i => (g2.slot i).isSome }, o) := by
      rw [h5, l1]; simp [ho]
    obtain ⟨w', q2, q3, _⟩ := quantum_step sem w hc hac hr
    refine ⟨_, o, hr, w', (c5 _ _ hr).2, fun i hcy => hac i (TransGen.mono ?_ i i hcy), d', l1, hdr, hout,
      fun hh => hd5 (List.length_eq_zero_iff.1 (by rw [← hin, hh]; rfl)), fun q hq => hd4 q (l2.trans hq)⟩
    rintro u v ⟨n', hn', e, he, hev⟩
    cases hsl : g.slot u with
    | none => rw [q2 u hsl] at hn'; simp at hn'
    | some n =>
      rcases q3 u n hsl with ⟨h1, _⟩ | ⟨n2, h1, h2⟩
      · rw [hn'] at h1; simp at h1
      · rw [hn'] at h1; cases h1; exact ⟨n, rfl, e, h2.edges e he, hev⟩

/-- quanta without any messages -/
def quanta (sem : Sem P S M) : Nat → RGraph P S → Option (RGraph P S)
  | 0, g => some g
  | k + 1, g => (quanta sem k g).bind fun g1 => (g1.render sem).map (·.1)

theorem idle_history (sem : Sem P S M) {g : RGraph P S} (w : WF g) (hc : Complete g) (hac : Acyclic g) (hd : Sink sem g) :
    ∃ G : Nat → RGraph P S, G 0 = g ∧ (∀ k, quanta sem k g = some (G k)) ∧ History sem (fun _ => []) G G := by
  have key : ∀ k, ∃ gk, quanta sem k g = some gk ∧ WF gk ∧ Complete gk ∧ Acyclic gk ∧ Sink sem gk := by
    intro k
    induction k with
    | zero => exact ⟨g, rfl, w, hc, hac, hd⟩
    | succ k ih =>
      obtain ⟨gk, h1, h2, h3, h4, h5⟩ := ih
      obtain ⟨g', o, hr, rest⟩ := sink_render sem h2 h3 h4 h5
      exact ⟨g', by simp [quanta, h1, hr], rest⟩
  choose G hG using key
  refine ⟨G, ?_, fun k => (hG k).1, ⟨fun k => rfl, fun k => (hG k).2.1, fun k => (hG k).2.2.1,
    fun k => (hG k).2.2.2.1, fun k => ?_⟩⟩
  · have := (hG 0).1
    simpa [quanta] using this.symm
  · obtain ⟨g', o, hr, _⟩ := sink_render sem (hG k).2.1 (hG k).2.2.1 (hG k).2.2.2.1 (hG k).2.2.2.2
    have := (hG (k + 1)).1
    simp only [quanta, (hG k).1, Option.bind_some, hr, Option.map_some, Option.some.injEq] at this
    exact ⟨o, by rw [hr, this]⟩

/-- C104 for an application that has dropped everything but the nodes with tags not in `old` (e.g. the destination and
the listener) and does nothing more: the audio keeps running, and after finitely many quanta only those are left. -/
theorem C104_idle_partial (sem : Sem P S M) {old : Nat → Bool} {g : RGraph P S} (w : WF g) (hc : Complete g)
    (hac : Acyclic g) (hd : Sink sem g) (ha : Apart old g) (hrel : Releasable sem old g) :
    ∃ k, ∀ m, k ≤ m → ∃ g', quanta sem m g = some g' ∧ (∀ i n, g'.slot i = some n → old n.tag = false) ∧
      ∀ i n, g.slot i = some n → old n.tag = true → i ∈ g'.reclaimed := by
  obtain ⟨G, h0, hq, hist⟩ := idle_history sem w hc hac hd
  subst h0
  obtain ⟨k, hk⟩ := C104_released_partial hist (old := old) (by simp) ha hrel
  exact ⟨k, fun m hm => ⟨G m, hq m, hk m hm⟩⟩

/-! ## What is not released -/

/-- A node that the order leaves out (it is on a cycle without delay, C04, or was forgotten, C05) stays in the graph as
long as no connection is made or removed, its handle dropped or not. -/
theorem C104_stuck (sem : Sem P S M) {g : RGraph P S} (w : WF g) (hd : Sink sem g) (h0 : 0 ∈ g.ordered) {i : Nat}
    (hi : i ∉ g.ordered) (hs : (g.slot i).isSome) (k : Nat) :
    ∃ g', quanta sem k g = some g' ∧ (g'.slot i).isSome ∧ i ∉ g'.reclaimed.drop g.reclaimed.length := by
  suffices h : ∃ g', quanta sem k g = some g' ∧ WF g' ∧ Sink sem g' ∧ 0 ∈ g'.ordered ∧ i ∉ g'.ordered ∧
      (g'.slot i).isSome ∧ ∃ l, g'.reclaimed = g.reclaimed ++ l ∧ i ∉ l by
    obtain ⟨g', a1, _, _, _, _, a6, l, a7, a8⟩ := h
    exact ⟨g', a1, a6, by rw [a7]; simpa using a8⟩
  induction k with
  | zero => exact ⟨g, rfl, w, hd, h0, hi, hs, [], by simp, by simp⟩
  | succ k ih =>
    obtain ⟨g', a1, w', ⟨d, hd1, hd2, hd3, hd5, hd4⟩, a4, a5, a6, l, a7, a8⟩ := ih
    obtain ⟨g1, g2, h1, w1, h2, h3, h4, h5⟩ := RGraph.render_spec sem w'
    have e1 : g' = g1 := by
      unfold RGraph.orderedGraph at h1
      rw [if_neg (List.ne_nil_of_mem a4)] at h1
      exact Option.some.inj h1
    subst e1
    obtain ⟨r1, r2, r3⟩ := RGraph.loop_reclaimed sem w'.nodup g'.ordered g' g2 (fun _ h => h) w'.nodup
      (RGraph.wf_loopInv w') h2
    obtain ⟨f1, f2, f3⟩ := RGraph.loop_fate sem w'.nodup g'.ordered g' g2 (fun _ h => h) w'.nodup
      (RGraph.wf_loopInv w') h2
    obtain ⟨ga, na, k0, k1, k2, k3, k4, k5, k6, k7, k8, k9, k10, k11⟩ := f3 0 d a4 hd1
    obtain ⟨d', l1, l2, hdr, hout⟩ : ∃ d', g2.slot 0 = some d' ∧ Becomes sem d.proc d'.proc ∧
        d'.dropped = false ∧ d'.outputs ≠ [] := by
      rcases RGraph.process_cases sem ga 0 na with ⟨p, outs, tail, q1, q2, q3⟩ | ⟨q1, q2⟩
      · have hf : ¬ ga.freed sem 0 na = true := by
          unfold RGraph.freed
          rw [q3]
          simp [Node.canFree, k7, hd2]
        rw [if_neg hf] at k11
        obtain ⟨n', l1, l2, l3, l4, l5, l6, _⟩ := k11
        refine ⟨n', l1, ?_, l6.trans hd2, ?_⟩
        · rw [l3, q3, ← k4]; exact Becomes.refl.step q1
        · intro hh
          rw [l4, q3] at hh
          have hh : outs = [] := hh
          rw [hh, k5] at q2
          exact hd3 (List.length_eq_zero_iff.1 q2.symm)
      · rw [k4] at q1
        exact absurd q1 (hd4 _ .refl _ _ _ (fun hh => hd5 (List.length_eq_zero_iff.1 (by rw [← k9, hh]; rfl)))
        (by rw [k5]; exact hd3))
    cases ho : d'.outputs.head? with
    | none => exact absurd (List.head?_eq_none_iff.1 ho) hout
    | some o =>
      obtain ⟨n, hn⟩ := Option.isSome_iff_exists.1 a6
      obtain ⟨n', hn', _⟩ := f2 i n a5 hn
      have hin : d'.inputs.length = d.inputs.length := RGraph.loop_len sem w'.nodup g'.ordered g' g2 (fun _ h => h)
        w'.nodup (RGraph.wf_loopInv w') h2 hd1 l1
      refine ⟨{ g2 with ordered := g2.ordered.filter fun i => (g2.slot i).isSome }, ?_, h4,
        ⟨d', l1, hdr, hout, fun hh => hd5 (List.length_eq_zero_iff.1 (by rw [← hin, hh]; rfl)),
          fun q hq => hd4 q (l2.trans hq)⟩, ?_, ?_, by simp [hn'],
        l ++ g'.ordered.filter fun i => (g2.slot i).isNone, ?_, ?_⟩
      · simp only [quanta, a1, Option.bind_some, h5, l1, ho, Option.map_some]
      · exact List.mem_filter.2 ⟨by rw [r3]; exact a4, by simp [l1]⟩
      · intro hx
        have := (List.mem_filter.1 hx).1
        rw [r3] at this
        exact a5 this
      · show g2.reclaimed = _
        rw [r1, a7, List.append_assoc]
      · intro hx
        rcases List.mem_append.1 hx with hx | hx
        · exact a8 hx
        · exact a5 (List.mem_filter.1 hx).1

/-- two gains (processors without a tail) in a cycle, all handles dropped -/
def leakOps : List (Op Nat Nat) :=
  [.acquire, .register 11 0 1 1 cfg0, .acquire, .register 12 0 1 1 cfg0, .connect ⟨11, 1, 1, 1⟩ ⟨12, 2, 1, 1⟩ 0 0,
    .connect ⟨12, 2, 1, 1⟩ ⟨11, 1, 1, 1⟩ 0 0, .drop ⟨11, 1, 1, 1⟩, .drop ⟨12, 2, 1, 1⟩,
    .recv, .recv, .recv, .recv, .recv, .recv, .quantum]

theorem calm_sink {g : RGraph Nat Nat} {d : Node Nat Nat} (h : g.slot 0 = some d) (hd : d.dropped = false)
    (ho : d.outputs ≠ []) (hi : d.inputs ≠ []) : Sink calmSem g :=
  ⟨d, h, hd, ho, hi, fun _ _ _ _ _ _ _ => by simp [calmSem]⟩

/-- C104 is violated for cycles without delay: two gains connected in a cycle, both handles dropped, all messages
handled. However long the context runs, the two nodes are never released and their ids never handed back. -/
theorem C104_negated : ∃ s, (Sys.init calmSem 0 cfg0).run calmSem leakOps = some s ∧ s.chan = [] ∧
    s.live.map (·.id) = [0] ∧
    ∀ k, ∃ g', quanta calmSem k s.g = some g' ∧ (g'.slot 11).isSome ∧ (g'.slot 12).isSome ∧
      11 ∉ g'.reclaimed.drop s.g.reclaimed.length ∧ 12 ∉ g'.reclaimed.drop s.g.reclaimed.length := by
  obtain ⟨s, hs, hinv⟩ := inv_run calmSem calm_noPanic (inv_init calmSem 0 cfg0) leakOps (by simp [leakOps])
  have key : ((Sys.init calmSem 0 cfg0).run calmSem leakOps).map (fun s => (s.chan.length, s.live.map (·.id), s.g.ordered,
      (s.g.slot 11).isSome && (s.g.slot 12).isSome)) = some (0, [0], [0], true) := by decide +kernel
  have key2 : ((Sys.init calmSem 0 cfg0).run calmSem leakOps).bind (fun s => (s.g.slot 0).map fun d =>
      (d.dropped, d.outputs, d.inputs)) = some (false, [0], [0]) := by decide +kernel
  rw [hs] at key key2
  simp only [Option.map_some, Option.some.injEq, Prod.mk.injEq, List.length_eq_zero_iff, Option.map_eq_some_iff,
    Option.bind_some, Bool.and_eq_true] at key key2
  obtain ⟨h1, h2, h3, h4, h5⟩ := key
  obtain ⟨d, h6, h7, h8, h9⟩ := key2
  refine ⟨s, hs, h1, h2, fun k => ?_⟩
  have sink := calm_sink h6 h7 (by simp [h8]) (by simp [h9])
  obtain ⟨g', a1, a2, a3⟩ := C104_stuck calmSem hinv.wf sink (by simp [h3]) (i := 11) (by simp [h3]) h4 k
  obtain ⟨g2, b1, b2, b3⟩ := C104_stuck calmSem hinv.wf sink (by simp [h3]) (i := 12) (by simp [h3]) h5 k
  rw [a1] at b1; cases b1
  exact ⟨g', a1, a2, b2, a3, b3⟩

/-! ## A case that meets the hypotheses -/

/-- Source 11 (processor 4, no tail), gain 12 with the parameter 13 (processor 1, which always reports a tail), all
dropped, connected to the destination. -/
def dropG : RGraph Nat Nat where
  cap := 64
  slot := fun i =>
    if i = 0 then some ⟨0, 0, [0], [0], cfg0, [], false, false, false⟩
    else if i = 11 then some ⟨1, 4, [], [0], cfg0, [⟨0, 12, some 0⟩], true, false, false⟩
    else if i = 12 then some ⟨2, 0, [0], [0], cfg0, [⟨0, 0, some 0⟩], true, false, false⟩
    else if i = 13 then some ⟨3, 1, [0], [0], cfg0, [⟨0, 12, none⟩], true, false, false⟩
    else none
  ordered := []
  reclaimed := []

theorem dropG_cases {i : Nat} {n : Node Nat Nat} (h : dropG.slot i = some n) :
    (i = 0 ∧ n = ⟨0, 0, [0], [0], cfg0, [], false, false, false⟩) ∨
    (i = 11 ∧ n = ⟨1, 4, [], [0], cfg0, [⟨0, 12, some 0⟩], true, false, false⟩) ∨
    (i = 12 ∧ n = ⟨2, 0, [0], [0], cfg0, [⟨0, 0, some 0⟩], true, false, false⟩) ∨
    (i = 13 ∧ n = ⟨3, 1, [0], [0], cfg0, [⟨0, 12, none⟩], true, false, false⟩) := by
  simp only [dropG] at h
  split at h
  · exact .inl ⟨by assumption, by simpa using h.symm⟩
  · split at h
    · exact .inr (.inl ⟨by assumption, by simpa using h.symm⟩)
    · split at h
      · exact .inr (.inr (.inl ⟨by assumption, by simpa using h.symm⟩))
      · split at h
        · exact .inr (.inr (.inr ⟨by assumption, by simpa using h.symm⟩))
        · simp at h

theorem calm_becomes {p q : Nat} (h : Becomes calmSem p q) : q = p := by
  induction h with
  | refl => rfl
  | step _ hp ih =>
    simp only [calmSem, Option.some.injEq, Prod.mk.injEq] at hp
    rw [← hp.1, ih]

theorem calm_fading {p : Nat} (h : p % 2 = 0) : Fading calmSem p := by
  intro q hq
  rw [calm_becomes hq]
  refine ⟨1, fun ins outs ps _ p' outs' t hp => .inl ?_⟩
  simp only [calmSem, Option.some.injEq, Prod.mk.injEq] at hp
  rw [← hp.2.2, h]; rfl

/-- All four hypotheses are met, the parameter 13 included; it takes three quanta. -/
example : (∃ k, ∀ m, k ≤ m → ∃ g', quanta calmSem m dropG = some g' ∧
      (∀ i n, g'.slot i = some n → (decide (n.tag ≠ 0)) = false) ∧
      ∀ i n, dropG.slot i = some n → (decide (n.tag ≠ 0)) = true → i ∈ g'.reclaimed) ∧
    (quanta calmSem 1 dropG).map (fun g => g.keys) = some [0, 12, 13] ∧
    (quanta calmSem 3 dropG).map (fun g => (g.keys, g.reclaimed)) = some ([0], [11, 12, 13]) := by
  refine ⟨C104_idle_partial calmSem (old := fun t => decide (t ≠ 0)) ⟨⟨?_, ?_⟩, List.nodup_nil, by simp [dropG],
    by simp [dropG]⟩ (.inl rfl) ?_ (calm_sink (d := ⟨0, 0, [0], [0], cfg0, [], false, false, false⟩) rfl rfl (by simp) (by simp))
    ?_ ?_, by decide +kernel, by decide +kernel⟩
  · intro i n hn
    rcases dropG_cases hn with ⟨rfl, rfl⟩ | ⟨rfl, rfl⟩ | ⟨rfl, rfl⟩ | ⟨rfl, rfl⟩ <;> decide
  · intro i n hn e he
    rcases dropG_cases hn with ⟨rfl, rfl⟩ | ⟨rfl, rfl⟩ | ⟨rfl, rfl⟩ | ⟨rfl, rfl⟩ <;> simp at he <;> subst he <;>
      simp [dropG]
  · have rank : ∀ u v, TransGen (fun u v => ∃ n, dropG.slot u = some n ∧ ∃ e ∈ n.edges, e.dst = v) u v →
        (u ≠ 0 ∧ (v = 12 ∧ u ≠ 12 ∨ v = 0)) := by
      have one : ∀ u v, (∃ n, dropG.slot u = some n ∧ ∃ e ∈ n.edges, e.dst = v) →
          (u ≠ 0 ∧ (v = 12 ∧ u ≠ 12 ∨ v = 0)) := by
        rintro u v ⟨n, hn, e, he, rfl⟩
        rcases dropG_cases hn with ⟨rfl, rfl⟩ | ⟨rfl, rfl⟩ | ⟨rfl, rfl⟩ | ⟨rfl, rfl⟩ <;> simp at he <;> subst he <;> simp
      intro u v h
      induction h with
      | single h => exact one _ _ h
      | tail h k ih =>
        have := one _ _ k
        refine ⟨ih.1, ?_⟩
        omega
    intro i hc
    have := rank i i hc
    omega
  · intro j m hj hm e he t ht hto
    rcases dropG_cases hj with ⟨rfl, rfl⟩ | ⟨rfl, rfl⟩ | ⟨rfl, rfl⟩ | ⟨rfl, rfl⟩ <;> simp at hm he
  · intro i n hn ho
    rcases dropG_cases hn with ⟨rfl, rfl⟩ | ⟨rfl, rfl⟩ | ⟨rfl, rfl⟩ | ⟨rfl, rfl⟩
    · simp at ho
    · exact ⟨rfl, .inl (calm_fading rfl)⟩
    · exact ⟨rfl, .inl (calm_fading rfl)⟩
    · refine ⟨rfl, .inr fun e he => ?_⟩
      simp at he
      subst he
      exact ⟨rfl, ⟨2, 0, [0], [0], cfg0, [⟨0, 0, some 0⟩], true, false, false⟩, rfl, rfl, calm_fading rfl⟩

end Verif.Render
