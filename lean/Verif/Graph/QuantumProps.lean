import Verif.Graph.SystemProps

/-!
# Properties of one render quantum (C06 destruction of nodes, C53 inputs of nodes, C55 muted nodes)
-/

namespace Verif.Render

open Verif.Graph Relation

variable {P S M : Type}

/-- Connections of a node that is not processed by the loop and has no connection to a processed
node stay exactly as they are. -/
theorem loop_edges (sem : Sem P S M) {L : List Nat} (hL : L.Nodup) (todo post : List Nat)
    (g g' : RGraph P S)
    (hsub : ∀ i ∈ todo, i ∈ L) (hnd : (todo ++ post).Nodup) (h : RGraph.LoopInv L (todo ++ post) g)
    (hf : RGraph.foldOpt (RGraph.renderNode sem) todo g = some g') (k : Nat) (hk : k ∉ todo)
    (n : Node P S) (hn : g.slot k = some n) (he : ∀ e ∈ n.edges, e.dst ∉ todo) :
    ∃ n', g'.slot k = some n' ∧ n'.edges = n.edges := by
  induction todo generalizing g n with
  | nil =>
    simp only [RGraph.foldOpt, Option.some.injEq] at hf; subst hf
    exact ⟨n, hn, rfl⟩
  | cons j todo ih =>
    obtain ⟨nj, g1, hnj, hself, hr, hs, h1⟩ := RGraph.loop_step sem hL (hsub j (by simp)) hnd h
    simp only [RGraph.foldOpt, hr] at hf
    simp only [List.mem_cons, not_or] at hk
    obtain ⟨m, a, b1, b2, b3, b4, b5, b6, b7, b8, b9, b10⟩ := hs.some k n hk.1 hn
    have hm : m.edges = n.edges := by
      rw [b8]
      split
      · rw [List.filter_eq_self]
        intro e hemem
        have := he e hemem
        simp only [List.mem_cons, not_or] at this
        simpa using this.1
      · rfl
    obtain ⟨n', c1, c2⟩ := ih g1 (fun i hi => hsub i (by simp [hi]))
      (List.nodup_cons.1 hnd).2 h1 hf hk.2 m a (by
        intro e hemem
        rw [hm] at hemem
        have := he e hemem
        simp only [List.mem_cons, not_or] at this
        exact this.2)
    exact ⟨n', c1, c2.trans hm⟩

/-- a scheduled sender contributes to the trace -/
theorem trace_sender (sem : Sem P S M) (hp : NoPanic sem) {L : List Nat} (hL : L.Nodup)
    (todo post : List Nat) (g : RGraph P S)
    (hsub : ∀ i ∈ todo, i ∈ L) (hnd : (todo ++ post).Nodup) (h : RGraph.LoopInv L (todo ++ post) g)
    (j : Nat) (hj : j ∈ todo) (n : Node P S) (hn : g.slot j = some n) (e : Edge) (he : e ∈ n.edges)
    (hd : e.dst ∉ todo) : ∃ x ∈ RGraph.trace sem todo g, x.1 = j ∧ e ∈ x.2.2 := by
  induction todo generalizing g n with
  | nil => simp at hj
  | cons a todo ih =>
    obtain ⟨na, g1, hna, hself, hr, hs, h1⟩ := RGraph.loop_step sem hL (hsub a (by simp)) hnd h
    simp only [RGraph.trace, hna, hr, List.mem_cons]
    by_cases hja : j = a
    · subst hja
      rw [hn] at hna; cases hna
      refine ⟨_, Or.inl rfl, rfl, ?_⟩
      rcases RGraph.process_cases sem g j n with ⟨p, outs, tail, _, _, h3⟩ | ⟨h3, _⟩
      · rw [h3]; exact he
      · exact absurd h3 (hp.1 _ _ _ _)
    · have hj' : j ∈ todo := by simpa [hja] using hj
      obtain ⟨m, b0, b1, b2, b3, b4, b5, b6, b7, b8, _⟩ := hs.some j n hja hn
      have hm : e ∈ m.edges := by
        rw [b8]
        split
        · refine List.mem_filter.2 ⟨he, ?_⟩
          have : e.dst ≠ a := fun h => hd (by simp [h])
          simpa using this
        · exact he
      obtain ⟨x, hx, hx2⟩ := ih g1 (fun i hi => hsub i (by simp [hi])) (List.nodup_cons.1 hnd).2 h1
        hj' m b0 hm (fun h => hd (by simp [h]))
      exact ⟨x, Or.inr hx, hx2⟩

theorem split_at {l : List Nat} {i : Nat} (hi : i ∈ l) :
    l = l.takeWhile (· ≠ i) ++ i :: (l.dropWhile (· ≠ i)).tail := by
  conv_lhs => rw [← List.takeWhile_append_dropWhile (p := (· ≠ i)) (l := l)]
  congr 1
  have hne : l.dropWhile (· ≠ i) ≠ [] := by
    intro h0
    rw [List.dropWhile_eq_nil_iff] at h0
    have := h0 i hi
    simp at this
  have hhead := List.head_dropWhile_not (p := (· ≠ i)) (l := l) hne
  simp only [ne_eq, decide_not, Bool.not_eq_false', decide_eq_true_eq] at hhead
  conv_lhs => rw [← List.cons_head_tail hne]
  simp only [ne_eq, decide_not] at hhead ⊢
  rw [hhead]

/-- in a duplicate free list `Before l j i` means that `j` occurs in the part before `i` -/
theorem before_takeWhile {l : List Nat} (hl : l.Nodup) {j i : Nat} (h : Before l j i) :
    j ∈ l.takeWhile (· ≠ i) := by
  obtain ⟨p, q, r, rfl⟩ := h
  have h3 := List.nodup_append.1 hl
  have hi : i ∉ p ++ j :: q := fun h => h3.2.2 i h i (by simp) rfl
  rw [List.takeWhile_append_of_pos]
  · simp
  · intro x hx
    have : x ≠ i := by rintro rfl; exact hi hx
    simpa using this

theorem takeWhile_before {l : List Nat} (hl : l.Nodup) {j i : Nat} (hi : i ∈ l)
    (h : j ∈ l.takeWhile (· ≠ i)) : ¬ Before l i j := by
  intro hb
  have hji : j ≠ i := by simpa using List.mem_takeWhile_imp h
  obtain ⟨p, q, r, hl2⟩ := hb
  have h1 := hl
  rw [hl2] at h1 h
  have h3 := List.nodup_append.1 h1
  have h4 := List.nodup_append.1 h3.1
  have hjp : j ∉ p ++ i :: q := fun hm => h3.2.2 j hm j (by simp) rfl
  have hip : ∀ x ∈ p, (decide (x ≠ i)) = true := by
    intro x hx
    have : x ≠ i := by rintro rfl; exact h4.2.2 x hx x (by simp) rfl
    simpa using this
  rw [List.append_assoc, List.takeWhile_append_of_pos hip] at h
  simp only [List.cons_append, List.takeWhile_cons, ne_eq, not_true, decide_false, Bool.false_eq_true,
    if_false, List.append_nil] at h
  exact hjp (by simp [h])

/-- C06. If a quantum destroys a node (processors do not panic), then its control handle has been
dropped and one of the following holds, where `n1` is the node at the start of the quantum (after a
delay node on a cycle has been detached) and `tail` the tail flag it reported when it was processed
in this quantum, i.e. with the inputs `na.inputs` it had received from the nodes `pre` before it:
* no node processed in this quantum is connected to one of its inputs (connections to its AudioParams
  do not count, they belong to the params), and either it reported that its tail has ended or it is
  connected to nothing; or
* it is connected to nothing and its processor has no side effects.
So it can neither be heard any more nor be controlled. -/
theorem C06_destroyed_only_when_useless (sem : Sem P S M) (hp : NoPanic sem) {g g' : RGraph P S}
    (w : WF g) {o : S} (hr : g.render sem = some (g', o)) (i : Nat) (n : Node P S)
    (hn : g.slot i = some n) (hgone : g'.slot i = none) :
    ∃ g1, (if g.ordered = [] then g.order else some g) = some g1 ∧
    ∃ n1, g1.slot i = some n1 ∧ n.dropped = true ∧
    ∃ pre post ga na p' outs' tail, g1.ordered = pre ++ i :: post ∧
      RGraph.foldOpt (RGraph.renderNode sem) pre g1 = some ga ∧ ga.slot i = some na ∧
      na.proc = n.proc ∧ na.outputs = n.outputs ∧
      sem.process n.proc na.inputs n.outputs (ga.params i) = some (p', outs', tail) ∧
      ((n1.hasInputs = false ∧
        (∀ j ∈ g1.ordered, ∀ m, g1.slot j = some m → ∀ e ∈ m.edges, e.dst = i → e.port = none) ∧
        (tail = false ∨ n1.edges = [])) ∨
       (n1.edges = [] ∧ sem.sideEffects p' = false)) := by
  obtain ⟨g1, g2, h1, w1, h2, h3, h4, h5⟩ := RGraph.render_spec sem w
  obtain ⟨g1', e1, _, _, _, _, e6, e7⟩ := RGraph.orderedGraph_spec w
  rw [h1] at e1; cases e1
  -- the node after ordering
  obtain ⟨n1, hn1, hproc, hout, hdr⟩ : ∃ n1, g1.slot i = some n1 ∧ n1.proc = n.proc ∧
      n1.outputs = n.outputs ∧ n1.dropped = n.dropped := by
    rcases e7 i n hn with h | ⟨h, _⟩
    · exact ⟨n, h, rfl, rfl, rfl⟩
    · exact ⟨_, h, rfl, rfl, rfl⟩
  have hgone2 : g2.slot i = none := by
    rw [h5] at hr
    cases hd : g2.slot 0 with
    | none => rw [hd] at hr; simp at hr
    | some d =>
      rw [hd] at hr
      simp only [Option.bind_some, Option.map_eq_some_iff, Prod.mk.injEq] at hr
      obtain ⟨o', _, rfl, _⟩ := hr
      exact hgone
  obtain ⟨f1, f2, f3⟩ := RGraph.loop_fate sem w1.nodup g1.ordered g1 g2 (fun _ h => h) w1.nodup
    (RGraph.wf_loopInv w1) h2
  have hi : i ∈ g1.ordered := by
    by_contra hno
    obtain ⟨n', c0, _⟩ := f2 i n1 hno hn1
    rw [hgone2] at c0; simp at c0
  obtain ⟨ga, na, a1, a2, a3, a4, a5, a6, a7, a8, a9, a10, a11, a12⟩ := f3 i n1 hi hn1
  have hfr : ga.freed sem i na = true := by
    by_contra hne
    rw [if_neg hne] at a12
    obtain ⟨n', b, _⟩ := a12
    rw [hgone2] at b; simp at b
  refine ⟨g1, h1, n1, hn1, ?_, ?_⟩
  · have := freed_dropped sem hp hfr
    rw [a8, hdr] at this; exact this
  have hsplit := split_at hi
  have hpre : ∀ j ∈ g1.ordered.takeWhile (· ≠ i), j ∈ g1.ordered :=
    fun j hj => List.takeWhile_subset _ hj
  have hipre : i ∉ g1.ordered.takeWhile (· ≠ i) := by
    intro h; have := List.mem_takeWhile_imp h; simp at this
  have hndp : (g1.ordered.takeWhile (· ≠ i) ++ i :: (g1.ordered.dropWhile (· ≠ i)).tail).Nodup :=
    hsplit ▸ w1.nodup
  have hinv : RGraph.LoopInv g1.ordered
      (g1.ordered.takeWhile (· ≠ i) ++ i :: (g1.ordered.dropWhile (· ≠ i)).tail) g1 :=
    hsplit ▸ RGraph.wf_loopInv w1
  -- edges of the node at its turn are those at the start
  have hedges : na.edges = n1.edges := by
    obtain ⟨n', k1, k2⟩ := loop_edges sem w1.nodup _ _ g1 ga hpre hndp hinv a2 i hipre n1 hn1 (by
      intro e he hmem
      exact takeWhile_before w1.nodup hi hmem (w1.fwd i hi _ (hpre _ hmem) n1 hn1 ⟨e, he, rfl⟩))
    rw [a3] at k1; cases k1; exact k2
  -- inputs of the node at its turn
  have hins : na.hasInputs = false → n1.hasInputs = false ∧ ∀ j ∈ g1.ordered, ∀ m,
      g1.slot j = some m → ∀ e ∈ m.edges, e.dst = i → e.port = none := by
    intro hna
    obtain ⟨n', k1, _, k2⟩ := RGraph.loop_inputs sem w1.nodup _ _ g1 ga hpre hndp hinv a2 i hipre n1 hn1
    rw [a3] at k1; cases k1
    constructor
    · cases hh : n1.hasInputs with
      | false => rfl
      | true => rw [hna] at k2; exact absurd (k2.2 (Or.inl hh)) (by simp)
    · intro j hj m hm e he hd
      by_contra hport
      have hb := before_takeWhile w1.nodup (w1.fwd j hj i hi m hm ⟨e, he, hd⟩)
      obtain ⟨x, hx1, hx2, hx3⟩ := trace_sender sem hp w1.nodup _ _ g1 hpre hndp hinv j hb m hm e he
        (by rw [hd]; exact hipre)
      rw [hna] at k2
      exact absurd (k2.2 (Or.inr ⟨x, hx1, e, hx3, hd, hport⟩)) (by simp)
  rcases RGraph.process_cases sem ga i na with ⟨p', outs', tail, c1, _, c3⟩ | ⟨c1, _⟩
  · refine ⟨_, _, ga, na, p', outs', tail, hsplit, a2, a3, a5.trans hproc, a6.trans hout,
      by rw [← hproc, ← hout, ← a5, ← a6]; exact c1, ?_⟩
    unfold RGraph.freed at hfr
    rw [c3] at hfr
    simp only [Bool.not_true, Bool.false_or, Node.canFree] at hfr
    rw [hedges] at hfr
    split at hfr
    · simp at hfr
    · split at hfr
      · rename_i _ hcond
        simp only [Bool.and_eq_true, Bool.not_eq_true', Bool.or_eq_true, List.isEmpty_iff] at hcond
        left
        obtain ⟨q1, q2⟩ := hins hcond.1
        exact ⟨q1, q2, hcond.2⟩
      · split at hfr
        · rename_i _ _ hcond
          simp only [Bool.and_eq_true, Bool.not_eq_true', List.isEmpty_iff] at hcond
          exact Or.inr ⟨hcond.2, hcond.1⟩
        · simp at hfr
  · exact absurd c1 (hp.1 _ _ _ _)

/-- C06 for arbitrary processors. If a quantum destroys a node, then its processor panicked when it was processed in this
quantum, or its handle has been dropped and: no signal was sent to its inputs in this quantum (`trace` lists the nodes
processed before it with the connections they served) and its tail has ended or it is connected to nothing; or it is
connected to nothing and its processor has no side effects. -/
theorem C06_destroyed_general (sem : Sem P S M) {g g' : RGraph P S}
    (w : WF g) {o : S} (hr : g.render sem = some (g', o)) (i : Nat) (n : Node P S)
    (hn : g.slot i = some n) (hgone : g'.slot i = none) :
    ∃ g1, (if g.ordered = [] then g.order else some g) = some g1 ∧
    ∃ n1, g1.slot i = some n1 ∧
    ∃ pre post ga na, g1.ordered = pre ++ i :: post ∧
      RGraph.foldOpt (RGraph.renderNode sem) pre g1 = some ga ∧ ga.slot i = some na ∧
      na.proc = n.proc ∧ na.outputs = n.outputs ∧
      (sem.process n.proc na.inputs n.outputs (ga.params i) = none ∨
        n.dropped = true ∧ ∃ p' outs' tail,
          sem.process n.proc na.inputs n.outputs (ga.params i) = some (p', outs', tail) ∧
          ((n1.hasInputs = false ∧
            (∀ x ∈ RGraph.trace sem pre g1, ∀ e ∈ x.2.2, e.dst = i → e.port = none) ∧
            (tail = false ∨ n1.edges = [])) ∨
           (n1.edges = [] ∧ sem.sideEffects p' = false))) := by
  obtain ⟨g1, g2, h1, w1, h2, h3, h4, h5⟩ := RGraph.render_spec sem w
  obtain ⟨g1', e1, _, _, _, _, e6, e7⟩ := RGraph.orderedGraph_spec w
  rw [h1] at e1; cases e1
  -- the node after ordering
  obtain ⟨n1, hn1, hproc, hout, hdr⟩ : ∃ n1, g1.slot i = some n1 ∧ n1.proc = n.proc ∧
      n1.outputs = n.outputs ∧ n1.dropped = n.dropped := by
    rcases e7 i n hn with h | ⟨h, _⟩
    · exact ⟨n, h, rfl, rfl, rfl⟩
    · exact ⟨_, h, rfl, rfl, rfl⟩
  have hgone2 : g2.slot i = none := by
    rw [h5] at hr
    cases hd : g2.slot 0 with
    | none => rw [hd] at hr; simp at hr
    | some d =>
      rw [hd] at hr
      simp only [Option.bind_some, Option.map_eq_some_iff, Prod.mk.injEq] at hr
      obtain ⟨o', _, rfl, _⟩ := hr
      exact hgone
  obtain ⟨f1, f2, f3⟩ := RGraph.loop_fate sem w1.nodup g1.ordered g1 g2 (fun _ h => h) w1.nodup
    (RGraph.wf_loopInv w1) h2
  have hi : i ∈ g1.ordered := by
    by_contra hno
    obtain ⟨n', c0, _⟩ := f2 i n1 hno hn1
    rw [hgone2] at c0; simp at c0
  obtain ⟨ga, na, a1, a2, a3, a4, a5, a6, a7, a8, a9, a10, a11, a12⟩ := f3 i n1 hi hn1
  have hfr : ga.freed sem i na = true := by
    by_contra hne
    rw [if_neg hne] at a12
    obtain ⟨n', b, _⟩ := a12
    rw [hgone2] at b; simp at b
  refine ⟨g1, h1, n1, hn1, ?_⟩
  have hsplit := split_at hi
  have hpre : ∀ j ∈ g1.ordered.takeWhile (· ≠ i), j ∈ g1.ordered :=
    fun j hj => List.takeWhile_subset _ hj
  have hipre : i ∉ g1.ordered.takeWhile (· ≠ i) := by
    intro h; have := List.mem_takeWhile_imp h; simp at this
  have hndp : (g1.ordered.takeWhile (· ≠ i) ++ i :: (g1.ordered.dropWhile (· ≠ i)).tail).Nodup :=
    hsplit ▸ w1.nodup
  have hinv : RGraph.LoopInv g1.ordered
      (g1.ordered.takeWhile (· ≠ i) ++ i :: (g1.ordered.dropWhile (· ≠ i)).tail) g1 :=
    hsplit ▸ RGraph.wf_loopInv w1
  -- edges of the node at its turn are those at the start
  have hedges : na.edges = n1.edges := by
    obtain ⟨n', k1, k2⟩ := loop_edges sem w1.nodup _ _ g1 ga hpre hndp hinv a2 i hipre n1 hn1 (by
      intro e he hmem
      exact takeWhile_before w1.nodup hi hmem (w1.fwd i hi _ (hpre _ hmem) n1 hn1 ⟨e, he, rfl⟩))
    rw [a3] at k1; cases k1; exact k2
  -- inputs of the node at its turn
  have hins : na.hasInputs = false → n1.hasInputs = false ∧
      ∀ x ∈ RGraph.trace sem (g1.ordered.takeWhile (· ≠ i)) g1, ∀ e ∈ x.2.2, e.dst = i → e.port = none := by
    intro hna
    obtain ⟨n', k1, _, k2⟩ := RGraph.loop_inputs sem w1.nodup _ _ g1 ga hpre hndp hinv a2 i hipre n1 hn1
    rw [a3] at k1; cases k1
    constructor
    · cases hh : n1.hasInputs with
      | false => rfl
      | true => rw [hna] at k2; exact absurd (k2.2 (Or.inl hh)) (by simp)
    · intro x hx e he hd
      by_contra hport
      rw [hna] at k2
      exact absurd (k2.2 (Or.inr ⟨x, hx, e, he, hd, hport⟩)) (by simp)
  rcases RGraph.process_cases sem ga i na with ⟨p', outs', tail, c1, _, c3⟩ | ⟨c1, _⟩
  · have hdrop : n.dropped = true := by
      rw [← hdr, ← a8]
      unfold RGraph.freed at hfr
      rw [c3] at hfr
      simp only [Bool.not_true, Bool.false_or, Node.canFree] at hfr
      cases hd : na.dropped with
      | true => rfl
      | false => simp [hd] at hfr
    refine ⟨_, _, ga, na, hsplit, a2, a3, a5.trans hproc, a6.trans hout, Or.inr ⟨hdrop, p', outs', tail,
      by rw [← hproc, ← hout, ← a5, ← a6]; exact c1, ?_⟩⟩
    unfold RGraph.freed at hfr
    rw [c3] at hfr
    simp only [Bool.not_true, Bool.false_or, Node.canFree] at hfr
    rw [hedges] at hfr
    split at hfr
    · simp at hfr
    · split at hfr
      · rename_i _ hcond
        simp only [Bool.and_eq_true, Bool.not_eq_true', Bool.or_eq_true, List.isEmpty_iff] at hcond
        left
        obtain ⟨q1, q2⟩ := hins hcond.1
        exact ⟨q1, q2, hcond.2⟩
      · split at hfr
        · rename_i _ _ hcond
          simp only [Bool.and_eq_true, Bool.not_eq_true', List.isEmpty_iff] at hcond
          exact Or.inr ⟨hcond.2, hcond.1⟩
        · simp at hfr
  · exact ⟨_, _, ga, na, hsplit, a2, a3, a5.trans hproc, a6.trans hout,
      Or.inl (by rw [← hproc, ← hout, ← a5, ← a6]; exact c1)⟩

/-- the hypotheses are met by a reachable state: a source without tail, handle dropped, is destroyed -/
example : ∃ s, (Sys.init calmSem 0 cfg0).run calmSem [.acquire, .register 11 4 0 1 cfg0,
      .connect ⟨11, 1, 0, 1⟩ destH 0 0, .drop ⟨11, 1, 0, 1⟩, .recv, .recv, .recv] = some s ∧
    (s.g.slot 11).isSome ∧ ((s.g.render calmSem).bind fun r => r.1.slot 11).isNone ∧
    (s.g.render calmSem).isSome := ⟨_, rfl, by decide +kernel, by decide +kernel, by decide +kernel⟩
/-- ... and one with a tail (odd number) is not -/
example : ∃ s, (Sys.init calmSem 0 cfg0).run calmSem [.acquire, .register 11 5 0 1 cfg0,
      .connect ⟨11, 1, 0, 1⟩ destH 0 0, .drop ⟨11, 1, 0, 1⟩, .recv, .recv, .recv] = some s ∧
    ((s.g.render calmSem).bind fun r => r.1.slot 11).isSome := ⟨_, rfl, by decide +kernel⟩

/-! ## C53: the input of a node -/

/-- signals sent by the nodes of `pre` in this quantum to port `p` of node `i`, in processing order:
for every node the outputs it has just produced, for every one of its connections to the port -/
def sent (sem : Sem P S M) (pre : List Nat) (g : RGraph P S) (i p : Nat) : List S :=
  (RGraph.trace sem pre g).flatMap fun x => x.2.2.filterMap fun e =>
    if e.dst = i ∧ e.port = some p then x.2.1[e.out]? else none

/-- C53 (data flow). When node `i` is processed in a quantum, its processor state and old outputs are
those of the quantum start, and what it finds at input `p` is what was there at the start of the
quantum (silence, see `C53_inputs_reset`) mixed, in processing order, with exactly the signals that
the nodes processed before it have produced in this very quantum. -/
theorem C53_inputs_are_this_quantum (sem : Sem P S M) {g : RGraph P S} (w : WF g) :
    ∃ g1, (if g.ordered = [] then g.order else some g) = some g1 ∧
    ∀ i ∈ g1.ordered, ∃ pre post ga n na, g1.ordered = pre ++ i :: post ∧ i ∉ pre ∧
      RGraph.foldOpt (RGraph.renderNode sem) pre g1 = some ga ∧
      g.slot i = some n ∧ ga.slot i = some na ∧ na.proc = n.proc ∧ na.outputs = n.outputs ∧
      na.cfg = n.cfg ∧
      ∀ p, na.inputs[p]? = (n.inputs[p]?).map fun s =>
        (sent sem pre g1 i p).foldl (sem.add n.cfg) s := by
  obtain ⟨g1, h1, w1, _, _, _, e6, e7⟩ := RGraph.orderedGraph_spec w
  refine ⟨g1, h1, ?_⟩
  intro i hi
  obtain ⟨n1, hn1⟩ := w1.mem i hi
  obtain ⟨n, hn, q1, q2, q3, q4⟩ : ∃ n, g.slot i = some n ∧ n1.proc = n.proc ∧
      n1.outputs = n.outputs ∧ n1.cfg = n.cfg ∧ n1.inputs = n.inputs := by
    cases hs : g.slot i with
    | none => rw [e6 i hs] at hn1; simp at hn1
    | some n =>
      rcases e7 i n hs with h | ⟨h, _⟩ <;> rw [hn1] at h <;> cases h
      · exact ⟨_, rfl, rfl, rfl, rfl, rfl⟩
      · exact ⟨n, rfl, rfl, rfl, rfl, rfl⟩
  have hsplit := split_at hi
  have hipre : i ∉ g1.ordered.takeWhile (· ≠ i) := by
    intro h; have := List.mem_takeWhile_imp h; simp at this
  have hpre : ∀ j ∈ g1.ordered.takeWhile (· ≠ i), j ∈ g1.ordered :=
    fun j hj => List.takeWhile_subset _ hj
  have hndp : (g1.ordered.takeWhile (· ≠ i) ++ i :: (g1.ordered.dropWhile (· ≠ i)).tail).Nodup :=
    hsplit ▸ w1.nodup
  have hinv : RGraph.LoopInv g1.ordered
      (g1.ordered.takeWhile (· ≠ i) ++ i :: (g1.ordered.dropWhile (· ≠ i)).tail) g1 :=
    hsplit ▸ RGraph.wf_loopInv w1
  obtain ⟨ga, k1, k2⟩ := RGraph.loop_spec sem w1.nodup _ _ g1 hpre hndp hinv
  obtain ⟨na, l1, l2, _⟩ := RGraph.loop_inputs sem w1.nodup _ _ g1 ga hpre hndp hinv k1 i hipre n1 hn1
  have hinv2 : RGraph.LoopInv g1.ordered (g1.ordered.takeWhile (· ≠ i)) g1 :=
    ⟨hinv.toWFe, rfl, fun j hj => hinv.mem j (by simp only [List.mem_append]; exact Or.inl hj), hinv.fwd⟩
  obtain ⟨_, m2, _⟩ := RGraph.loop_fate sem w1.nodup _ g1 ga hpre (List.nodup_append.1 hndp).1 hinv2 k1
  obtain ⟨na', t0, t1, t2, t3, t4, _⟩ := m2 i n1 hipre hn1
  rw [l1] at t0; cases t0
  refine ⟨_, _, ga, n, na, hsplit, hipre, k1, hn, l1, t2.trans q1, t3.trans q2, t4.trans q3, ?_⟩
  intro p
  rw [l2 p, q4, q3]
  rfl

/-- C53 (reset). After a quantum all inputs of every node that has been processed in it are silent,
and none of them is marked as having input. -/
theorem C53_inputs_reset_partial (sem : Sem P S M) {g g' : RGraph P S} (w : WF g) {o : S}
    (hr : g.render sem = some (g', o)) (i : Nat) (hi : i ∈ g'.ordered) :
    ∃ n, g'.slot i = some n ∧ n.hasInputs = false ∧ ∀ s ∈ n.inputs, s = sem.silence := by
  obtain ⟨g1, g2, h1, w1, h2, h3, h4, h5⟩ := RGraph.render_spec sem w
  rw [h5] at hr
  cases hd : g2.slot 0 with
  | none => rw [hd] at hr; simp at hr
  | some d =>
    rw [hd] at hr
    simp only [Option.bind_some, Option.map_eq_some_iff, Prod.mk.injEq] at hr
    obtain ⟨o', _, rfl, _⟩ := hr
    obtain ⟨r1, r2, r3⟩ := RGraph.loop_reclaimed sem w1.nodup g1.ordered g1 g2 (fun _ h => h) w1.nodup
      (RGraph.wf_loopInv w1) h2
    obtain ⟨hi1, hi2⟩ := List.mem_filter.1 hi
    rw [r3] at hi1
    have hsplit := split_at hi1
    have hpre : ∀ j ∈ g1.ordered.takeWhile (· ≠ i), j ∈ g1.ordered :=
      fun j hj => List.takeWhile_subset _ hj
    have hndp : (g1.ordered.takeWhile (· ≠ i) ++ i :: (g1.ordered.dropWhile (· ≠ i)).tail).Nodup :=
      hsplit ▸ w1.nodup
    have hinv : RGraph.LoopInv g1.ordered
        (g1.ordered.takeWhile (· ≠ i) ++ i :: (g1.ordered.dropWhile (· ≠ i)).tail) g1 :=
      hsplit ▸ RGraph.wf_loopInv w1
    obtain ⟨ga, k1, k2⟩ := RGraph.loop_spec sem w1.nodup _ _ g1 hpre hndp hinv
    have hnd2 := (List.nodup_append.1 hndp).2.1
    obtain ⟨nn, gb, c1, c2, c3, c4, c5⟩ := RGraph.loop_step sem w1.nodup hi1 hnd2 k2
    rw [hsplit, RGraph.foldOpt_append, k1] at h2
    simp only [Option.bind_some, RGraph.foldOpt, c3] at h2
    have hpost : ∀ j ∈ (g1.ordered.dropWhile (· ≠ i)).tail, j ∈ g1.ordered := fun j hj => by
      rw [hsplit]; exact List.mem_append_right _ (List.mem_cons_of_mem _ hj)
    have hndq := List.nodup_cons.1 hnd2
    have hself := c4.self
    by_cases hf : ga.freed sem i nn = true
    · rw [if_pos hf] at hself
      obtain ⟨f1, _, _⟩ := RGraph.loop_fate sem w1.nodup _ gb g2 hpost hndq.2 c5 h2
      rw [f1 i hself] at hi2; simp at hi2
    · rw [if_neg hf] at hself
      obtain ⟨n', l1, l2, l3⟩ := RGraph.loop_inputs sem w1.nodup _ [] gb g2 hpost
        (by simpa using hndq.2) (by simpa using c5) h2 i hndq.1 _ hself
      -- nothing is sent to an earlier node
      have hnone : ∀ x ∈ RGraph.trace sem (g1.ordered.dropWhile (· ≠ i)).tail gb, ∀ e ∈ x.2.2,
          e.dst ≠ i := by
        have gen : ∀ (todo : List Nat) (gx : RGraph P S), (∀ j ∈ todo, j ∈ (g1.ordered.dropWhile (· ≠ i)).tail) →
            todo.Nodup → RGraph.LoopInv g1.ordered todo gx →
            ∀ x ∈ RGraph.trace sem todo gx, ∀ e ∈ x.2.2, e.dst ≠ i := by
          intro todo
          induction todo with
          | nil => intro gx _ _ _ x hx; simp [RGraph.trace] at hx
          | cons a todo ih =>
            intro gx hsub hnd hinvx x hx e he hdst
            obtain ⟨nx, gy, y1, y2, y3, y4, y5⟩ := RGraph.loop_step sem w1.nodup (hpost a (hsub a (by simp))) hnd hinvx
            simp only [RGraph.trace, y1, y3, List.mem_cons] at hx
            rcases hx with rfl | hx
            · have hmem : e ∈ nx.edges := by
                rcases RGraph.process_edges sem (g := gx) a nx with hh | hh
                · simp only [hh] at he; exact he
                · simp only [hh] at he; simp at he
              have hb := hinvx.fwd a (hpost a (hsub a (by simp))) i hi1 nx y1 ⟨e, hmem, hdst⟩
              have h6 := before_takeWhile w1.nodup hb
              have h7 : a ∈ (g1.ordered.dropWhile (· ≠ i)).tail := hsub a (by simp)
              exact (List.nodup_append.1 hndp).2.2 a h6 a (List.mem_cons_of_mem _ h7) rfl
            · exact ih gy (fun j hj => hsub j (by simp [hj])) (List.nodup_cons.1 hnd).2 y5 x hx e he hdst
        exact gen _ gb (fun j hj => hj) hndq.2 c5
      have harr : ∀ p, RGraph.arrived (RGraph.trace sem (g1.ordered.dropWhile (· ≠ i)).tail gb) i p = [] := by
        intro p
        rw [RGraph.arrived, List.flatMap_eq_nil_iff]
        intro x hx
        rw [RGraph.contrib, List.filterMap_eq_nil_iff]
        intro e he
        rw [if_neg (fun h => hnone x hx e he h.1)]
      refine ⟨n', l1, ?_, ?_⟩
      · cases hh : n'.hasInputs with
        | false => rfl
        | true =>
          rcases l3.1 hh with h8 | ⟨x, hx, e, he, hd', _⟩
          · simp at h8
          · exact absurd hd' (hnone x hx e he)
      · intro s hs
        obtain ⟨p, hplt, hpe⟩ := List.getElem_of_mem hs
        have := l2 p
        rw [harr p] at this
        simp only [List.foldl_nil, Option.map_id', List.getElem?_map] at this
        rw [List.getElem?_eq_getElem hplt, hpe] at this
        cases hq : nn.inputs[p]? with
        | none => rw [hq] at this; simp at this
        | some v => rw [hq] at this; simpa using this

/-- C53 is violated for nodes left out of the order: a gain (id 12, processor 0) is part of a
delay-free cycle with node 13 and is fed by source 11 (signal 5). While the cycle exists its input
accumulates one signal per quantum; when the cycle is removed after three quanta the destination
receives 20 instead of 5 in one quantum. -/
theorem C53_negated :
    let ops : List (Op Nat Nat) := [.acquire, .register 11 5 0 1 cfg0, .acquire,
      .register 12 0 1 1 cfg0, .acquire, .register 13 0 1 1 cfg0,
      .connect ⟨11, 1, 0, 1⟩ ⟨12, 2, 1, 1⟩ 0 0, .connect ⟨12, 2, 1, 1⟩ ⟨13, 3, 1, 1⟩ 0 0,
      .connect ⟨13, 3, 1, 1⟩ ⟨12, 2, 1, 1⟩ 0 0, .connect ⟨12, 2, 1, 1⟩ destH 0 0,
      .recv, .recv, .recv, .recv, .recv, .recv, .recv, .quantum, .quantum, .quantum]
    let unplug : List (Op Nat Nat) := [.disconnect ⟨13, 3, 1, 1⟩ none none none, .recv, .quantum]
    heard ((Sys.init calmSem 0 cfg0).run calmSem ops) = some [0] ∧
    heard ((Sys.init calmSem 0 cfg0).run calmSem (ops ++ unplug)) = some [20] ∧
    heard ((Sys.init calmSem 0 cfg0).run calmSem (ops ++ unplug ++ [.quantum])) = some [5] := by
  decide +kernel

/-- C55 (a muted destination is silent) is violated: the destination plays 5; then it is made part of
a delay-free cycle, is muted, and keeps emitting the last buffer in every quantum. -/
theorem C55_negated :
    let ops : List (Op Nat Nat) := [.acquire, .register 11 5 0 1 cfg0, .acquire,
      .register 12 0 1 1 cfg0, .connect ⟨11, 1, 0, 1⟩ destH 0 0,
      .recv, .recv, .recv, .quantum]
    let cycle : List (Op Nat Nat) := [.connect destH ⟨12, 2, 1, 1⟩ 0 0,
      .connect ⟨12, 2, 1, 1⟩ destH 0 0, .disconnect ⟨11, 1, 0, 1⟩ none none none, .recv, .recv, .recv]
    heard ((Sys.init calmSem 0 cfg0).run calmSem ops) = some [5] ∧
    heard ((Sys.init calmSem 0 cfg0).run calmSem
      (ops ++ cycle ++ [.quantum, .quantum, .quantum, .quantum])) = some [5] := by
  decide +kernel

/-- C55, the part that holds: a muted destination emits the buffer it was left with, and keeps it. So it is silent if its
last output was silent, in particular if it has never been processed. (Missing: silence in all other cases.) -/
theorem C55_muted_partial (sem : Sem P S M) {g g' g1 : RGraph P S} (w : WF g) {o : S}
    (hr : g.render sem = some (g', o)) (h1 : (if g.ordered = [] then g.order else some g) = some g1)
    (hmuted : 0 ∉ g1.ordered) :
    ∃ d d', g.slot 0 = some d ∧ d.outputs.head? = some o ∧ g'.slot 0 = some d' ∧ d'.outputs = d.outputs ∧
      (d.outputs = [sem.silence] → o = sem.silence) := by
  obtain ⟨g1', g2, k1, w1, h2, h3, h4, h5⟩ := RGraph.render_spec sem w
  obtain ⟨g1'', e1, _, _, _, _, e6, e7⟩ := RGraph.orderedGraph_spec w
  rw [k1] at e1; cases e1
  have : g1 = g1' := by
    have : g.orderedGraph = some g1 := h1
    rw [k1] at this; cases this; rfl
  subst this
  obtain ⟨f1, f2, f3⟩ := RGraph.loop_fate sem w1.nodup g1.ordered g1 g2 (fun _ h => h) w1.nodup
    (RGraph.wf_loopInv w1) h2
  rw [h5] at hr
  cases hd : g2.slot 0 with
  | none => rw [hd] at hr; simp at hr
  | some d' =>
    rw [hd] at hr
    simp only [Option.bind_some, Option.map_eq_some_iff, Prod.mk.injEq] at hr
    obtain ⟨o', ho, rfl, rfl⟩ := hr
    cases hg : g.slot 0 with
    | none => have := f1 0 (e6 0 hg); rw [hd] at this; simp at this
    | some d =>
      obtain ⟨n1, hn1, hout⟩ : ∃ n1, g1.slot 0 = some n1 ∧ n1.outputs = d.outputs := by
        rcases e7 0 d hg with h | ⟨h, _⟩
        · exact ⟨d, h, rfl⟩
        · exact ⟨_, h, rfl⟩
      obtain ⟨n', c0, c1, c2, c3, _⟩ := f2 0 n1 hmuted hn1
      rw [hd] at c0; cases c0
      refine ⟨d, d', rfl, by rw [← hout, ← c3]; exact ho, hd, c3.trans hout, ?_⟩
      intro hs
      rw [c3, hout, hs] at ho
      simpa using ho.symm

/-- a destination that is on a cycle from the beginning is silent -/
example : ∃ s, (Sys.init calmSem 5 cfg0).run calmSem [.acquire, .register 11 4 1 1 cfg0,
      .connect ⟨11, 1, 1, 1⟩ destH 0 0, .connect destH ⟨11, 1, 1, 1⟩ 0 0, .recv, .recv, .recv] = some s ∧
    (if s.g.ordered = [] then s.g.order else some s.g).any (fun g1 => decide (0 ∉ g1.ordered)) = true ∧
    (s.g.render calmSem).map (·.2) = some 0 := ⟨_, rfl, by decide +kernel, by decide +kernel⟩

end Verif.Render
