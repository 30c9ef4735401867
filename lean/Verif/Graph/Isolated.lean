import Verif.Graph.AnyOrder

/-!
# What is not connected to the destination is not heard (C99)

A part `U` of the graph (meters, analysers, sources that are prepared, …) that is fed by the rest but
has no connection into it cannot be heard: the sound is the same as if nothing of `U` had been created,
connected, controlled or dropped, whatever its processors do, panics included.
-/

namespace Verif.Render

open Verif.Graph Relation

variable {P S M : Type}

/-- Same node, without the connections that lead into `U` and with the others in any order. -/
structure NodeAgree (U : Nat → Bool) (n m : Node P S) : Prop where
  proc : m.proc = n.proc
  inputs : m.inputs = n.inputs
  outputs : m.outputs = n.outputs
  cfg : m.cfg = n.cfg
  dropped : m.dropped = n.dropped
  hasInputs : m.hasInputs = n.hasInputs
  edges : m.edges.Perm (n.edges.filter fun e => !U e.dst)

/-- `h` is the graph `g` without the nodes in `U`, which have no connections to the others. -/
structure Agree (U : Nat → Bool) (g h : RGraph P S) : Prop where
  away : ∀ i, U i = true → h.slot i = none
  noOut : ∀ i n, U i = true → g.slot i = some n → ∀ e ∈ n.edges, U e.dst = true
  none : ∀ i, U i = false → g.slot i = none → h.slot i = none
  some : ∀ i n, U i = false → g.slot i = some n → ∃ m, h.slot i = some m ∧ NodeAgree U n m

theorem Agree.back {U : Nat → Bool} {g h : RGraph P S} (a : Agree U g h) {i : Nat} {m : Node P S}
    (hm : h.slot i = Option.some m) : U i = false ∧ ∃ n, g.slot i = Option.some n ∧ NodeAgree U n m := by
  cases hu : U i with
  | true => rw [a.away i hu] at hm; simp at hm
  | false =>
    cases hs : g.slot i with
    | none => rw [a.none i hu hs] at hm; simp at hm
    | some n =>
      obtain ⟨m', h1, h2⟩ := a.some i n hu hs
      rw [hm] at h1; cases h1
      exact ⟨rfl, n, rfl, h2⟩

theorem Agree.like {U : Nat → Bool} {g h k : RGraph P S} (a : Agree U g h) (l : Like h k) : Agree U g k := by
  refine ⟨fun i hi => l.none i (a.away i hi), a.noOut, fun i hi hs => l.none i (a.none i hi hs), fun i n hi hn => ?_⟩
  obtain ⟨m, h1, h2⟩ := a.some i n hi hn
  obtain ⟨x, h3, h4⟩ := l.some i m h1
  exact ⟨x, h3, ⟨h4.proc.trans h2.proc, h4.inputs.trans h2.inputs, h4.outputs.trans h2.outputs, h4.cfg.trans h2.cfg,
    h4.dropped.trans h2.dropped, h4.hasInputs.trans h2.hasInputs, h4.edges.trans h2.edges⟩⟩

namespace RGraph

variable (sem : Sem P S M)

theorem contrib_filter (U : Nat → Bool) (outs : List S) (es : List Edge) {k : Nat} (hk : U k = false) (p : Nat) :
    contrib outs (es.filter fun e => !U e.dst) k p = contrib outs es k p := by
  unfold contrib
  rw [List.filterMap_filter]
  congr 1
  funext e
  by_cases h : e.dst = k
  · subst h; simp [hk]
  · simp [h]

/-- a step of a node in `U` is not noticed by the others -/
theorem step_outside {U : Nat → Bool} {g h g' : RGraph P S} (a : Agree U g h) {i : Nat} (hi : U i = true)
    {n : Node P S} (hn : g.slot i = some n) (s : NodeStep sem g i n g') : Agree U g' h := by
  refine ⟨a.away, fun k m' hk hm' e he => ?_, fun k hk hs => ?_, fun k m' hk hm' => ?_⟩
  · obtain ⟨m, hm0, _, _, _, _, _, _, b7, _⟩ := s.back sem hn hm'
    exact a.noOut k m hk hm0 e (b7 e he)
  · have hki : k ≠ i := by rintro rfl; rw [hi] at hk; simp at hk
    cases hs0 : g.slot k with
    | none => exact a.none k hk hs0
    | some m => obtain ⟨m1, h1, _⟩ := s.some k m hki hs0; rw [hs] at h1; simp at h1
  · have hki : k ≠ i := by rintro rfl; rw [hi] at hk; simp at hk
    cases hs0 : g.slot k with
    | none => rw [s.none k hki hs0] at hm'; simp at hm'
    | some m =>
      obtain ⟨x, hx, hl⟩ := a.some k m hk hs0
      obtain ⟨m1, x0, x1, x2, x3, x4, x5, x6, x7, x8, x9, x10⟩ := s.some k m hki hs0
      rw [hm'] at x0; cases x0
      have hpe : ∀ e ∈ (g.process sem i n).1.edges, e.dst ≠ k := by
        intro e he hd
        have he' : e ∈ n.edges := by
          rcases process_edges sem (g := g) i n with h | h <;> rw [h] at he
          · exact he
          · simp at he
        have := a.noOut i n hi hn e he'
        rw [hd, hk] at this; simp at this
      refine ⟨x, hx, ⟨by rw [x2, hl.proc], ?_, by rw [x3, hl.outputs], by rw [x4, hl.cfg], by rw [x5, hl.dropped], ?_, ?_⟩⟩
      · rw [hl.inputs]
        apply List.ext_getElem?
        intro p
        rw [x10]
        have : contrib (g.process sem i n).1.outputs (g.process sem i n).1.edges k p = [] := by
          unfold contrib
          rw [List.filterMap_eq_nil_iff]
          intro e he
          rw [if_neg (fun h => hpe e he h.1)]
        rw [this]; simp
      · rw [hl.hasInputs, Bool.eq_iff_iff, x9]
        exact ⟨Or.inl, fun h => h.elim id (fun ⟨e, h1, h2, _⟩ => absurd h2 (hpe e h1))⟩
      · refine hl.edges.trans (List.Perm.of_eq ?_)
        rw [x8]
        split
        · rw [List.filter_filter]
          congr 1
          funext e
          by_cases hd : e.dst = i
          · simp [hd, hi]
          · simp [hd]
        · rfl

/-- a step of a node outside of `U`, in both graphs -/
theorem step_inside {ok : S → Prop} {reads : P → Nat → Prop} (ho : Orderly sem ok reads) {U : Nat → Bool}
    {g h g' h' : RGraph P S} (hok : OkG ok g) (wg : WFe g) (wh : WFe h) (a : Agree U g h) {i : Nat} (hi : U i = false)
    {n m : Node P S} (hn : g.slot i = some n) (hm : h.slot i = some m)
    (hr : ∀ j, reads n.proc j → U j = false ∨ g.slot j = none)
    (ht : n.dropped = true → (∃ e ∈ n.edges, U e.dst = true) → ∃ e ∈ n.edges, U e.dst = false)
    (sg : NodeStep sem g i n g') (sh : NodeStep sem h i m h') : Agree U g' h' := by
  have hl : NodeAgree U n m := by
    obtain ⟨m', h1, h2⟩ := a.some i n hi hn
    rw [hm] at h1; cases h1; exact h2
  have hpar : sem.process m.proc m.inputs m.outputs (h.params i) =
      sem.process n.proc n.inputs n.outputs (g.params i) := by
    rw [hl.proc, hl.inputs, hl.outputs]
    refine ho.reads _ _ _ _ _ fun j hj => ?_
    unfold params
    rw [get_eq_slot wg, get_eq_slot wh]
    split
    · rfl
    · cases hs : g.slot j with
      | none =>
        cases hu : U j with
        | true => rw [a.away j hu]
        | false => rw [a.none j hu hs]
      | some x =>
        rcases hr j hj with hu | hu
        · obtain ⟨y, hy, hxy⟩ := a.some j x hu hs
          rw [hy]; simp [hxy.outputs]
        · rw [hs] at hu; simp at hu
  -- what the processors did
  have hemp : n.dropped = true → m.edges.isEmpty = n.edges.isEmpty := by
    intro hd
    rw [Bool.eq_iff_iff, List.isEmpty_iff, List.isEmpty_iff]
    constructor
    · intro he
      have h1 : ∀ e ∈ n.edges, U e.dst = true := by
        intro e he'
        cases hu : U e.dst with
        | true => rfl
        | false =>
          have : e ∈ m.edges := hl.edges.mem_iff.2 (List.mem_filter.2 ⟨he', by simp [hu]⟩)
          rw [he] at this; simp at this
      cases hnd : n.edges with
      | nil => rfl
      | cons e es =>
        obtain ⟨e', h2, h3⟩ := ht hd ⟨e, by simp [hnd], h1 e (by simp [hnd])⟩
        rw [h1 e' h2] at h3; simp at h3
    · intro he
      have := hl.edges
      rw [he] at this
      simpa using this
  have key : (h.process sem i m).1.proc = (g.process sem i n).1.proc ∧
      (h.process sem i m).1.outputs = (g.process sem i n).1.outputs ∧
      (h.process sem i m).1.edges.Perm ((g.process sem i n).1.edges.filter fun e => !U e.dst) ∧
      h.freed sem i m = g.freed sem i n := by
    unfold freed process
    rw [hpar]
    cases hp : sem.process n.proc n.inputs n.outputs (g.params i) with
    | none => exact ⟨hl.proc, hl.outputs, .refl _, rfl⟩
    | some r =>
      obtain ⟨p, outs, tail⟩ := r
      refine ⟨rfl, rfl, hl.edges, ?_⟩
      simp only [Bool.not_true, Bool.false_or, Node.canFree, hl.dropped, hl.hasInputs]
      cases hd : n.dropped with
      | false => rfl
      | true => rw [hemp hd]
  obtain ⟨k1, k2, k3, k4⟩ := key
  have hrest := process_rest sem (g := g) i n
  have hrest' := process_rest sem (g := h) i m
  refine ⟨fun k hk => ?_, fun k x' hk hx' e he => ?_, fun k hk hs => ?_, fun k x' hk hx' => ?_⟩
  · have hki : k ≠ i := by rintro rfl; rw [hi] at hk; simp at hk
    exact sh.none k hki (a.away k hk)
  · obtain ⟨x, hx0, _, _, _, _, _, _, b7, _⟩ := sg.back sem hn hx'
    exact a.noOut k x hk hx0 e (b7 e he)
  · by_cases hki : k = i
    · subst hki
      rw [sg.self] at hs
      rw [sh.self, k4]
      split at hs
      · rename_i h1; simp [h1]
      · simp at hs
    · cases hs0 : g.slot k with
      | none => exact sh.none k hki (a.none k hk hs0)
      | some x => obtain ⟨x1, h1, _⟩ := sg.some k x hki hs0; rw [hs] at h1; simp at h1
  · by_cases hki : k = i
    · subst hki
      rw [sg.self] at hx'
      rw [sh.self, k4]
      split at hx'
      · simp at hx'
      · rename_i h1
        cases hx'
        rw [if_neg h1]
        exact ⟨_, rfl, ⟨k1, by simp [hl.inputs], k2, by simp only; rw [hrest.2.1, hrest'.2.1, hl.cfg],
          by simp only; rw [hrest.2.2.1, hrest'.2.2.1, hl.dropped], rfl, k3⟩⟩
    · cases hs0 : g.slot k with
      | none => rw [sg.none k hki hs0] at hx'; simp at hx'
      | some x =>
        obtain ⟨y, hy, hxy⟩ := a.some k x hk hs0
        obtain ⟨x1, x0, _, x2, x3, x4, x5, x6, x7, x8, x9, x10⟩ := sg.some k x hki hs0
        obtain ⟨y1, y0, _, y2, y3, y4, y5, y6, y7, y8, y9, y10⟩ := sh.some k y hki hy
        rw [hx'] at x0; cases x0
        refine ⟨y1, y0, ⟨by rw [y2, x2, hxy.proc], ?_, by rw [y3, x3, hxy.outputs], by rw [y4, x4, hxy.cfg],
          by rw [y5, x5, hxy.dropped], ?_, ?_⟩⟩
        · apply List.ext_getElem?
          intro p
          rw [y10, x10, hxy.inputs, hxy.cfg]
          cases hp : x.inputs[p]? with
          | none => rfl
          | some s =>
            simp only [Option.map_some]
            rw [k2]
            congr 1
            have h1 := contrib_perm (g.process sem i n).1.outputs k3 k p
            rw [contrib_filter U _ _ hk] at h1
            refine (fold_perm ho _ h1.symm s ?_ ?_).symm
            · exact contrib_ok (process_ok sem ho hok hn) _ _ _
            · exact (hok k x hs0).1 s (List.mem_of_getElem? hp)
        · refine bool_iff x9 y9 ?_
          rw [hxy.hasInputs]
          refine or_congr Iff.rfl ⟨fun ⟨e, h1, h2⟩ => ⟨e, (List.mem_filter.1 (k3.mem_iff.1 h1)).1, h2⟩,
            fun ⟨e, h1, h2⟩ => ⟨e, k3.mem_iff.2 (List.mem_filter.2 ⟨h1, by rw [h2.1, hk]; rfl⟩), h2⟩⟩
        · rw [y8, x8, k4]
          split
          · refine (hxy.edges.filter _).trans (List.Perm.of_eq ?_)
            rw [List.filter_filter, List.filter_filter]
            congr 1
            funext e
            rw [Bool.and_comm]
          · exact hxy.edges

variable {ok : S → Prop} {reads : P → Nat → Prop}

/-- the loop over all nodes, and over those outside of `U` only -/
theorem fold_agree (ho : Orderly sem ok reads) {U : Nat → Bool} {E E' : Nat → Nat → Prop} :
    ∀ (L : List Nat) (g h : RGraph P S), Agree U g h → Ready ok reads E L g →
    Ready ok reads E' (L.filter fun i => !U i) h → L.Pairwise (fun u v => ¬ E v u) →
    (∀ i ∈ L, U i = false → ∀ n, g.slot i = some n → ∀ j, reads n.proc j → U j = false ∨ g.slot j = none) →
    (∀ i ∈ L, U i = false → ∀ n, g.slot i = some n → n.dropped = true → (∃ e ∈ n.edges, U e.dst = true) →
      ∃ e ∈ n.edges, U e.dst = false) →
    ∃ a b, foldOpt (renderNode sem) L g = some a ∧ foldOpt (renderNode sem) (L.filter fun i => !U i) h = some b ∧
      Agree U a b ∧ OkG ok b := by
  intro L
  induction L with
  | nil => exact fun g h a r r' _ _ _ => ⟨g, h, rfl, rfl, a, r'.ok⟩
  | cons i L ih =>
    intro g h a r r' hpw hrd htap
    obtain ⟨hp1, hp2⟩ := List.pairwise_cons.1 hpw
    obtain ⟨n, g1, hn, hr1, s1, r1⟩ := r.step sem ho
    have hne : ∀ j ∈ L, j ≠ i := by rintro j hj rfl; exact (List.nodup_cons.1 r.nodup).1 hj
    -- nodes still to come are unchanged but for their inputs
    have keep : ∀ j ∈ L, ∀ m', g1.slot j = some m' → ∃ m, g.slot j = some m ∧ m'.proc = m.proc ∧
        m'.dropped = m.dropped ∧ m'.edges = m.edges := by
      intro j hj m' hm'
      obtain ⟨m, hm⟩ := r.here j (by simp [hj])
      obtain ⟨m1, x0, x1, x2, x3, x4, x5, x6, x7, x8, _⟩ := s1.some j m (hne j hj) hm
      rw [hm'] at x0; cases x0
      refine ⟨m, hm, x2, x5, ?_⟩
      rw [x8]
      split
      · rw [List.filter_eq_self]
        intro e he
        have : e.dst ≠ i := fun hd => hp1 j hj (by have := r.under j m hm e he; rwa [hd] at this)
        simpa using this
      · rfl
    have hrd' : ∀ j ∈ L, U j = false → ∀ m', g1.slot j = some m' → ∀ k, reads m'.proc k →
        U k = false ∨ g1.slot k = none := by
      intro j hj hu m' hm' k hk
      obtain ⟨m, hm, e1, _⟩ := keep j hj m' hm'
      rcases hrd j (by simp [hj]) hu m hm k (by rw [← e1]; exact hk) with h | h
      · exact .inl h
      · by_cases hki : k = i
        · subst hki; rw [hn] at h; simp at h
        · exact .inr (s1.none k hki h)
    have htap' : ∀ j ∈ L, U j = false → ∀ m', g1.slot j = some m' → m'.dropped = true →
        (∃ e ∈ m'.edges, U e.dst = true) → ∃ e ∈ m'.edges, U e.dst = false := by
      intro j hj hu m' hm' hd he
      obtain ⟨m, hm, _, e2, e3⟩ := keep j hj m' hm'
      rw [e3] at he ⊢
      exact htap j (by simp [hj]) hu m hm (by rw [← e2]; exact hd) he
    cases hu : U i with
    | true =>
      have hf : (i :: L).filter (fun i => !U i) = L.filter fun i => !U i := by simp [hu]
      rw [hf] at r' ⊢
      obtain ⟨x, y, h1, h2, h3, h4⟩ := ih g1 h (step_outside sem a hu hn s1) r1 r' hp2 hrd' htap'
      exact ⟨x, y, by simp only [foldOpt, hr1]; exact h1, h2, h3, h4⟩
    | false =>
      have hf : (i :: L).filter (fun i => !U i) = i :: L.filter fun i => !U i := by simp [hu]
      rw [hf] at r' ⊢
      obtain ⟨m, h1', hm, hr2, s2, r2⟩ := r'.step sem ho
      obtain ⟨x, y, h1, h2, h3, h4⟩ := ih g1 h1'
        (step_inside sem ho r.ok r.toWFe r'.toWFe a hu hn hm (hrd i (by simp) hu n hn) (htap i (by simp) hu n hn) s1 s2)
        r1 r2 hp2 hrd' htap'
      exact ⟨x, y, by simp only [foldOpt, hr1]; exact h1, by simp only [foldOpt, hr2]; exact h2, h3, h4⟩

end RGraph

/-! ## One quantum -/

theorem ordered_slot {g g1 : RGraph P S} (w : WF g) (hac : Acyclic g) (h : g.orderedGraph = some g1) :
    WF g1 ∧ g1.slot = g.slot := by
  obtain ⟨g1', h1, h2, h3, _, _, h6, h7⟩ := RGraph.orderedGraph_spec w
  rw [h] at h1; cases h1
  refine ⟨h2, funext fun i => ?_⟩
  cases hs : g.slot i with
  | none => exact h6 i hs
  | some n =>
    rcases h7 i n hs with h | ⟨_, _, hc⟩
    · exact h
    · refine absurd (TransGen.mono (r := g.topo.Edge) ?_ i i hc) (hac i)
      rintro u v ⟨hu, hv⟩
      obtain ⟨m, hm⟩ := (RGraph.mem_keys w.toWFe u).1 hu
      simp only [RGraph.topo, hm, List.mem_map] at hv
      exact ⟨m, hm, hv⟩

theorem Agree.congr {U : Nat → Bool} {g h g' h' : RGraph P S} (a : Agree U g h) (e1 : g'.slot = g.slot)
    (e2 : h'.slot = h.slot) : Agree U g' h' := by
  refine ⟨?_, ?_, ?_, ?_⟩
  · rw [e2]; exact a.away
  · rw [e1]; exact a.noOut
  · rw [e1, e2]; exact a.none
  · rw [e1, e2]; exact a.some

/-- No node is kept in the graph only by a connection into `U`: if its handle is gone it has another connection. -/
def Tapped (U : Nat → Bool) (g : RGraph P S) : Prop :=
  ∀ i n, U i = false → g.slot i = some n → n.dropped = true → (∃ e ∈ n.edges, U e.dst = true) →
    ∃ e ∈ n.edges, U e.dst = false

theorem fit_ready {ok : S → Prop} {reads : P → Nat → Prop} {g g1 : RGraph P S} (hok : OkG ok g) (fg : Fit reads g)
    (w1 : WF g1) (hs : g1.slot = g.slot) (a2 : g1.ordered.Nodup) (a3 : ∀ i, i ∈ g1.ordered ↔ (g.slot i).isSome) :
    RGraph.Ready ok reads (Joined g) g1.ordered g1 := by
  refine ⟨w1.toWFe, fun i n hn => hok i n (by rw [← hs]; exact hn), fun u n hn e he => ⟨n, by rw [← hs]; exact hn, e, he, rfl⟩,
    a2, w1.mem, fun i _ hj => fg.acyclic i (.single hj), fun i hi n hn j hj hr => ?_⟩
  exact fg.wired i n (by rw [← hs]; exact hn) j hr ((a3 j).1 hj)

theorem render_agree {sem : Sem P S M} {ok : S → Prop} {reads : P → Nat → Prop} (ho : Orderly sem ok reads)
    {U : Nat → Bool} (h0 : U 0 = false) {g h : RGraph P S} (a : Agree U g h) (hok : OkG ok g) (hok' : OkG ok h)
    (fg : Fit reads g) (fh : Fit reads h) (ht : Tapped U g) {g' h' : RGraph P S} {o o' : S}
    (rg : g.render sem = some (g', o)) (rh : h.render sem = some (h', o')) :
    o = o' ∧ Agree U g' h' ∧ OkG ok g' ∧ OkG ok h' := by
  obtain ⟨g1, g2, a1, a2, a3, a4, _⟩ := C05_every_node_processed_partial sem fg.wf fg.complete fg.acyclic
  obtain ⟨h1, h2, b1, b2, b3, b4, _⟩ := C05_every_node_processed_partial sem fh.wf fh.complete fh.acyclic
  obtain ⟨wg1, sg1⟩ := ordered_slot fg.wf fg.acyclic a1
  obtain ⟨wh1, sh1⟩ := ordered_slot fh.wf fh.acyclic b1
  have rdg := fit_ready hok fg wg1 sg1 a2 a3
  have rdh := fit_ready hok' fh wh1 sh1 b2 b3
  have pg : g1.ordered.Pairwise fun u v => ¬ Joined g v u :=
    wg1.pairwise.imp fun h ⟨n, hn, he⟩ => h ⟨n, by rw [sg1]; exact hn, he⟩
  have ph : h1.ordered.Pairwise fun u v => ¬ Joined h v u :=
    wh1.pairwise.imp fun k ⟨n, hn, he⟩ => k ⟨n, by rw [sh1]; exact hn, he⟩
  -- the order of the larger graph, restricted
  have hsub : ∀ u v, Joined h u v → Joined g u v := by
    rintro u v ⟨m, hm, e, he, hd⟩
    obtain ⟨_, n, hn, hl⟩ := a.back hm
    exact ⟨n, hn, e, (List.mem_filter.1 (hl.edges.mem_iff.1 he)).1, hd⟩
  have hperm : h1.ordered.Perm (g1.ordered.filter fun i => !U i) := by
    refine (List.perm_ext_iff_of_nodup b2 (a2.filter _)).2 fun i => ?_
    rw [b3, List.mem_filter, a3]
    cases hu : U i with
    | true => rw [a.away i hu]; simp
    | false =>
      cases hs : g.slot i with
      | none => rw [a.none i hu hs]; simp
      | some n => obtain ⟨m, hm, _⟩ := a.some i n hu hs; rw [hm]; simp
  have ph' : (g1.ordered.filter fun i => !U i).Pairwise fun u v => ¬ Joined h v u :=
    (pg.filter _).imp fun k j => k (hsub _ _ j)
  obtain ⟨x, y, x1, x2, x3⟩ := RGraph.orders sem ho _ h1.ordered h1 hperm rdh ph ph'
  rw [b4] at x1; cases x1
  obtain ⟨u, v, u1, u2, u3, u4⟩ := RGraph.fold_agree sem ho g1.ordered g1 h1 (a.congr sg1 sh1) rdg (rdh.perm hperm) pg
    (by
      intro i hi hu n hn j hj
      rw [sg1] at hn ⊢
      cases hs : g.slot j with
      | none => exact .inr rfl
      | some z =>
        left
        rcases fg.wired i n hn j hj (by rw [hs]; rfl) with rfl | ⟨z', hz', e, he, hd⟩
        · exact hu
        · cases hj' : U j with
          | false => rfl
          | true =>
            have := a.noOut j z' hj' hz' e he
            rw [hd, hu] at this; simp at this)
    (by
      intro i hi hu n hn
      rw [sg1] at hn
      exact ht i n hu hn)
  rw [a4] at u1; cases u1
  rw [x2] at u2; cases u2
  have lag : Agree U g2 h2 := u3.like x3.symm
  obtain ⟨_, _, x4, _, _, x5⟩ := rdg.fold sem ho (.refl g1)
  rw [a4] at x4; cases x4
  have okh : OkG ok h2 := x3.symm.ok u4
  obtain ⟨_, _, c1, _, c2, _, _, c3⟩ := RGraph.render_spec sem fg.wf
  obtain ⟨_, _, d1, _, d2, _, _, d3⟩ := RGraph.render_spec sem fh.wf
  rw [show g.orderedGraph = some g1 from a1] at c1; cases c1
  rw [show h.orderedGraph = some h1 from b1] at d1; cases d1
  rw [a4] at c2; cases c2
  rw [b4] at d2; cases d2
  rw [c3] at rg
  rw [d3] at rh
  cases hs : g2.slot 0 with
  | none => rw [hs] at rg; simp at rg
  | some d =>
    obtain ⟨d', hd', hl⟩ := lag.some 0 d h0 hs
    rw [hs] at rg
    rw [hd'] at rh
    simp only [Option.bind_some, Option.map_eq_some_iff, Prod.mk.injEq] at rg rh
    obtain ⟨q, q1, q2, q3⟩ := rg
    obtain ⟨q', q1', q2', q3'⟩ := rh
    rw [hl.outputs, q1] at q1'
    cases q1'
    subst q2 q2'
    exact ⟨q3.symm.trans q3', lag.congr rfl rfl, x5, okh⟩

/-! ## Messages -/

/-- the message concerns only nodes in `U` or connections to them -/
def Msg.foreign (U : Nat → Bool) : Msg P M → Bool
  | .register id .. => U id
  | .connect src _ e _ => U src || U e.dst
  | .disconnect src _ e => U src || U e.dst
  | .dropped id _ => U id
  | .breaker id _ => U id
  | .post id _ _ => U id
  | .setCfg id _ _ => U id

/-- the message makes no connection from a node in `U` to one outside -/
def Msg.quiet (U : Nat → Bool) : Msg P M → Bool
  | .connect src _ e _ => !U src || U e.dst
  | _ => true

theorem get_slot {g : RGraph P S} {i : Nat} {n : Node P S} (h : g.get i = some n) : g.slot i = some n := by
  unfold RGraph.get at h
  split at h
  · exact h
  · simp at h

theorem put_outside {U : Nat → Bool} {g h : RGraph P S} (a : Agree U g h) {i : Nat} (hi : U i = true) {n : Node P S}
    (hn : ∀ e ∈ n.edges, U e.dst = true) : Agree U (g.put i (some n)) h := by
  refine ⟨a.away, fun k m hk hm => ?_, fun k hk hs => ?_, fun k m hk hm => ?_⟩
  · simp only [RGraph.put] at hm
    split at hm
    · cases hm; exact hn
    · exact a.noOut k m hk hm
  · have : k ≠ i := by rintro rfl; rw [hi] at hk; simp at hk
    simp only [RGraph.put, if_neg this] at hs
    exact a.none k hk hs
  · have : k ≠ i := by rintro rfl; rw [hi] at hk; simp at hk
    simp only [RGraph.put, if_neg this] at hm
    exact a.some k m hk hm

theorem put_inside {U : Nat → Bool} {g h : RGraph P S} (a : Agree U g h) {i : Nat} (hi : U i = false) {n m : Node P S}
    (hl : NodeAgree U n m) : Agree U (g.put i (some n)) (h.put i (some m)) := by
  refine ⟨fun k hk => ?_, fun k x hk hx => ?_, fun k hk hs => ?_, fun k x hk hx => ?_⟩
  · have : k ≠ i := by rintro rfl; rw [hi] at hk; simp at hk
    simp only [RGraph.put, if_neg this]
    exact a.away k hk
  · have : k ≠ i := by rintro rfl; rw [hi] at hk; simp at hk
    simp only [RGraph.put, if_neg this] at hx
    exact a.noOut k x hk hx
  · simp only [RGraph.put] at hs ⊢
    split at hs
    · simp at hs
    · rename_i hne; rw [if_neg hne]; exact a.none k hk hs
  · simp only [RGraph.put] at hx ⊢
    split at hx
    · rename_i he; cases hx; exact ⟨m, if_pos he, hl⟩
    · rename_i hne; rw [if_neg hne]; exact a.some k x hk hx

theorem put_edges {U : Nat → Bool} {g h : RGraph P S} (a : Agree U g h) {i : Nat} (hi : U i = false) {n n' : Node P S}
    (hn : g.slot i = some n) (hl : ∀ m, NodeAgree U n m → NodeAgree U n' m) : Agree U (g.put i (some n')) h := by
  refine ⟨a.away, fun k x hk hx => ?_, fun k hk hs => ?_, fun k x hk hx => ?_⟩
  · have : k ≠ i := by rintro rfl; rw [hi] at hk; simp at hk
    simp only [RGraph.put, if_neg this] at hx
    exact a.noOut k x hk hx
  · simp only [RGraph.put] at hs
    split at hs
    · simp at hs
    · exact a.none k hk hs
  · simp only [RGraph.put] at hx
    split at hx
    · rename_i he
      subst he
      cases hx
      obtain ⟨m, h1, h2⟩ := a.some k n hk hn
      exact ⟨m, h1, hl m h2⟩
    · exact a.some k x hk hx

theorem handle_foreign {sem : Sem P S M} {U : Nat → Bool} {g h g' : RGraph P S} (a : Agree U g h) {m : Msg P M}
    (hf : m.foreign U = true) (hq : m.quiet U = true) (hg : g.handle sem m = some g') : Agree U g' h := by
  cases m with
  | register id tag proc nin nout cfg =>
    simp only [Msg.foreign] at hf
    simp only [RGraph.handle, Option.some.injEq] at hg
    subst hg
    refine (put_outside a hf (n := ?n) ?_).congr (g' := g.addNode sem id tag proc nin nout cfg) ?_ rfl
    case n => exact ⟨tag, proc, List.replicate nin sem.silence, List.replicate nout sem.silence, cfg, [], false, false, false⟩
    · simp
    · rfl
  | connect src stag e dtag =>
    simp only [RGraph.handle, RGraph.addEdge] at hg
    split at hg
    · rename_i n hn
      cases hg
      have hn := get_slot hn
      simp only [Msg.quiet, Bool.or_eq_true, Bool.not_eq_true'] at hq
      simp only [Msg.foreign, Bool.or_eq_true] at hf
      have hd : U e.dst = true := by
        rcases hq with h | h
        · rcases hf with h' | h'
          · rw [h] at h'; simp at h'
          · exact h'
        · exact h
      cases hu : U src with
      | true =>
        refine (put_outside a hu (n := { n with edges := n.edges ++ [e] }) ?_).congr rfl rfl
        intro x hx
        rcases List.mem_append.1 hx with hx | hx
        · exact a.noOut src n hu hn x hx
        · rw [List.mem_singleton.1 hx]; exact hd
      | false =>
        refine (put_edges a hu hn (n' := { n with edges := n.edges ++ [e] }) ?_).congr rfl rfl
        intro m hl
        refine ⟨hl.proc, hl.inputs, hl.outputs, hl.cfg, hl.dropped, hl.hasInputs, ?_⟩
        simpa [List.filter_append, hd] using hl.edges
    · simp at hg
  | disconnect src stag e =>
    simp only [RGraph.handle, RGraph.removeEdge] at hg
    split at hg
    · rename_i n hn
      cases hg
      have hn := get_slot hn
      simp only [Msg.foreign, Bool.or_eq_true] at hf
      cases hu : U src with
      | true =>
        refine (put_outside a hu (n := dropEdge n e) ?_).congr rfl rfl
        exact fun x hx => a.noOut src n hu hn x (List.mem_filter.1 hx).1
      | false =>
        have hd : U e.dst = true := by simpa [hu] using hf
        refine (put_edges a hu hn (n' := dropEdge n e) ?_).congr rfl rfl
        intro m hl
        refine ⟨hl.proc, hl.inputs, hl.outputs, hl.cfg, hl.dropped, hl.hasInputs, hl.edges.trans (List.Perm.of_eq ?_)⟩
        simp only [dropEdge, List.filter_filter]
        refine List.filter_congr fun x _ => ?_
        by_cases hx : x.dst = e.dst
        · simp [hx, hd]
        · simp [hx]
    · simp at hg
  | dropped id tag =>
    simp only [Msg.foreign] at hf
    simp only [RGraph.handle, RGraph.markDropped] at hg
    split at hg
    · split at hg
      · rename_i n hn
        cases hg
        exact put_outside a hf (n := { n with dropped := true }) (a.noOut id n hf hn)
      · cases hg; exact a
    · simp at hg
  | breaker id tag =>
    simp only [Msg.foreign] at hf
    simp only [RGraph.handle, RGraph.markBreaker, Option.map_eq_some_iff] at hg
    obtain ⟨n, hn, rfl⟩ := hg
    exact put_outside a hf (n := { n with breaker := true }) (a.noOut id n hf (get_slot hn))
  | post id tag x =>
    simp only [Msg.foreign] at hf
    simp only [RGraph.handle, RGraph.routeMessage, Option.bind_eq_some_iff, Option.map_eq_some_iff] at hg
    obtain ⟨n, hn, q, hq, rfl⟩ := hg
    exact put_outside a hf (n := { n with proc := q }) (a.noOut id n hf (get_slot hn))
  | setCfg id tag c =>
    simp only [Msg.foreign] at hf
    simp only [RGraph.handle, RGraph.setCfg, Option.map_eq_some_iff] at hg
    obtain ⟨n, hn, rfl⟩ := hg
    exact put_outside a hf (n := { n with cfg := c }) (a.noOut id n hf (get_slot hn))

theorem handle_own {sem : Sem P S M} {U : Nat → Bool} {g h g' h' : RGraph P S} (a : Agree U g h) {m : Msg P M}
    (hf : m.foreign U = false) (hg : g.handle sem m = some g') (hh : h.handle sem m = some h') : Agree U g' h' := by
  have both : ∀ {i : Nat} {n m : Node P S}, g.get i = some n → h.get i = some m → NodeAgree U n m := by
    intro i n m hn hm
    obtain ⟨_, n', h1, h2⟩ := a.back (get_slot hm)
    rw [get_slot hn] at h1; cases h1; exact h2
  cases m with
  | register id tag proc nin nout cfg =>
    simp only [Msg.foreign] at hf
    simp only [RGraph.handle, Option.some.injEq] at hg hh
    subst hg hh
    refine (put_inside a hf (n := ?n) (m := ?n) ?_).congr (g' := g.addNode sem id tag proc nin nout cfg)
      (h' := h.addNode sem id tag proc nin nout cfg) ?_ ?_
    case n => exact ⟨tag, proc, List.replicate nin sem.silence, List.replicate nout sem.silence, cfg, [], false, false, false⟩
    · exact ⟨rfl, rfl, rfl, rfl, rfl, rfl, .refl _⟩
    · rfl
    · rfl
  | connect src stag e dtag =>
    simp only [Msg.foreign, Bool.or_eq_false_iff] at hf
    simp only [RGraph.handle, RGraph.addEdge] at hg hh
    split at hg
    · rename_i n hn
      split at hh
      · rename_i m hm
        cases hg; cases hh
        have hl := both hn hm
        refine (put_inside a hf.1 (n := { n with edges := n.edges ++ [e] }) (m := { m with edges := m.edges ++ [e] }) ?_).congr rfl rfl
        refine ⟨hl.proc, hl.inputs, hl.outputs, hl.cfg, hl.dropped, hl.hasInputs, ?_⟩
        simpa [List.filter_append, hf.2] using hl.edges.append_right [e]
      · simp at hh
    · simp at hg
  | disconnect src stag e =>
    simp only [Msg.foreign, Bool.or_eq_false_iff] at hf
    simp only [RGraph.handle, RGraph.removeEdge] at hg hh
    split at hg
    · rename_i n hn
      split at hh
      · rename_i m hm
        cases hg; cases hh
        have hl := both hn hm
        refine (put_inside a hf.1 (n := dropEdge n e) (m := dropEdge m e) ?_).congr rfl rfl
        refine ⟨hl.proc, hl.inputs, hl.outputs, hl.cfg, hl.dropped, hl.hasInputs, ?_⟩
        refine (hl.edges.filter _).trans (List.Perm.of_eq ?_)
        simp only [dropEdge, List.filter_filter]
        exact List.filter_congr fun x _ => Bool.and_comm _ _
      · simp at hh
    · simp at hg
  | dropped id tag =>
    simp only [Msg.foreign] at hf
    simp only [RGraph.handle, RGraph.markDropped] at hg hh
    split at hg
    · split at hh
      · cases hs : g.slot id with
        | none =>
          have := a.none id hf hs
          rw [hs] at hg; rw [this] at hh
          cases hg; cases hh; exact a
        | some n =>
          obtain ⟨m, hm, hl⟩ := a.some id n hf hs
          rw [hs] at hg; rw [hm] at hh
          cases hg; cases hh
          exact put_inside a hf (n := { n with dropped := true }) (m := { m with dropped := true })
            ⟨hl.proc, hl.inputs, hl.outputs, hl.cfg, rfl, hl.hasInputs, hl.edges⟩
      · simp at hh
    · simp at hg
  | breaker id tag =>
    simp only [Msg.foreign] at hf
    simp only [RGraph.handle, RGraph.markBreaker, Option.map_eq_some_iff] at hg hh
    obtain ⟨n, hn, rfl⟩ := hg
    obtain ⟨m, hm, rfl⟩ := hh
    have hl := both hn hm
    exact put_inside a hf (n := { n with breaker := true }) (m := { m with breaker := true })
      ⟨hl.proc, hl.inputs, hl.outputs, hl.cfg, hl.dropped, hl.hasInputs, hl.edges⟩
  | post id tag x =>
    simp only [Msg.foreign] at hf
    simp only [RGraph.handle, RGraph.routeMessage, Option.bind_eq_some_iff, Option.map_eq_some_iff] at hg hh
    obtain ⟨n, hn, q, hq, rfl⟩ := hg
    obtain ⟨m, hm, q', hq', rfl⟩ := hh
    have hl := both hn hm
    rw [hl.proc, hq] at hq'; cases hq'
    exact put_inside a hf (n := { n with proc := q }) (m := { m with proc := q })
      ⟨rfl, hl.inputs, hl.outputs, hl.cfg, hl.dropped, hl.hasInputs, hl.edges⟩
  | setCfg id tag c =>
    simp only [Msg.foreign] at hf
    simp only [RGraph.handle, RGraph.setCfg, Option.map_eq_some_iff] at hg hh
    obtain ⟨n, hn, rfl⟩ := hg
    obtain ⟨m, hm, rfl⟩ := hh
    have hl := both hn hm
    exact put_inside a hf (n := { n with cfg := c }) (m := { m with cfg := c })
      ⟨hl.proc, hl.inputs, hl.outputs, rfl, hl.dropped, hl.hasInputs, hl.edges⟩

/-- the batch without the messages that concern `U` -/
def without (U : Nat → Bool) (b : List (Msg P M)) : List (Msg P M) := b.filter fun m => !m.foreign U

theorem handles_agree {sem : Sem P S M} {U : Nat → Bool} (b : List (Msg P M)) {g h g' h' : RGraph P S} (a : Agree U g h)
    (hq : ∀ m ∈ b, m.quiet U = true) (hg : RGraph.foldOpt (RGraph.handle sem) b g = some g')
    (hh : RGraph.foldOpt (RGraph.handle sem) (without U b) h = some h') : Agree U g' h' := by
  induction b generalizing g h with
  | nil =>
    simp only [RGraph.foldOpt, without, List.filter_nil, Option.some.injEq] at hg hh
    subst hg hh; exact a
  | cons m b ih =>
    simp only [RGraph.foldOpt] at hg
    cases h1 : g.handle sem m with
    | none => rw [h1] at hg; simp at hg
    | some x =>
      rw [h1] at hg
      cases hf : m.foreign U with
      | true =>
        have : without U (m :: b) = without U b := by simp [without, hf]
        rw [this] at hh
        exact ih (handle_foreign a hf (hq m (by simp)) h1) (fun m hm => hq m (by simp [hm])) hg hh
      | false =>
        have : without U (m :: b) = m :: without U b := by simp [without, hf]
        rw [this] at hh
        simp only [RGraph.foldOpt] at hh
        cases h2 : h.handle sem m with
        | none => rw [h2] at hh; simp at hh
        | some y =>
          rw [h2] at hh
          exact ih (handle_own a hf h1 h2) (fun m hm => hq m (by simp [hm])) hg hh

/-- **C99** Leave out everything that concerns a part `U` of the graph from which no connection leads to the rest:
creation, connections into it, messages, drops. The sound is the same in every quantum, whatever the processors in `U`
do. As for C98 there are no cycles, orders are complete and sums do not depend on the order; both runs go without a
panic of the render thread (C07); and no node lives on only because it feeds `U` (`Tapped`). What is missing is false:
see `C99_negated`. -/
theorem C99_isolated_partial {sem : Sem P S M} {ok : S → Prop} {reads : P → Nat → Prop} (ho : Orderly sem ok reads)
    {U : Nat → Bool} (h0 : U 0 = false) (bs : List (List (Msg P M))) {g h : RGraph P S} (a : Agree U g h)
    (hok : OkG ok g) (hok' : OkG ok h) (hq : ∀ b ∈ bs, ∀ m ∈ b, m.quiet U = true)
    (fg : Always sem (fun x => Fit reads x ∧ Tapped U x) bs g)
    (fh : Always sem (Fit reads) (bs.map (without U)) h) {xs ys : List S}
    (hx : hear sem bs g = some xs) (hy : hear sem (bs.map (without U)) h = some ys) : xs = ys := by
  induction bs generalizing g h xs ys with
  | nil => simp only [hear, List.map_nil, Option.some.injEq] at hx hy; exact hx.symm.trans hy
  | cons b bs ih =>
    rw [List.map_cons] at hy fh
    cases h1 : RGraph.foldOpt (RGraph.handle sem) b g with
    | none => rw [hear_of_none h1] at hx; simp at hx
    | some x =>
      cases h2 : RGraph.foldOpt (RGraph.handle sem) (without U b) h with
      | none => rw [hear_of_none h2] at hy; simp at hy
      | some y =>
        rw [hear_of_some h1] at hx
        rw [hear_of_some h2] at hy
        obtain ⟨⟨fx, tx⟩, kx⟩ := fg x h1
        obtain ⟨fy, ky⟩ := fh y h2
        simp only [Option.bind_eq_some_iff, Option.map_eq_some_iff] at hx hy
        obtain ⟨⟨g', o⟩, r1, zs, hz, rfl⟩ := hx
        obtain ⟨⟨h', o'⟩, r2, ws, hw, rfl⟩ := hy
        have axy := handles_agree b a (fun m hm => hq b (by simp) m hm) h1 h2
        obtain ⟨e1, e2, e3, e4⟩ := render_agree ho h0 axy (handles_ok ho.silence b hok h1)
          (handles_ok ho.silence _ hok' h2) fx fy tx r1 r2
        rw [ih e2 e3 e4 (fun b hb => hq b (by simp [hb])) (kx g' o r1) (ky h' o' r2) hz hw, e1]

/-! ## A case that meets the hypotheses -/

/-- `demoG` without the gain 12 -/
def demoH (es : List Edge) (o : List Nat) : RGraph Nat Nat where
  cap := 64
  slot := fun i => if i = 12 then none else (demoG es [] []).slot i
  ordered := o
  reclaimed := []

theorem demoH_fit {es : List Edge} (h1 : ∀ e ∈ es, e = ⟨0, 0, some 0⟩) : Fit (fun _ _ => False) (demoH es []) := by
  have sub : ∀ i n, (demoH es []).slot i = some n → i ≠ 12 ∧ (demoG es [] []).slot i = some n := by
    intro i n hn
    simp only [demoH] at hn
    split at hn
    · simp at hn
    · exact ⟨by assumption, hn⟩
  have fit := demo_fit (es11 := es) (es12 := []) (fun e he => .inr (h1 e he)) (by simp)
  refine ⟨⟨⟨fun i n hn => fit.wf.bound i n (sub i n hn).2, fun i n hn e he => ?_⟩, List.nodup_nil, by simp [demoH],
    by simp [demoH]⟩, .inl rfl, fun i hc => fit.acyclic i (TransGen.mono ?_ i i hc), fun _ _ _ _ h => h.elim⟩
  · obtain ⟨h12, hs⟩ := sub i n hn
    rcases demo_cases hs with ⟨rfl, rfl⟩ | ⟨rfl, rfl⟩ | ⟨rfl, rfl⟩
    · simp at he
    · rw [h1 e he]; simp [demoH, demoG]
    · exact absurd rfl h12
  · rintro u v ⟨n, hn, he⟩
    exact ⟨n, (sub u n hn).2, he⟩

/-- The source 11 is connected to the destination and to the gain 12, which is connected to nothing. -/
example : ∀ xs ys, hear calmSem [connects [(11, ⟨0, 12, some 0⟩), (11, ⟨0, 0, some 0⟩)]] (demoG [] [] [0, 11, 12]) = some xs →
    hear calmSem [connects [(11, ⟨0, 0, some 0⟩)]] (demoH [] [0, 11]) = some ys → xs = ys := by
  intro xs ys hx hy
  have agree : Agree (fun i => i == 12) (demoG [] [] [0, 11, 12]) (demoH [] [0, 11]) := by
    refine ⟨fun i hi => by simp [demoH, beq_iff_eq.1 hi], fun i n hi hn e he => ?_, fun i hi hs => ?_, fun i n hi hn => ?_⟩
    · rcases demo_cases hn with ⟨rfl, rfl⟩ | ⟨rfl, rfl⟩ | ⟨rfl, rfl⟩ <;> simp at he
    · have : i ≠ 12 := by simpa using hi
      simp only [demoH, if_neg this]
      simpa [demoG] using hs
    · have : i ≠ 12 := by simpa using hi
      refine ⟨n, ?_, ⟨rfl, rfl, rfl, rfl, rfl, rfl, ?_⟩⟩
      · simp only [demoH, if_neg this]
        simpa [demoG] using hn
      · rcases demo_cases hn with ⟨rfl, rfl⟩ | ⟨rfl, rfl⟩ | ⟨rfl, rfl⟩ <;> exact .refl _
  refine C99_isolated_partial calm_orderly (U := fun i => i == 12) rfl
    [connects [(11, ⟨0, 12, some 0⟩), (11, ⟨0, 0, some 0⟩)]] agree
    (fun _ _ _ => ⟨fun _ _ => trivial, fun _ _ => trivial⟩) (fun _ _ _ => ⟨fun _ _ => trivial, fun _ _ => trivial⟩)
    (by simp [connects, Msg.quiet]) ?_ ?_ hx hy
  · intro g1 h
    rw [demo_connect _ _ _ _ (by simp) (by simp)] at h
    cases h
    refine ⟨⟨demo_fit (by simp) (by simp), ?_⟩, fun _ _ _ => trivial⟩
    intro i n _ hn hd
    rcases demo_cases hn with ⟨rfl, rfl⟩ | ⟨rfl, rfl⟩ | ⟨rfl, rfl⟩ <;> simp at hd
  · intro g1 h
    have : RGraph.foldOpt (RGraph.handle calmSem) (without (fun i => i == 12)
        (connects [(11, ⟨0, 12, some 0⟩), (11, ⟨0, 0, some 0⟩)])) (demoH [] [0, 11]) = some (demoH [⟨0, 0, some 0⟩] []) := by
      have hw : without (fun i => i == 12) (connects [(11, ⟨0, 12, some 0⟩), (11, ⟨0, 0, some 0⟩)]) =
          ([.connect 11 0 ⟨0, 0, some 0⟩ 0] : List (Msg Nat Nat)) := rfl
      rw [hw]
      simp only [RGraph.foldOpt, RGraph.handle, RGraph.addEdge, RGraph.get, demoH, demoG, RGraph.put]
      simp
      funext j
      by_cases h0 : j = 0 <;> by_cases h1 : j = 11 <;> by_cases h2 : j = 12 <;> simp_all
    rw [this] at h
    cases h
    exact ⟨demoH_fit (by simp), fun _ _ _ => trivial⟩

/-- the sounds of the example -/
example : hear calmSem [connects [(11, ⟨0, 12, some 0⟩), (11, ⟨0, 0, some 0⟩)]] (demoG [] [] [0, 11, 12]) = some [5] ∧
    hear calmSem [connects [(11, ⟨0, 0, some 0⟩)]] (demoH [] [0, 11]) = some [5] := by
  decide +kernel

/-- **C99 is false** when the unrelated node 13 is created after connections of the same batch: it silences the others
(the order of the nodes is incomplete, C05). -/
theorem C99_negated :
    let U : Nat → Bool := fun i => i == 13
    let b : List (Msg Nat Nat) := connects [(11, ⟨0, 0, some 0⟩)] ++ [.register 13 3 7 0 1 cfg0]
    (∀ m ∈ b, m.quiet U = true) ∧
    hear calmSem [b, []] (demoG [] [] [0, 11, 12]) = some [0, 0] ∧
    hear calmSem ([b, []].map (without U)) (demoG [] [] [0, 11, 12]) = some [5, 5] := by
  decide +kernel

end Verif.Render
