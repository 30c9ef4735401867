import Verif.Graph.QuantumProps

/-!
# The sound does not depend on the order in which connections were made (C98)

The render thread keeps the outgoing connections of a node in the order in which they were made and
the nodes in an order found by a depth first search over these lists
(`/repo/src/render/graph.rs` l.269-280, l.418-487). Both orders are an accident of the history. Here:
two graphs with the same nodes and the same connections, whatever the orders, sound the same.

Two steps of the loop over the nodes (graph.rs l.500-575) commute when there is no connection between
the two nodes (`swap`); any two orders that respect the connections are related by such exchanges
(`orders`).
-/

namespace Verif.Render

open Verif.Graph Relation

variable {P S M : Type}

/-- Same node, with the connections in another order. -/
structure NodeLike (n m : Node P S) : Prop where
  tag : m.tag = n.tag
  proc : m.proc = n.proc
  inputs : m.inputs = n.inputs
  outputs : m.outputs = n.outputs
  cfg : m.cfg = n.cfg
  dropped : m.dropped = n.dropped
  hasInputs : m.hasInputs = n.hasInputs
  breaker : m.breaker = n.breaker
  edges : m.edges.Perm n.edges

/-- Same nodes and connections; the orders of connections and of nodes may differ. -/
structure Like (g h : RGraph P S) : Prop where
  cap : h.cap = g.cap
  none : ∀ i, g.slot i = none → h.slot i = none
  some : ∀ i n, g.slot i = some n → ∃ m, h.slot i = some m ∧ NodeLike n m

theorem NodeLike.refl (n : Node P S) : NodeLike n n := ⟨rfl, rfl, rfl, rfl, rfl, rfl, rfl, rfl, .refl _⟩

theorem NodeLike.trans {a b c : Node P S} (h : NodeLike a b) (k : NodeLike b c) : NodeLike a c :=
  ⟨k.tag.trans h.tag, k.proc.trans h.proc, k.inputs.trans h.inputs, k.outputs.trans h.outputs,
    k.cfg.trans h.cfg, k.dropped.trans h.dropped, k.hasInputs.trans h.hasInputs,
    k.breaker.trans h.breaker, k.edges.trans h.edges⟩

theorem NodeLike.symm {a b : Node P S} (h : NodeLike a b) : NodeLike b a :=
  ⟨h.tag.symm, h.proc.symm, h.inputs.symm, h.outputs.symm, h.cfg.symm, h.dropped.symm,
    h.hasInputs.symm, h.breaker.symm, h.edges.symm⟩

theorem Like.refl (g : RGraph P S) : Like g g := ⟨rfl, fun _ h => h, fun _ n h => ⟨n, h, .refl n⟩⟩

theorem Like.trans {a b c : RGraph P S} (h : Like a b) (k : Like b c) : Like a c := by
  refine ⟨k.cap.trans h.cap, fun i hi => k.none i (h.none i hi), fun i n hn => ?_⟩
  obtain ⟨m, h1, h2⟩ := h.some i n hn
  obtain ⟨l, h3, h4⟩ := k.some i m h1
  exact ⟨l, h3, h2.trans h4⟩

theorem Like.symm {a b : RGraph P S} (h : Like a b) : Like b a := by
  refine ⟨h.cap.symm, fun i hi => ?_, fun i m hm => ?_⟩
  · cases hs : a.slot i with
    | none => rfl
    | some n => obtain ⟨m, h1, _⟩ := h.some i n hs; rw [hi] at h1; simp at h1
  · cases hs : a.slot i with
    | none => rw [h.none i hs] at hm; simp at hm
    | some n =>
      obtain ⟨m', h1, h2⟩ := h.some i n hs
      rw [hm] at h1; cases h1
      exact ⟨n, rfl, h2.symm⟩

/-- What the signals and processors must satisfy, for the signals in the class `ok`: sums do not
depend on the order, and a processor looks only at the AudioParams in `reads`. -/
structure Orderly (sem : Sem P S M) (ok : S → Prop) (reads : P → Nat → Prop) : Prop where
  silence : ok sem.silence
  add : ∀ c s a, ok s → ok a → ok (sem.add c s a)
  comm : ∀ c s a b, ok s → ok a → ok b → sem.add c (sem.add c s a) b = sem.add c (sem.add c s b) a
  process : ∀ p ins outs ps p' outs' t, sem.process p ins outs ps = some (p', outs', t) →
    (∀ s ∈ ins, ok s) → (∀ s ∈ outs, ok s) → (∀ j s, ps j = some s → ok s) → ∀ s ∈ outs', ok s
  reads : ∀ p ins outs ps ps', (∀ j, reads p j → ps j = ps' j) →
    sem.process p ins outs ps = sem.process p ins outs ps'

theorem fold_ok {sem : Sem P S M} {ok : S → Prop} {reads : P → Nat → Prop} (ho : Orderly sem ok reads)
    (c : Cfg) : ∀ (l : List S) (s : S), (∀ a ∈ l, ok a) → ok s → ok (l.foldl (sem.add c) s) := by
  intro l
  induction l with
  | nil => exact fun s _ h => h
  | cons a l ih =>
    intro s hl hs
    exact ih _ (fun b hb => hl b (by simp [hb])) (ho.add c s a hs (hl a (by simp)))

theorem fold_perm {sem : Sem P S M} {ok : S → Prop} {reads : P → Nat → Prop} (ho : Orderly sem ok reads)
    (c : Cfg) {l l' : List S} (h : l.Perm l') : ∀ s, (∀ a ∈ l, ok a) → ok s →
      l.foldl (sem.add c) s = l'.foldl (sem.add c) s := by
  induction h with
  | nil => exact fun _ _ _ => rfl
  | cons a _ ih =>
    intro s hl hs
    exact ih _ (fun b hb => hl b (by simp [hb])) (ho.add c s a hs (hl a (by simp)))
  | swap a b l =>
    intro s hl hs
    simp only [List.foldl_cons]
    rw [ho.comm c s b a hs (hl b (by simp)) (hl a (by simp))]
  | trans h1 _ ih1 ih2 =>
    intro s hl hs
    exact (ih1 s hl hs).trans (ih2 s (fun a ha => hl a (h1.mem_iff.2 ha)) hs)

/-- all signals in the graph are in the class -/
def OkG (ok : S → Prop) (g : RGraph P S) : Prop :=
  ∀ i n, g.slot i = some n → (∀ s ∈ n.inputs, ok s) ∧ ∀ s ∈ n.outputs, ok s

theorem Like.ok {ok : S → Prop} {g h : RGraph P S} (l : Like g h) (hg : OkG ok g) : OkG ok h := by
  intro i m hm
  obtain ⟨n, h1, h2⟩ := l.symm.some i m hm
  rw [← h2.inputs, ← h2.outputs]
  exact hg i n h1

theorem Like.wfe {g h : RGraph P S} (l : Like g h) (w : WFe g) : WFe h := by
  refine ⟨fun i m hm => ?_, fun i m hm e he => ?_⟩
  · obtain ⟨n, h1, _⟩ := l.symm.some i m hm
    rw [l.cap]; exact w.bound i n h1
  · obtain ⟨n, h1, h2⟩ := l.symm.some i m hm
    obtain ⟨k1, t, k2, k3⟩ := w.edges i n h1 e (h2.edges.mem_iff.2 he)
    obtain ⟨t', h3, h4⟩ := l.some _ t k2
    exact ⟨by rw [← h2.outputs]; exact k1, t', h3, fun p hp => by rw [h4.inputs]; exact k3 p hp⟩

namespace RGraph

variable (sem : Sem P S M)

theorem params_ok {ok : S → Prop} {g : RGraph P S} (hg : OkG ok g) (i j : Nat) (s : S)
    (h : g.params i j = some s) : ok s := by
  unfold params get at h
  split at h
  · simp at h
  · split at h
    · cases hs : g.slot j with
      | none => rw [hs] at h; simp at h
      | some n =>
        rw [hs] at h
        exact (hg j n hs).2 s (List.mem_of_mem_head? (by simpa using h))
    · simp at h

theorem process_ok {ok : S → Prop} {reads : P → Nat → Prop} (ho : Orderly sem ok reads)
    {g : RGraph P S} (hg : OkG ok g) {i : Nat} {n : Node P S} (hn : g.slot i = some n) :
    ∀ s ∈ (g.process sem i n).1.outputs, ok s := by
  rcases process_cases sem g i n with ⟨p, outs, tail, h1, _, hp⟩ | ⟨_, hp⟩
  · rw [hp]
    exact ho.process _ _ _ _ _ _ _ h1 (hg i n hn).1 (hg i n hn).2 (fun j s => params_ok hg i j s)
  · rw [hp]; exact (hg i n hn).2

theorem contrib_ok {ok : S → Prop} {outs : List S} (h : ∀ s ∈ outs, ok s) (es : List Edge) (k p : Nat) :
    ∀ s ∈ contrib outs es k p, ok s := by
  intro s hs
  unfold contrib at hs
  obtain ⟨e, _, he⟩ := List.mem_filterMap.1 hs
  split at he
  · exact h s (List.mem_of_getElem? he)
  · simp at he

theorem contrib_perm (outs : List S) {es es' : List Edge} (h : es.Perm es') (k p : Nat) :
    (contrib outs es k p).Perm (contrib outs es' k p) := h.filterMap _

theorem NodeStep.ok {ok : S → Prop} {reads : P → Nat → Prop} (ho : Orderly sem ok reads)
    {g g' : RGraph P S} (hg : OkG ok g) {i : Nat} {n : Node P S} (hn : g.slot i = Option.some n)
    (h : NodeStep sem g i n g') : OkG ok g' := by
  have hout := process_ok sem ho hg hn
  intro k m' hm'
  by_cases hk : k = i
  · subst hk
    rw [h.self] at hm'
    split at hm'
    · simp at hm'
    · cases hm'
      exact ⟨fun s hs => by
        obtain ⟨_, _, rfl⟩ := List.mem_map.1 hs
        exact ho.silence, hout⟩
  · cases hs : g.slot k with
    | none => rw [h.none k hk hs] at hm'; simp at hm'
    | some m =>
      obtain ⟨m1, a, _, _, b3, _, _, _, b7, _, _, b10⟩ := h.some k m hk hs
      rw [hm'] at a; cases a
      refine ⟨fun s hs' => ?_, by rw [b3]; exact (hg k m hs).2⟩
      obtain ⟨p, hp⟩ := List.mem_iff_getElem?.1 hs'
      rw [b10] at hp
      obtain ⟨s0, h0, rfl⟩ := Option.map_eq_some_iff.1 hp
      exact fold_ok ho _ _ _ (contrib_ok hout _ _ _) ((hg k m hs).1 s0 (List.mem_of_getElem? h0))

theorem like_params {g h : RGraph P S} (l : Like g h) (i : Nat) : h.params i = g.params i := by
  funext j
  unfold params get
  rw [l.cap]
  split
  · rfl
  · split
    · cases hs : g.slot j with
      | none => rw [l.none j hs]
      | some n =>
        obtain ⟨m, h1, h2⟩ := l.some j n hs
        rw [h1]; simp [h2.outputs]
    · rfl

theorem like_process {g h : RGraph P S} {i : Nat} {n m : Node P S} (hp : h.params i = g.params i)
    (hl : NodeLike n m) : NodeLike (g.process sem i n).1 (h.process sem i m).1 ∧
      (h.process sem i m).2 = (g.process sem i n).2 := by
  unfold process
  rw [hp, hl.proc, hl.inputs, hl.outputs]
  cases sem.process n.proc n.inputs n.outputs (g.params i) with
  | none => exact ⟨⟨hl.tag, rfl, rfl, rfl, hl.cfg, hl.dropped, hl.hasInputs, hl.breaker, .refl _⟩, rfl⟩
  | some r => exact ⟨⟨hl.tag, rfl, rfl, rfl, hl.cfg, hl.dropped, hl.hasInputs, hl.breaker, hl.edges⟩, rfl⟩

theorem like_freed {g h : RGraph P S} {i : Nat} {n m : Node P S} (hp : h.params i = g.params i)
    (hl : NodeLike n m) : h.freed sem i m = g.freed sem i n := by
  obtain ⟨h1, h2⟩ := like_process sem hp hl
  unfold freed
  simp only [h2, Node.canFree, h1.dropped, h1.hasInputs, h1.proc]
  have : (h.process sem i m).1.edges.isEmpty = (g.process sem i n).1.edges.isEmpty := by
    rw [Bool.eq_iff_iff, List.isEmpty_iff, List.isEmpty_iff]
    exact ⟨fun e => by simpa [e] using h1.edges.symm, fun e => by simpa [e] using h1.edges⟩
  rw [this]

theorem bool_iff {a b : Bool} {p q : Prop} (ha : a = true ↔ p) (hb : b = true ↔ q) (h : q ↔ p) : b = a := by
  rw [Bool.eq_iff_iff, ha, hb, h]

/-- one step of the loop on two graphs that differ only in the orders -/
theorem like_step {ok : S → Prop} {reads : P → Nat → Prop} (ho : Orderly sem ok reads)
    {g h g' h' : RGraph P S} (hg : OkG ok g) (l : Like g h) {i : Nat} {n m : Node P S}
    (hn : g.slot i = some n) (hm : h.slot i = some m)
    (sg : NodeStep sem g i n g') (sh : NodeStep sem h i m h') : Like g' h' := by
  have hl : NodeLike n m := by
    obtain ⟨m', h1, h2⟩ := l.some i n hn
    rw [hm] at h1; cases h1; exact h2
  have hp := like_params l i
  obtain ⟨p1, p2⟩ := like_process sem hp hl
  have hf := like_freed sem hp hl
  refine ⟨by rw [sh.cap, sg.cap, l.cap], fun k hk => ?_, fun k a' ha' => ?_⟩
  · by_cases hki : k = i
    · subst hki
      rw [sg.self] at hk
      rw [sh.self, hf]
      split at hk
      · rename_i h1; simp [h1]
      · simp at hk
    · cases hs : g.slot k with
      | none => exact sh.none k hki (l.none k hs)
      | some a => obtain ⟨a1, h1, _⟩ := sg.some k a hki hs; rw [hk] at h1; simp at h1
  · by_cases hki : k = i
    · subst hki
      rw [sg.self] at ha'
      rw [sh.self, hf]
      split at ha'
      · simp at ha'
      · rename_i h1
        cases ha'
        rw [if_neg h1]
        exact ⟨_, rfl, ⟨p1.tag, p1.proc, by simp [hl.inputs], p1.outputs, p1.cfg, p1.dropped, rfl, p1.breaker, p1.edges⟩⟩
    · cases hs : g.slot k with
      | none => rw [sg.none k hki hs] at ha'; simp at ha'
      | some a =>
        obtain ⟨b, hb, hab⟩ := l.some k a hs
        obtain ⟨a1, x0, x1, x2, x3, x4, x5, x6, x7, x8, x9, x10⟩ := sg.some k a hki hs
        obtain ⟨b1, y0, y1, y2, y3, y4, y5, y6, y7, y8, y9, y10⟩ := sh.some k b hki hb
        rw [ha'] at x0; cases x0
        refine ⟨b1, y0, ⟨by rw [y1, x1, hab.tag], by rw [y2, x2, hab.proc], ?_, by rw [y3, x3, hab.outputs],
          by rw [y4, x4, hab.cfg], by rw [y5, x5, hab.dropped], ?_, by rw [y6, x6, hab.breaker], ?_⟩⟩
        · apply List.ext_getElem?
          intro p
          rw [y10, x10, hab.inputs, hab.cfg]
          cases hi : a.inputs[p]? with
          | none => rfl
          | some s =>
            simp only [Option.map_some]
            rw [p1.outputs]
            congr 1
            exact fold_perm ho _ (contrib_perm _ p1.edges k p) s
              (contrib_ok (process_ok sem ho hg hn) _ _ _) ((hg k a hs).1 s (List.mem_of_getElem? hi))
        · refine bool_iff x9 y9 ?_
          rw [hab.hasInputs]
          exact or_congr Iff.rfl ⟨fun ⟨e, h1, h2⟩ => ⟨e, p1.edges.mem_iff.1 h1, h2⟩,
            fun ⟨e, h1, h2⟩ => ⟨e, p1.edges.mem_iff.2 h1, h2⟩⟩
        · rw [y8, x8, hf]
          split
          · exact hab.edges.filter _
          · exact hab.edges

/-- a node without connection from or to the processed node does not change -/
theorem bystander {g g' : RGraph P S} {i : Nat} {n : Node P S} (s : NodeStep sem g i n g') {j : Nat}
    {m : Node P S} (hji : j ≠ i) (hm : g.slot j = some m) (hij : ∀ e ∈ n.edges, e.dst ≠ j)
    (hji' : ∀ e ∈ m.edges, e.dst ≠ i) : g'.slot j = some m := by
  obtain ⟨m', x0, x1, x2, x3, x4, x5, x6, x7, x8, x9, x10⟩ := s.some j m hji hm
  have hpe : ∀ e ∈ (g.process sem i n).1.edges, e.dst ≠ j := by
    rcases process_edges sem (g := g) i n with h | h <;> rw [h]
    · exact hij
    · simp
  rw [x0]
  have e1 : m'.inputs = m.inputs := by
    apply List.ext_getElem?
    intro p
    rw [x10]
    have : contrib (g.process sem i n).1.outputs (g.process sem i n).1.edges j p = [] := by
      unfold contrib
      rw [List.filterMap_eq_nil_iff]
      intro e he
      rw [if_neg (fun h => hpe e he h.1)]
    rw [this]; simp
  have e2 : m'.hasInputs = m.hasInputs := by
    rw [Bool.eq_iff_iff, x9]
    exact ⟨fun h => h.elim id (fun ⟨e, h1, h2, _⟩ => absurd h2 (hpe e h1)), Or.inl⟩
  have e3 : m'.edges = m.edges := by
    rw [x8]
    split
    · rw [List.filter_eq_self]
      intro e he
      simpa using hji' e he
    · rfl
  cases m; cases m'
  simp_all

/-- the processor of an unrelated node does the same before and after the step -/
theorem process_bystander {ok : S → Prop} {reads : P → Nat → Prop} (ho : Orderly sem ok reads)
    {g g' : RGraph P S} {i : Nat} {n : Node P S} (s : NodeStep sem g i n g') {j : Nat} {m : Node P S}
    (hr : ¬ reads m.proc i) : g'.process sem j m = g.process sem j m := by
  have : sem.process m.proc m.inputs m.outputs (g'.params j) =
      sem.process m.proc m.inputs m.outputs (g.params j) := by
    refine ho.reads _ _ _ _ _ fun k hk => ?_
    have hki : k ≠ i := fun h => hr (h ▸ hk)
    unfold params get
    rw [s.cap]
    split
    · rfl
    · split
      · cases hs : g.slot k with
        | none => rw [s.none k hki hs]
        | some a =>
          obtain ⟨a1, x0, x1, x2, x3, _⟩ := s.some k a hki hs
          rw [x0]; simp [x3]
      · rfl
  unfold process
  rw [this]

/-- two steps of the loop commute if the nodes are not connected with each other -/
theorem swap {ok : S → Prop} {reads : P → Nat → Prop} (ho : Orderly sem ok reads)
    {g gi gij gj gji : RGraph P S} (hg : OkG ok g) {i j : Nat} (hij : i ≠ j) {n m : Node P S}
    (hn : g.slot i = some n) (hm : g.slot j = some m)
    (e1 : ∀ e ∈ n.edges, e.dst ≠ j) (e2 : ∀ e ∈ m.edges, e.dst ≠ i)
    (r1 : ¬ reads n.proc j) (r2 : ¬ reads m.proc i)
    (si : NodeStep sem g i n gi) (sij : NodeStep sem gi j m gij)
    (sj : NodeStep sem g j m gj) (sji : NodeStep sem gj i n gji) : Like gij gji := by
  have pm : gi.process sem j m = g.process sem j m := process_bystander sem ho si r2
  have pn : gj.process sem i n = g.process sem i n := process_bystander sem ho sj r1
  have fm : gi.freed sem j m = g.freed sem j m := by unfold freed; rw [pm]
  have fn : gj.freed sem i n = g.freed sem i n := by unfold freed; rw [pn]
  -- the two nodes themselves
  have self : ∀ {g a ab b ba : RGraph P S} {i j : Nat} {n m : Node P S}, i ≠ j →
      (∀ e ∈ n.edges, e.dst ≠ j) → (∀ e ∈ m.edges, e.dst ≠ i) →
      NodeStep sem g i n a → NodeStep sem a j m ab → NodeStep sem b i n ba →
      b.process sem i n = g.process sem i n → ab.slot i = ba.slot i := by
    intro g a ab b ba i j n m hij e1 e2 s1 s2 s3 hp
    have hf : b.freed sem i n = g.freed sem i n := by unfold freed; rw [hp]
    have hs := s1.self
    rw [s3.self, hf, hp]
    cases hfr : g.freed sem i n with
    | true =>
      rw [hfr] at hs
      simp only [if_true] at hs ⊢
      exact s2.none i hij hs
    | false =>
      rw [hfr] at hs
      simp only [Bool.false_eq_true, if_false] at hs ⊢
      refine bystander sem s2 hij hs e2 ?_
      intro e he
      rcases process_edges sem (g := g) i n with h | h
      · simp only [h] at he; exact e1 e he
      · simp only [h] at he; simp at he
  have hi : gij.slot i = gji.slot i := self hij e1 e2 si sij sji pn
  have hj : gji.slot j = gij.slot j := self (Ne.symm hij) e2 e1 sj sji sij pm
  have case : ∀ k, k ≠ i → k ≠ j → ∀ a, g.slot k = some a →
      ∃ x y, gij.slot k = some x ∧ gji.slot k = some y ∧ NodeLike x y := by
    intro k hki hkj a hs
    obtain ⟨a1, x0, x1, x2, x3, x4, x5, x6, x7, x8, x9, x10⟩ := si.some k a hki hs
    obtain ⟨a2, y0, y1, y2, y3, y4, y5, y6, y7, y8, y9, y10⟩ := sij.some k a1 hkj x0
    obtain ⟨b1, u0, u1, u2, u3, u4, u5, u6, u7, u8, u9, u10⟩ := sj.some k a hkj hs
    obtain ⟨b2, v0, v1, v2, v3, v4, v5, v6, v7, v8, v9, v10⟩ := sji.some k b1 hki u0
    rw [pm] at y9 y10
    rw [pn] at v9 v10
    rw [fm] at y8
    rw [fn] at v8
    refine ⟨a2, b2, y0, v0, ⟨by rw [v1, u1, y1, x1], by rw [v2, u2, y2, x2], ?_, by rw [v3, u3, y3, x3],
      by rw [v4, u4, y4, x4], by rw [v5, u5, y5, x5], ?_, by rw [v6, u6, y6, x6], ?_⟩⟩
    · apply List.ext_getElem?
      intro p
      rw [v10, u10, y10, x10, Option.map_map, Option.map_map, u4, x4]
      cases hi : a.inputs[p]? with
      | none => rfl
      | some s =>
        simp only [Option.map_some, Function.comp]
        rw [← List.foldl_append, ← List.foldl_append]
        congr 1
        refine fold_perm ho _ List.perm_append_comm s ?_ ((hg k a hs).1 s (List.mem_of_getElem? hi))
        intro b hb
        rcases List.mem_append.1 hb with hb | hb
        · exact contrib_ok (process_ok sem ho hg hm) _ _ _ b hb
        · exact contrib_ok (process_ok sem ho hg hn) _ _ _ b hb
    · refine bool_iff y9 v9 ?_
      rw [u9, x9]
      exact or_right_comm
    · rw [v8, u8, y8, x8]
      cases g.freed sem i n <;> cases g.freed sem j m <;> simp [List.filter_filter, Bool.and_comm]
  refine ⟨by rw [sji.cap, sj.cap, sij.cap, si.cap], fun k hk => ?_, fun k x hx => ?_⟩
  · by_cases hki : k = i
    · subst hki; rw [← hi]; exact hk
    · by_cases hkj : k = j
      · subst hkj; rw [hj]; exact hk
      · cases hs : g.slot k with
        | none => exact sji.none k hki (sj.none k hkj hs)
        | some a => obtain ⟨x, y, h1, _⟩ := case k hki hkj a hs; rw [hk] at h1; simp at h1
  · by_cases hki : k = i
    · subst hki; exact ⟨x, by rw [← hi]; exact hx, .refl x⟩
    · by_cases hkj : k = j
      · subst hkj; exact ⟨x, by rw [hj]; exact hx, .refl x⟩
      · cases hs : g.slot k with
        | none => rw [sij.none k hkj (si.none k hki hs)] at hx; simp at hx
        | some a =>
          obtain ⟨x', y, h1, h2, h3⟩ := case k hki hkj a hs
          rw [hx] at h1; cases h1
          exact ⟨y, h2, h3⟩

/-- what the loop keeps, for the nodes `todo` still to be processed; `E` are the connections -/
structure Ready (ok : S → Prop) (reads : P → Nat → Prop) (E : Nat → Nat → Prop) (todo : List Nat)
    (g : RGraph P S) : Prop extends WFe g where
  ok : OkG ok g
  under : ∀ u n, g.slot u = some n → ∀ e ∈ n.edges, E u e.dst
  nodup : todo.Nodup
  here : ∀ i ∈ todo, ∃ n, g.slot i = some n
  noself : ∀ i ∈ todo, ¬ E i i
  reads : ∀ i ∈ todo, ∀ n, g.slot i = some n → ∀ j ∈ todo, reads n.proc j → j = i ∨ E j i

variable {ok : S → Prop} {reads : P → Nat → Prop} {E : Nat → Nat → Prop}

theorem Ready.perm {todo todo' : List Nat} {g : RGraph P S} (h : todo.Perm todo')
    (r : Ready ok reads E todo g) : Ready ok reads E todo' g :=
  ⟨r.toWFe, r.ok, r.under, h.nodup_iff.1 r.nodup, fun i hi => r.here i (h.mem_iff.2 hi),
    fun i hi => r.noself i (h.mem_iff.2 hi),
    fun i hi n hn j hj => r.reads i (h.mem_iff.2 hi) n hn j (h.mem_iff.2 hj)⟩

theorem Ready.sub {todo todo' : List Nat} {g : RGraph P S} (h : todo'.Sublist todo)
    (r : Ready ok reads E todo g) : Ready ok reads E todo' g :=
  ⟨r.toWFe, r.ok, r.under, h.nodup r.nodup, fun i hi => r.here i (h.subset hi),
    fun i hi => r.noself i (h.subset hi),
    fun i hi n hn j hj => r.reads i (h.subset hi) n hn j (h.subset hj)⟩

theorem Ready.like {todo : List Nat} {g h : RGraph P S} (l : Like g h)
    (r : Ready ok reads E todo g) : Ready ok reads E todo h := by
  refine ⟨l.wfe r.toWFe, l.ok r.ok, fun u m hm e he => ?_, r.nodup, fun i hi => ?_, r.noself,
    fun i hi m hm j hj hr => ?_⟩
  · obtain ⟨n, h1, h2⟩ := l.symm.some u m hm
    exact r.under u n h1 e (h2.edges.mem_iff.2 he)
  · obtain ⟨n, hn⟩ := r.here i hi
    obtain ⟨m, hm, _⟩ := l.some i n hn
    exact ⟨m, hm⟩
  · obtain ⟨n, h1, h2⟩ := l.symm.some i m hm
    exact r.reads i hi n h1 j hj (by rw [h2.proc]; exact hr)

theorem Ready.step (ho : Orderly sem ok reads) {i : Nat} {todo : List Nat} {g : RGraph P S}
    (r : Ready ok reads E (i :: todo) g) :
    ∃ n g', g.slot i = some n ∧ renderNode sem g i = some g' ∧ NodeStep sem g i n g' ∧
      Ready ok reads E todo g' := by
  obtain ⟨n, hn⟩ := r.here i (by simp)
  have hself : ∀ e ∈ n.edges, e.dst ≠ i := fun e he hd =>
    r.noself i (by simp) (by have := r.under i n hn e he; rwa [hd] at this)
  obtain ⟨g', hr, hs⟩ := renderNode_spec sem r.toWFe hn hself
  have hnd := List.nodup_cons.1 r.nodup
  have hne : ∀ j ∈ todo, j ≠ i := by rintro j hj rfl; exact hnd.1 hj
  refine ⟨n, g', hn, hr, hs, ⟨hs.wfe sem hn r.toWFe, hs.ok sem ho r.ok hn, ?_, hnd.2, ?_,
    fun j hj => r.noself j (by simp [hj]), ?_⟩⟩
  · intro u m' hm e he
    obtain ⟨m, hm0, b1, b2, b3, b4, b5, b6, b7, b8⟩ := hs.back sem hn hm
    exact r.under u m hm0 e (b7 e he)
  · intro j hj
    obtain ⟨m, hm⟩ := r.here j (by simp [hj])
    obtain ⟨m', a, _⟩ := hs.forth sem (Or.inl (hne j hj)) hn hm
    exact ⟨m', a⟩
  · intro j hj m' hm' k hk hr
    obtain ⟨m, hm⟩ := r.here j (by simp [hj])
    obtain ⟨m1, x0, x1, x2, _⟩ := hs.some j m (hne j hj) hm
    rw [hm'] at x0; cases x0
    exact r.reads j (by simp [hj]) m hm k (by simp [hk]) (by rw [← x2]; exact hr)

theorem Ready.fold (ho : Orderly sem ok reads) {todo : List Nat} {g h : RGraph P S} (l : Like g h)
    (r : Ready ok reads E todo g) :
    ∃ a b, foldOpt (renderNode sem) todo g = some a ∧ foldOpt (renderNode sem) todo h = some b ∧ Like a b ∧
      OkG ok a := by
  induction todo generalizing g h with
  | nil => exact ⟨g, h, rfl, rfl, l, r.ok⟩
  | cons i todo ih =>
    obtain ⟨n, g1, hn, g2, g3, g4⟩ := r.step sem ho
    obtain ⟨m, h1, hm, h2, h3, _⟩ := (r.like l).step sem ho
    obtain ⟨a, b, k1, k2, k3, k4⟩ := ih (like_step sem ho r.ok l hn hm g3 h3) g4
    exact ⟨a, b, by simp [foldOpt, g2, k1], by simp [foldOpt, h2, k2], k3, k4⟩

/-- a node can be moved to the front past nodes it is not connected with -/
theorem move (ho : Orderly sem ok reads) {i : Nat} (pre post : List Nat) {g : RGraph P S}
    (r : Ready ok reads E (pre ++ i :: post) g) (h1 : ∀ x ∈ pre, ¬ E x i) (h2 : ∀ x ∈ pre, ¬ E i x) :
    ∃ a b, foldOpt (renderNode sem) (pre ++ i :: post) g = some a ∧
      foldOpt (renderNode sem) (i :: (pre ++ post)) g = some b ∧ Like a b := by
  induction pre generalizing g with
  | nil =>
    obtain ⟨a, b, k1, k2, k3, _⟩ := r.fold sem ho (.refl g)
    exact ⟨a, b, k1, k2, k3⟩
  | cons x pre ih =>
    have hxi : x ≠ i := by
      rintro rfl
      have := (List.nodup_cons.1 r.nodup).1
      simp at this
    obtain ⟨nx, gx, a1, a2, a3, a4⟩ := r.step sem ho
    obtain ⟨a, b, b1, b2, b3⟩ := ih a4 (fun y hy => h1 y (by simp [hy])) (fun y hy => h2 y (by simp [hy]))
    -- the order `x, i, …` against `i, x, …`
    have rx : Ready ok reads E (x :: i :: (pre ++ post)) g :=
      r.perm (List.perm_middle.cons x)
    have ri : Ready ok reads E (i :: x :: (pre ++ post)) g := rx.perm (List.Perm.swap _ _ _)
    obtain ⟨nx', gx', c1, c2, c3, c4⟩ := rx.step sem ho
    rw [a1] at c1; cases c1
    rw [a2] at c2; cases c2
    obtain ⟨ni, gi, d1, d2, d3, d4⟩ := ri.step sem ho
    have ein : ∀ e ∈ ni.edges, e.dst ≠ x := fun e he hd =>
      h2 x (by simp) (by have := r.under i ni d1 e he; rwa [hd] at this)
    have exn : ∀ e ∈ nx.edges, e.dst ≠ i := fun e he hd =>
      h1 x (by simp) (by have := r.under x nx a1 e he; rwa [hd] at this)
    have ni_x : gx.slot i = some ni := bystander sem a3 (Ne.symm hxi) d1 exn ein
    have nx_i : gi.slot x = some nx := bystander sem d3 hxi a1 ein exn
    obtain ⟨ni', gxi, p1, p2, p3, p4⟩ := c4.step sem ho
    rw [ni_x] at p1; cases p1
    obtain ⟨nx', gix, q1, q2, q3, q4⟩ := d4.step sem ho
    rw [nx_i] at q1; cases q1
    have hr1 : ¬ reads nx.proc i := fun h => by
      rcases rx.reads x (by simp) nx a1 i (by simp) h with h | h
      · exact hxi h.symm
      · exact h2 x (by simp) h
    have hr2 : ¬ reads ni.proc x := fun h => by
      rcases rx.reads i (by simp) ni d1 x (by simp) h with h | h
      · exact hxi h
      · exact h1 x (by simp) h
    have hsw : Like gxi gix := swap sem ho r.ok hxi a1 d1 exn ein hr1 hr2 a3 p3 d3 q3
    obtain ⟨u, v, u1, u2, u3, _⟩ := p4.fold sem ho hsw
    refine ⟨a, v, ?_, ?_, ?_⟩
    · simp only [List.cons_append, foldOpt, a2]; exact b1
    · simp only [List.cons_append, foldOpt, d2, q2]; exact u2
    · simp only [foldOpt, p2, u1, Option.some.injEq] at b2
      subst b2
      exact b3.trans u3

/-- any two orders that respect the connections give the same graph -/
theorem orders (ho : Orderly sem ok reads) : ∀ (L' L : List Nat) (g : RGraph P S), L.Perm L' →
    Ready ok reads E L g → L.Pairwise (fun u v => ¬ E v u) → L'.Pairwise (fun u v => ¬ E v u) →
    ∃ a b, foldOpt (renderNode sem) L g = some a ∧ foldOpt (renderNode sem) L' g = some b ∧ Like a b := by
  intro L'
  induction L' with
  | nil =>
    intro L g hp _ _ _
    have := hp.eq_nil
    subst this
    exact ⟨g, g, rfl, rfl, .refl g⟩
  | cons i L' ih =>
    intro L g hp r t t'
    have hi : i ∈ L := hp.mem_iff.2 (by simp)
    obtain ⟨pre, post, rfl⟩ := List.append_of_mem hi
    have hp' : (pre ++ post).Perm L' := (List.perm_cons i).1 (List.perm_middle.symm.trans hp)
    have t1 := List.pairwise_cons.1 t'
    have t2 := List.pairwise_append.1 t
    obtain ⟨a, b, m1, m2, m3⟩ := move sem ho pre post r
      (fun x hx => t1.1 x (hp'.mem_iff.1 (by simp [hx]))) (fun x hx => t2.2.2 x hx i (by simp))
    obtain ⟨n, g1, s1, s2, s3, s4⟩ := (r.perm List.perm_middle).step sem ho
    obtain ⟨c, d, k1, k2, k3⟩ := ih (pre ++ post) g1 hp' s4
      (List.pairwise_append.2 ⟨t2.1, (List.pairwise_cons.1 t2.2.1).2,
        fun x hx y hy => t2.2.2 x hx y (by simp [hy])⟩) t1.2
    simp only [foldOpt, s2, k1, Option.some.injEq] at m2
    subst m2
    exact ⟨a, d, m1, by simp only [foldOpt, s2]; exact k2, m3.trans k3⟩

end RGraph

/-! ## One quantum -/

/-- there is a connection from `u` to `v` -/
def Joined (g : RGraph P S) (u v : Nat) : Prop := ∃ n, g.slot u = some n ∧ ∃ e ∈ n.edges, e.dst = v

/-- Processors look only at the outputs of nodes that have a connection to them: AudioParams are connected to
the hidden port of their node. -/
def Wired (reads : P → Nat → Prop) (g : RGraph P S) : Prop :=
  ∀ i n, g.slot i = some n → ∀ j, reads n.proc j → (g.slot j).isSome → j = i ∨ Joined g j i

/-- A graph without cycles whose nodes will all be processed. -/
structure Fit (reads : P → Nat → Prop) (g : RGraph P S) : Prop where
  wf : WF g
  complete : Complete g
  acyclic : Acyclic g
  wired : Wired reads g

theorem Like.joined {g h : RGraph P S} (l : Like g h) {u v : Nat} (j : Joined g u v) : Joined h u v := by
  obtain ⟨n, hn, e, he, hd⟩ := j
  obtain ⟨m, hm, hl⟩ := l.some u n hn
  exact ⟨m, hm, e, hl.edges.mem_iff.2 he, hd⟩

/-- ordering a graph without cycles does not change it -/
theorem ordered_like {g g1 : RGraph P S} (w : WF g) (hac : Acyclic g) (h : g.orderedGraph = some g1) :
    WF g1 ∧ Like g g1 := by
  obtain ⟨g1', h1, h2, h3, _, _, h6, h7⟩ := RGraph.orderedGraph_spec w
  rw [h] at h1; cases h1
  refine ⟨h2, h3, h6, fun i n hn => ⟨n, ?_, .refl n⟩⟩
  rcases h7 i n hn with h | ⟨_, _, hc⟩
  · exact h
  · refine absurd (TransGen.mono (r := g.topo.Edge) ?_ i i hc) (hac i)
    rintro u v ⟨hu, hv⟩
    obtain ⟨m, hm⟩ := (RGraph.mem_keys w.toWFe u).1 hu
    simp only [RGraph.topo, hm, List.mem_map] at hv
    exact ⟨m, hm, hv⟩

theorem pairwise_of_before {E : Nat → Nat → Prop} {l : List Nat} (hl : l.Nodup)
    (h : ∀ u ∈ l, ∀ v ∈ l, E u v → Before l u v) : l.Pairwise fun u v => ¬ E v u := by
  rw [List.pairwise_iff_getElem]
  intro a b ha hb hab hE
  obtain ⟨p, q, r, hp⟩ := h _ (List.getElem_mem hb) _ (List.getElem_mem ha) hE
  have at1 : ∀ x y, l = p ++ x :: q ++ y :: r → l[p.length]? = some x := by
    rintro x y rfl; simp
  have at2 : ∀ x y, l = p ++ x :: q ++ y :: r → l[p.length + 1 + q.length]? = some y := by
    rintro x y rfl
    rw [List.getElem?_append_right (by simp; omega)]
    have : p.length + 1 + q.length - (p ++ x :: q).length = 0 := by simp; omega
    rw [this]; rfl
  have h1 := at1 _ _ hp
  have h2 := at2 _ _ hp
  have e1 : p.length = b := by
    obtain ⟨hlt, he⟩ := List.getElem?_eq_some_iff.1 h1
    exact (List.Nodup.getElem_inj_iff hl).1 he
  have e2 : p.length + 1 + q.length = a := by
    obtain ⟨hlt, he⟩ := List.getElem?_eq_some_iff.1 h2
    exact (List.Nodup.getElem_inj_iff hl).1 he
  omega

theorem WF.pairwise {g : RGraph P S} (w : WF g) : g.ordered.Pairwise fun u v => ¬ Joined g v u :=
  pairwise_of_before w.nodup fun u hu v hv ⟨n, hn, he⟩ => w.fwd u hu v hv n hn he

/-- One quantum of two graphs with the same nodes and connections: same sound, and the graphs are alike again. -/
theorem render_like {sem : Sem P S M} {ok : S → Prop} {reads : P → Nat → Prop} (ho : Orderly sem ok reads)
    {g h : RGraph P S} (l : Like g h) (hok : OkG ok g) (fg : Fit reads g) (wh : WF h) (ch : Complete h) :
    (g.render sem = none ∧ h.render sem = none) ∨
    ∃ g' h' o, g.render sem = some (g', o) ∧ h.render sem = some (h', o) ∧ Like g' h' ∧ OkG ok g' := by
  have hach : Acyclic h := fun i hc => fg.acyclic i
    (TransGen.mono (fun u v (j : Joined h u v) => l.symm.joined j) i i hc)
  obtain ⟨g1, g2, a1, a2, a3, a4, _⟩ := C05_every_node_processed_partial sem fg.wf fg.complete fg.acyclic
  obtain ⟨h1, h2, b1, b2, b3, b4, _⟩ := C05_every_node_processed_partial sem wh ch hach
  obtain ⟨wg1, lg1⟩ := ordered_like fg.wf fg.acyclic a1
  obtain ⟨wh1, lh1⟩ := ordered_like wh hach b1
  have l1 : Like g1 h1 := (lg1.symm.trans l).trans lh1
  have hsome : ∀ i, (h.slot i).isSome = (g.slot i).isSome := by
    intro i
    cases hs : g.slot i with
    | none => rw [l.none i hs]
    | some n => obtain ⟨m, hm, _⟩ := l.some i n hs; rw [hm]; rfl
  have hperm : g1.ordered.Perm h1.ordered := (List.perm_ext_iff_of_nodup a2 b2).2 fun i => by
    rw [a3, b3, hsome]
  have ready : RGraph.Ready ok reads (Joined g) g1.ordered g1 := by
    refine ⟨wg1.toWFe, lg1.ok hok, fun u n hn e he => lg1.symm.joined ⟨n, hn, e, he, rfl⟩, a2, wg1.mem,
      fun i _ hj => fg.acyclic i (.single hj), fun i hi n hn j hj hr => ?_⟩
    obtain ⟨m, hm, hl⟩ := lg1.symm.some i n hn
    exact fg.wired i m hm j (by rw [hl.proc]; exact hr) ((a3 j).1 hj)
  have p1 : g1.ordered.Pairwise fun u v => ¬ Joined g v u :=
    wg1.pairwise.imp fun h j => h (lg1.joined j)
  have p2 : h1.ordered.Pairwise fun u v => ¬ Joined g v u :=
    wh1.pairwise.imp fun h j => h (l1.joined (lg1.joined j))
  obtain ⟨x, y, x1, x2, x3⟩ := RGraph.orders sem ho h1.ordered g1.ordered g1 hperm ready p1 p2
  obtain ⟨y', z, y1, y2, y3, y4⟩ := (ready.perm hperm).fold sem ho l1
  obtain ⟨x', _, x4, _, _, x5⟩ := ready.fold sem ho (.refl g1)
  rw [x2] at y1; cases y1
  rw [x1] at x4; cases x4
  have lxz := x3.trans y3
  rw [a4] at x1; cases x1
  rw [b4] at y2; cases y2
  obtain ⟨_, _, c1, _, c2, _, _, c3⟩ := RGraph.render_spec sem fg.wf
  obtain ⟨_, _, d1, _, d2, _, _, d3⟩ := RGraph.render_spec sem wh
  rw [show g.orderedGraph = some g1 from a1] at c1; cases c1
  rw [show h.orderedGraph = some h1 from b1] at d1; cases d1
  rw [a4] at c2; cases c2
  rw [b4] at d2; cases d2
  rw [c3, d3]
  cases hs : g2.slot 0 with
  | none => left; rw [lxz.none 0 hs]; simp
  | some d =>
    obtain ⟨d', hd', hl⟩ := lxz.some 0 d hs
    rw [hd']
    simp only [Option.bind_some, hl.outputs]
    cases d.outputs.head? with
    | none => left; simp
    | some o => right; exact ⟨_, _, o, rfl, rfl, ⟨lxz.cap, lxz.none, lxz.some⟩, x5⟩

/-! ## Messages -/

/-- both panic, or the results are alike -/
def LikeO : Option (RGraph P S) → Option (RGraph P S) → Prop
  | some g, some h => Like g h
  | none, none => True
  | _, _ => False

theorem LikeO.trans {a b c : Option (RGraph P S)} (h : LikeO a b) (k : LikeO b c) : LikeO a c := by
  cases a <;> cases b <;> cases c <;> simp only [LikeO] at h k ⊢
  exact Like.trans h k

theorem like_get {g h : RGraph P S} (l : Like g h) (i : Nat) :
    (g.get i = none ∧ h.get i = none) ∨ ∃ n m, g.get i = some n ∧ h.get i = some m ∧ NodeLike n m := by
  unfold RGraph.get
  rw [l.cap]
  split
  · cases hs : g.slot i with
    | none => exact .inl ⟨rfl, l.none i hs⟩
    | some n => obtain ⟨m, hm, hl⟩ := l.some i n hs; exact .inr ⟨n, m, rfl, hm, hl⟩
  · exact .inl ⟨rfl, rfl⟩

theorem like_put {g h : RGraph P S} (l : Like g h) (i : Nat) {n m : Node P S} (hl : NodeLike n m) :
    Like (g.put i (some n)) (h.put i (some m)) := by
  refine ⟨l.cap, fun k hk => ?_, fun k a ha => ?_⟩
  · simp only [RGraph.put] at hk ⊢
    split at hk
    · simp at hk
    · rename_i hne; rw [if_neg hne]; exact l.none k hk
  · simp only [RGraph.put] at ha ⊢
    split at ha
    · rename_i he; cases ha; exact ⟨m, if_pos he, hl⟩
    · rename_i hne; rw [if_neg hne]; exact l.some k a ha

theorem like_ordered {g h : RGraph P S} (l : Like g h) (o o' : List Nat) :
    Like { g with ordered := o } { h with ordered := o' } := ⟨l.cap, l.none, l.some⟩

/-- a node after the removal of a connection (graph.rs l.282-291) -/
def dropEdge (n : Node P S) (e : Edge) : Node P S :=
  { n with edges := n.edges.filter fun x => x.dst ≠ e.dst ∨ x.out ≠ e.out ∨ x.port ≠ e.port }

theorem handle_like (sem : Sem P S M) {g h : RGraph P S} (l : Like g h) (m : Msg P M) :
    LikeO (g.handle sem m) (h.handle sem m) := by
  cases m with
  | register id tag proc nin nout cfg =>
    refine ⟨by simp [RGraph.addNode, l.cap], fun k hk => ?_, fun k a ha => ?_⟩
    · simp only [RGraph.addNode] at hk ⊢
      split at hk
      · simp at hk
      · rename_i hne; rw [if_neg hne]; exact l.none k hk
    · simp only [RGraph.addNode] at ha ⊢
      split at ha
      · rename_i he; cases ha; rw [if_pos he]; exact ⟨_, rfl, .refl _⟩
      · rename_i hne; rw [if_neg hne]; exact l.some k a ha
  | connect src stag e dtag =>
    simp only [RGraph.handle, RGraph.addEdge]
    rcases like_get l src with ⟨h1, h2⟩ | ⟨n, m, h1, h2, hl⟩ <;> rw [h1, h2]
    · trivial
    · refine like_ordered (like_put l src (m := { m with edges := m.edges ++ [e] }) ?_) _ _
      exact ⟨hl.tag, hl.proc, hl.inputs, hl.outputs, hl.cfg, hl.dropped, hl.hasInputs, hl.breaker,
        hl.edges.append_right _⟩
  | disconnect src stag e =>
    simp only [RGraph.handle, RGraph.removeEdge]
    rcases like_get l src with ⟨h1, h2⟩ | ⟨n, m, h1, h2, hl⟩ <;> rw [h1, h2]
    · trivial
    · exact like_ordered (like_put l src (m := dropEdge m e) (n := dropEdge n e) ⟨hl.tag, hl.proc, hl.inputs,
        hl.outputs, hl.cfg, hl.dropped, hl.hasInputs, hl.breaker, hl.edges.filter _⟩) _ _
  | dropped id tag =>
    simp only [RGraph.handle, RGraph.markDropped, l.cap]
    split
    · cases hs : g.slot id with
      | none => rw [l.none id hs]; exact l
      | some n =>
        obtain ⟨m, hm, hl⟩ := l.some id n hs
        rw [hm]
        exact like_put l id ⟨hl.tag, hl.proc, hl.inputs, hl.outputs, hl.cfg, rfl, hl.hasInputs, hl.breaker, hl.edges⟩
    · trivial
  | breaker id tag =>
    simp only [RGraph.handle, RGraph.markBreaker]
    rcases like_get l id with ⟨h1, h2⟩ | ⟨n, m, h1, h2, hl⟩ <;> rw [h1, h2]
    · trivial
    · exact like_put l id ⟨hl.tag, hl.proc, hl.inputs, hl.outputs, hl.cfg, hl.dropped, hl.hasInputs, rfl, hl.edges⟩
  | post id tag x =>
    simp only [RGraph.handle, RGraph.routeMessage]
    rcases like_get l id with ⟨h1, h2⟩ | ⟨n, m, h1, h2, hl⟩ <;> rw [h1, h2]
    · trivial
    · simp only [Option.bind_some, hl.proc]
      cases sem.onmessage n.proc x with
      | none => trivial
      | some q =>
        exact like_put l id ⟨hl.tag, rfl, hl.inputs, hl.outputs, hl.cfg, hl.dropped, hl.hasInputs, hl.breaker, hl.edges⟩
  | setCfg id tag c =>
    simp only [RGraph.handle, RGraph.setCfg]
    rcases like_get l id with ⟨h1, h2⟩ | ⟨n, m, h1, h2, hl⟩ <;> rw [h1, h2]
    · trivial
    · exact like_put l id ⟨hl.tag, hl.proc, hl.inputs, hl.outputs, rfl, hl.dropped, hl.hasInputs, hl.breaker, hl.edges⟩

theorem handle_ok {sem : Sem P S M} {ok : S → Prop} (hs : ok sem.silence) {g g' : RGraph P S}
    (hok : OkG ok g) {m : Msg P M} (h : g.handle sem m = some g') : OkG ok g' := by
  have get_ok : ∀ i n, g.get i = some n → (∀ s ∈ n.inputs, ok s) ∧ ∀ s ∈ n.outputs, ok s := by
    intro i n hn
    unfold RGraph.get at hn
    split at hn
    · exact hok i n hn
    · simp at hn
  have put_ok : ∀ i (n : Node P S), ((∀ s ∈ n.inputs, ok s) ∧ ∀ s ∈ n.outputs, ok s) →
      OkG ok (g.put i (some n)) := by
    intro i n hn k a ha
    simp only [RGraph.put] at ha
    split at ha
    · cases ha; exact hn
    · exact hok k a ha
  cases m with
  | register id tag proc nin nout cfg =>
    simp only [RGraph.handle, Option.some.injEq] at h
    subst h
    intro k a ha
    simp only [RGraph.addNode] at ha
    split at ha
    · cases ha
      exact ⟨fun s h => by rw [List.eq_of_mem_replicate h]; exact hs,
        fun s h => by rw [List.eq_of_mem_replicate h]; exact hs⟩
    · exact hok k a ha
  | connect src stag e dtag =>
    simp only [RGraph.handle, RGraph.addEdge] at h
    split at h
    · rename_i n hn
      cases h
      exact put_ok src { n with edges := n.edges ++ [e] } (get_ok src n hn)
    · simp at h
  | disconnect src stag e =>
    simp only [RGraph.handle, RGraph.removeEdge] at h
    split at h
    · rename_i n hn
      cases h
      exact put_ok src { n with edges := n.edges.filter fun x => x.dst ≠ e.dst ∨ x.out ≠ e.out ∨ x.port ≠ e.port }
        (get_ok src n hn)
    · simp at h
  | dropped id tag =>
    simp only [RGraph.handle, RGraph.markDropped] at h
    split at h
    · split at h
      · rename_i n hn
        cases h
        exact put_ok id { n with dropped := true } (hok id n hn)
      · cases h; exact hok
    · simp at h
  | breaker id tag =>
    simp only [RGraph.handle, RGraph.markBreaker, Option.map_eq_some_iff] at h
    obtain ⟨n, hn, rfl⟩ := h
    exact put_ok id { n with breaker := true } (get_ok id n hn)
  | post id tag x =>
    simp only [RGraph.handle, RGraph.routeMessage, Option.bind_eq_some_iff, Option.map_eq_some_iff] at h
    obtain ⟨n, hn, q, hq, rfl⟩ := h
    exact put_ok id { n with proc := q } (get_ok id n hn)
  | setCfg id tag c =>
    simp only [RGraph.handle, RGraph.setCfg, Option.map_eq_some_iff] at h
    obtain ⟨n, hn, rfl⟩ := h
    exact put_ok id { n with cfg := c } (get_ok id n hn)

theorem handles_like (sem : Sem P S M) (ms : List (Msg P M)) {g h : RGraph P S} (l : Like g h) :
    LikeO (RGraph.foldOpt (RGraph.handle sem) ms g) (RGraph.foldOpt (RGraph.handle sem) ms h) := by
  induction ms generalizing g h with
  | nil => exact l
  | cons m ms ih =>
    have := handle_like sem l m
    simp only [RGraph.foldOpt]
    cases h1 : g.handle sem m <;> cases h2 : h.handle sem m <;> rw [h1, h2] at this
    · trivial
    · exact this.elim
    · exact this.elim
    · exact ih this

theorem handles_ok {sem : Sem P S M} {ok : S → Prop} (hs : ok sem.silence) (ms : List (Msg P M))
    {g g' : RGraph P S} (hok : OkG ok g) (h : RGraph.foldOpt (RGraph.handle sem) ms g = some g') : OkG ok g' := by
  induction ms generalizing g with
  | nil => simp only [RGraph.foldOpt, Option.some.injEq] at h; exact h ▸ hok
  | cons m ms ih =>
    simp only [RGraph.foldOpt] at h
    cases h1 : g.handle sem m with
    | none => rw [h1] at h; simp at h
    | some a => rw [h1] at h; exact ih (handle_ok hs hok h1) h

/-! ## Histories -/

/-- What the destination plays: before each quantum the render thread handles a batch of messages. `none`: panic. -/
def hear (sem : Sem P S M) : List (List (Msg P M)) → RGraph P S → Option (List S)
  | [], _ => some []
  | b :: bs, g =>
    match RGraph.foldOpt (RGraph.handle sem) b g with
    | none => none
    | some g1 =>
      match g1.render sem with
      | none => none
      | some (g2, o) => (hear sem bs g2).map (o :: ·)

/-- `Q` holds at the start of every quantum -/
def Always (sem : Sem P S M) (Q : RGraph P S → Prop) : List (List (Msg P M)) → RGraph P S → Prop
  | [], _ => True
  | b :: bs, g => ∀ g1, RGraph.foldOpt (RGraph.handle sem) b g = some g1 →
    Q g1 ∧ ∀ g2 o, g1.render sem = some (g2, o) → Always sem Q bs g2

theorem hear_of_some {sem : Sem P S M} {b : List (Msg P M)} {bs : List (List (Msg P M))} {g g1 : RGraph P S}
    (h : RGraph.foldOpt (RGraph.handle sem) b g = some g1) :
    hear sem (b :: bs) g = (g1.render sem).bind fun r => (hear sem bs r.1).map (r.2 :: ·) := by
  simp only [hear, h]
  cases g1.render sem with
  | none => rfl
  | some r => rfl

theorem hear_of_none {sem : Sem P S M} {b : List (Msg P M)} {bs : List (List (Msg P M))} {g : RGraph P S}
    (h : RGraph.foldOpt (RGraph.handle sem) b g = none) : hear sem (b :: bs) g = none := by
  simp only [hear, h]

/-- **C98** Two graphs with the same nodes and connections, made in whatever order, play the same sound for all time,
whatever messages follow, as long as there are no cycles, nodes are registered before connections of the same batch
(`Complete`, see C05) and the sums at the inputs do not depend on the order (`Orderly`, see C13). What is missing is
false: see `C98_negated_cycle`, `C05_negated`, `C13_negated_order`. -/
theorem C98_history_partial {sem : Sem P S M} {ok : S → Prop} {reads : P → Nat → Prop} (ho : Orderly sem ok reads)
    (bs : List (List (Msg P M))) {g h : RGraph P S} (l : Like g h) (hok : OkG ok g)
    (fg : Always sem (Fit reads) bs g) (fh : Always sem (Fit reads) bs h) : hear sem bs g = hear sem bs h := by
  induction bs generalizing g h with
  | nil => rfl
  | cons b bs ih =>
    have hl := handles_like sem b l
    cases h1 : RGraph.foldOpt (RGraph.handle sem) b g with
    | none =>
      cases h2 : RGraph.foldOpt (RGraph.handle sem) b h with
      | none => rw [hear_of_none h1, hear_of_none h2]
      | some y => rw [h1, h2] at hl; exact hl.elim
    | some x =>
      cases h2 : RGraph.foldOpt (RGraph.handle sem) b h with
      | none => rw [h1, h2] at hl; exact hl.elim
      | some y =>
        rw [h1, h2] at hl
        rw [hear_of_some h1, hear_of_some h2]
        obtain ⟨fx, kx⟩ := fg x h1
        obtain ⟨fy, ky⟩ := fh y h2
        rcases render_like ho hl (handles_ok ho.silence b hok h1) fx fy.wf fy.complete with
          ⟨r1, r2⟩ | ⟨g', h', o, r1, r2, r3, r4⟩
        · rw [r1, r2]
        · rw [r1, r2]
          simp only [Option.bind_some]
          rw [ih r3 r4 (kx g' o r1) (ky h' o r2)]

/-- `connect` messages -/
def connects (cs : List (Nat × Edge)) : List (Msg P M) := cs.map fun c => .connect c.1 0 c.2 0

theorem addEdge_slot {g : RGraph P S} {a : Nat} {n : Node P S} (e : Edge) (h : g.get a = some n) :
    g.addEdge a e = some { g.put a (some { n with edges := n.edges ++ [e] }) with ordered := [] } := by
  simp only [RGraph.addEdge, h]

theorem connect_swap (g : RGraph P S) (a b : Nat) (e f : Edge) :
    LikeO ((g.addEdge a e).bind fun x => x.addEdge b f) ((g.addEdge b f).bind fun x => x.addEdge a e) := by
  by_cases hab : a = b
  · subst hab
    cases ha : g.get a with
    | none => simp [RGraph.addEdge, ha, LikeO]
    | some n =>
      have hcap : a < g.cap := by
        unfold RGraph.get at ha
        by_contra hc
        rw [if_neg hc] at ha; simp at ha
      have h2 : ∀ x y : Edge, ((g.addEdge a x).bind fun z => z.addEdge a y) =
          some { g.put a (some { n with edges := n.edges ++ [x] ++ [y] }) with ordered := [] } := by
        intro x y
        rw [addEdge_slot x ha]
        simp only [Option.bind_some, RGraph.addEdge, RGraph.get, RGraph.put, hcap, if_true, if_pos]
        congr 2
        funext j
        by_cases hj : j = a <;> simp [hj]
      rw [h2, h2]
      refine like_ordered (like_put (.refl g) a ?_) _ _
      refine ⟨rfl, rfl, rfl, rfl, rfl, rfl, rfl, rfl, ?_⟩
      simp only [List.append_assoc]
      exact (List.Perm.swap _ _ _).append_left _
  · have other : ∀ {a b : Nat} {n : Node P S} {e : Edge}, a ≠ b → g.get a = some n →
        RGraph.get { g.put a (some { n with edges := n.edges ++ [e] }) with ordered := [] } b = g.get b := by
      intro a b n e hab _
      simp only [RGraph.get, RGraph.put, if_neg (Ne.symm hab)]
    cases ha : g.get a with
    | none =>
      cases hb : g.get b with
      | none => simp [RGraph.addEdge, ha, hb, LikeO]
      | some m =>
        rw [addEdge_slot f hb]
        simp only [Option.bind_some, RGraph.addEdge, ha, Option.bind_none]
        rw [other (Ne.symm hab) hb, ha]
        trivial
    | some n =>
      cases hb : g.get b with
      | none =>
        rw [addEdge_slot e ha]
        simp only [Option.bind_some, RGraph.addEdge, hb, Option.bind_none]
        rw [other hab ha, hb]
        trivial
      | some m =>
        rw [addEdge_slot e ha, addEdge_slot f hb]
        simp only [Option.bind_some]
        rw [addEdge_slot f ((other hab ha).trans hb), addEdge_slot e ((other (Ne.symm hab) hb).trans ha)]
        refine ⟨rfl, fun k hk => ?_, fun k x hx => ?_⟩
        · simp only [RGraph.put] at hk ⊢
          by_cases h1 : k = a
          · subst h1; simp [hab] at hk
          · by_cases h2 : k = b
            · subst h2; simp at hk
            · simpa [h1, h2] using hk
        · refine ⟨x, ?_, .refl x⟩
          simp only [RGraph.put] at hx ⊢
          by_cases h1 : k = a
          · subst h1; simpa [hab] using hx
          · by_cases h2 : k = b
            · subst h2; simpa [h1] using hx
            · simpa [h1, h2] using hx

theorem connects_perm (sem : Sem P S M) {cs cs' : List (Nat × Edge)} (h : cs.Perm cs') :
    ∀ g : RGraph P S, LikeO (RGraph.foldOpt (RGraph.handle sem) (connects cs) g)
      (RGraph.foldOpt (RGraph.handle sem) (connects cs') g) := by
  induction h with
  | nil => exact fun g => .refl g
  | cons c _ ih =>
    intro g
    simp only [connects, List.map_cons, RGraph.foldOpt]
    cases g.handle sem (.connect c.1 0 c.2 0) with
    | none => trivial
    | some a => exact ih a
  | swap c d l =>
    intro g
    have hs := connect_swap g d.1 c.1 d.2 c.2
    have two : ∀ c d : Nat × Edge, RGraph.foldOpt (RGraph.handle sem) (connects (c :: d :: l)) g =
        ((g.addEdge c.1 c.2).bind fun x => x.addEdge d.1 d.2).bind
          (RGraph.foldOpt (RGraph.handle sem) (connects l)) := by
      intro c d
      simp only [connects, List.map_cons, RGraph.foldOpt, RGraph.handle]
      cases g.addEdge c.1 c.2 with
      | none => rfl
      | some a =>
        simp only [Option.bind_some]
        cases a.addEdge d.1 d.2 <;> rfl
    rw [two, two]
    cases h1 : (g.addEdge d.1 d.2).bind (fun x => x.addEdge c.1 c.2) <;>
      cases h2 : (g.addEdge c.1 c.2).bind (fun x => x.addEdge d.1 d.2) <;> rw [h1, h2] at hs
    · trivial
    · exact hs.elim
    · exact hs.elim
    · exact handles_like sem (connects l) hs
  | trans _ _ ih1 ih2 => exact fun g => (ih1 g).trans (ih2 g)

/-- **C98, connections.** A set of connections made in two different orders, followed by the same messages and quanta:
the same sound, under the conditions of `C98_history_partial`. -/
theorem C98_connection_order_partial {sem : Sem P S M} {ok : S → Prop} {reads : P → Nat → Prop}
    (ho : Orderly sem ok reads) {cs cs' : List (Nat × Edge)} (hcs : cs.Perm cs') (b : List (Msg P M))
    (bs : List (List (Msg P M))) {g : RGraph P S} (hok : OkG ok g)
    (f : Always sem (Fit reads) ((connects cs ++ b) :: bs) g) (f' : Always sem (Fit reads) ((connects cs' ++ b) :: bs) g) :
    hear sem ((connects cs ++ b) :: bs) g = hear sem ((connects cs' ++ b) :: bs) g := by
  have hl := connects_perm sem hcs g
  have hb : ∀ cs : List (Nat × Edge), RGraph.foldOpt (RGraph.handle sem) (connects cs ++ b) g =
      (RGraph.foldOpt (RGraph.handle sem) (connects cs) g).bind (RGraph.foldOpt (RGraph.handle sem) b) :=
    fun cs => RGraph.foldOpt_append _ _ _ _
  cases h1 : RGraph.foldOpt (RGraph.handle sem) (connects cs) g <;>
    cases h2 : RGraph.foldOpt (RGraph.handle sem) (connects cs') g <;> rw [h1, h2] at hl
  · rw [hear_of_none (by rw [hb, h1]; rfl), hear_of_none (by rw [hb, h2]; rfl)]
  · exact hl.elim
  · exact hl.elim
  · rename_i x y
    have e : ∀ (cs : List (Nat × Edge)) (z : RGraph P S),
        RGraph.foldOpt (RGraph.handle sem) (connects cs) g = some z →
        RGraph.foldOpt (RGraph.handle sem) (connects cs ++ b) g = RGraph.foldOpt (RGraph.handle sem) b z :=
      fun cs z hz => by rw [hb, hz]; rfl
    have same : ∀ (cs : List (Nat × Edge)) (z : RGraph P S),
        RGraph.foldOpt (RGraph.handle sem) (connects cs) g = some z →
        hear sem ((connects cs ++ b) :: bs) g = hear sem (b :: bs) z := by
      intro cs z hz
      simp only [hear, e cs z hz]
    rw [same cs x h1, same cs' y h2]
    refine C98_history_partial ho (b :: bs) hl (handles_ok ho.silence (connects cs) hok h1) ?_ ?_
    · intro g1 hg1; exact f g1 (by rw [e cs x h1]; exact hg1)
    · intro g1 hg1; exact f' g1 (by rw [e cs' y h2]; exact hg1)

/-! ## A case that meets the hypotheses -/

theorem calm_orderly : Orderly calmSem (fun _ => True) (fun _ _ => False) :=
  ⟨trivial, fun _ _ _ _ _ => trivial, fun _ s a b _ _ _ => by simp only [calmSem]; omega,
    fun _ _ _ _ _ _ _ _ _ _ _ _ _ => trivial, fun _ _ _ _ _ _ => rfl⟩

/-- source 11, gain 12 and the destination -/
def demoG (es11 es12 : List Edge) (o : List Nat) : RGraph Nat Nat where
  cap := 64
  slot := fun i =>
    if i = 0 then some ⟨0, 0, [0], [0], cfg0, [], false, false, false⟩
    else if i = 11 then some ⟨1, 5, [], [0], cfg0, es11, false, false, false⟩
    else if i = 12 then some ⟨2, 100, [0], [0], cfg0, es12, false, false, false⟩
    else none
  ordered := o
  reclaimed := []

theorem demo_cases {es11 es12 : List Edge} {o : List Nat} {i : Nat} {n : Node Nat Nat}
    (h : (demoG es11 es12 o).slot i = some n) :
    (i = 0 ∧ n = ⟨0, 0, [0], [0], cfg0, [], false, false, false⟩) ∨
    (i = 11 ∧ n = ⟨1, 5, [], [0], cfg0, es11, false, false, false⟩) ∨
    (i = 12 ∧ n = ⟨2, 100, [0], [0], cfg0, es12, false, false, false⟩) := by
  simp only [demoG] at h
  split at h
  · cases h; exact .inl ⟨by assumption, rfl⟩
  · split at h
    · cases h; exact .inr (.inl ⟨by assumption, rfl⟩)
    · split at h
      · cases h; exact .inr (.inr ⟨by assumption, rfl⟩)
      · simp at h

theorem demo_fit {es11 es12 : List Edge} (h1 : ∀ e ∈ es11, e = ⟨0, 12, some 0⟩ ∨ e = ⟨0, 0, some 0⟩)
    (h2 : ∀ e ∈ es12, e = ⟨0, 0, some 0⟩) : Fit (fun _ _ => False) (demoG es11 es12 []) := by
  refine ⟨⟨⟨fun i n hn => ?_, fun i n hn e he => ?_⟩, List.nodup_nil, by simp [demoG], by simp [demoG]⟩, .inl rfl,
    fun i hc => ?_, fun _ _ _ _ h => h.elim⟩
  · rcases demo_cases hn with ⟨rfl, _⟩ | ⟨rfl, _⟩ | ⟨rfl, _⟩ <;> simp [demoG]
  · rcases demo_cases hn with ⟨rfl, rfl⟩ | ⟨rfl, rfl⟩ | ⟨rfl, rfl⟩
    · simp at he
    · rcases h1 e he with rfl | rfl <;> simp [demoG]
    · rw [h2 e he]; simp [demoG]
  · -- the rank of a node decreases along connections
    let rank : Nat → Nat := fun i => if i = 0 then 0 else if i = 12 then 1 else 2
    have hdec : ∀ u v, TransGen (fun u v => ∃ n, (demoG es11 es12 []).slot u = some n ∧ ∃ e ∈ n.edges, e.dst = v) u v →
        rank v < rank u := by
      intro u v h
      have step : ∀ u v, (∃ n, (demoG es11 es12 []).slot u = some n ∧ ∃ e ∈ n.edges, e.dst = v) → rank v < rank u := by
        rintro u v ⟨n, hn, e, he, rfl⟩
        rcases demo_cases hn with ⟨rfl, rfl⟩ | ⟨rfl, rfl⟩ | ⟨rfl, rfl⟩
        · simp at he
        · rcases h1 e he with rfl | rfl <;> simp [rank]
        · rw [h2 e he]; simp [rank]
      induction h with
      | single h => exact step _ _ h
      | tail _ h ih => exact (step _ _ h).trans ih
    exact Nat.lt_irrefl _ (hdec i i hc)

theorem demo_connect (cs : List (Nat × Edge)) (es11 es12 : List Edge) (o : List Nat)
    (hcs : ∀ c ∈ cs, c.1 = 11 ∨ c.1 = 12) (hne : cs ≠ [] ∨ o = []) :
    RGraph.foldOpt (RGraph.handle calmSem) (connects cs) (demoG es11 es12 o) =
      some (demoG (es11 ++ (cs.filter (·.1 = 11)).map (·.2)) (es12 ++ (cs.filter (·.1 = 12)).map (·.2)) []) := by
  induction cs generalizing es11 es12 o with
  | nil => simp at hne; subst hne; simp [connects, RGraph.foldOpt]
  | cons c cs ih =>
    have step : (demoG es11 es12 o).handle calmSem (.connect c.1 0 c.2 0) =
        some (demoG (es11 ++ if c.1 = 11 then [c.2] else []) (es12 ++ if c.1 = 12 then [c.2] else []) []) := by
      obtain ⟨a, e⟩ := c
      rcases hcs (a, e) (by simp) with h | h <;> simp only at h <;> subst h <;>
        simp only [RGraph.handle, RGraph.addEdge, RGraph.get, demoG, RGraph.put] <;> simp <;>
        (funext j; by_cases h0 : j = 0 <;> by_cases h1 : j = 11 <;> by_cases h2 : j = 12 <;> simp_all)
    simp only [connects, List.map_cons, RGraph.foldOpt, step]
    rw [show List.map (fun c : Nat × Edge => (Msg.connect c.1 0 c.2 0 : Msg Nat Nat)) cs = connects cs from rfl,
      ih _ _ _ (fun c hc => hcs c (by simp [hc])) (.inr rfl)]
    rcases hcs c (by simp) with h | h <;> simp [h]

/-- The source is connected to the gain and to the destination and the gain to the destination, in two orders. -/
example :
    let cs : List (Nat × Edge) := [(11, ⟨0, 12, some 0⟩), (11, ⟨0, 0, some 0⟩), (12, ⟨0, 0, some 0⟩)]
    hear calmSem [connects cs] (demoG [] [] [0, 11, 12]) = hear calmSem [connects cs.reverse] (demoG [] [] [0, 11, 12]) ∧
      hear calmSem [connects cs] (demoG [] [] [0, 11, 12]) = some [110] := by
  refine ⟨?_, by decide +kernel⟩
  have := C98_connection_order_partial calm_orderly (cs := [(11, ⟨0, 12, some 0⟩), (11, ⟨0, 0, some 0⟩), (12, ⟨0, 0, some 0⟩)])
    (List.reverse_perm _).symm [] [] (g := demoG [] [] [0, 11, 12]) (fun _ _ _ => ⟨fun _ _ => trivial, fun _ _ => trivial⟩)
    (by
      intro g1 h
      rw [List.append_nil, demo_connect _ _ _ _ (by simp) (by simp)] at h
      cases h
      exact ⟨demo_fit (by simp) (by simp), fun _ _ _ => trivial⟩)
    (by
      intro g1 h
      rw [List.append_nil, demo_connect _ _ _ _ (by simp) (by simp)] at h
      cases h
      exact ⟨demo_fit (by simp) (by simp), fun _ _ _ => trivial⟩)
  simpa using this

/-- **C98 is false with cycles.** Two delay nodes 12 and 13 feed each other and the destination, a source 11 feeds both.
Which of the two is cut, and silenced, depends on which connection of the source was made first. -/
theorem C98_negated_cycle :
    let nodes : List (Op Nat Nat) := [.acquire, .register 11 4 0 1 cfg0, .acquire, .register 12 100 1 1 cfg0,
      .acquire, .register 13 1000 1 1 cfg0, .breaker ⟨12, 2, 1, 1⟩, .breaker ⟨13, 3, 1, 1⟩]
    let loop : List (Op Nat Nat) := [.connect ⟨12, 2, 1, 1⟩ ⟨13, 3, 1, 1⟩ 0 0, .connect ⟨13, 3, 1, 1⟩ ⟨12, 2, 1, 1⟩ 0 0,
      .connect ⟨12, 2, 1, 1⟩ destH 0 0, .connect ⟨13, 3, 1, 1⟩ destH 0 0]
    let a : Op Nat Nat := .connect ⟨11, 1, 0, 1⟩ ⟨12, 2, 1, 1⟩ 0 0
    let b : Op Nat Nat := .connect ⟨11, 1, 0, 1⟩ ⟨13, 3, 1, 1⟩ 0 0
    let play : List (Op Nat Nat) := List.replicate 11 .recv ++ [.quantum, .quantum]
    heard ((Sys.init calmSem 0 cfg0).run calmSem (nodes ++ loop ++ [a, b] ++ play)) ≠
      heard ((Sys.init calmSem 0 cfg0).run calmSem (nodes ++ loop ++ [b, a] ++ play)) := by
  decide +kernel

end Verif.Render
