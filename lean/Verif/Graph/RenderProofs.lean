import Verif.Graph.RenderModel
import Verif.Graph.OrderProofs

/-! # Helper lemmas about the render graph model: well-formedness is an invariant -/

namespace Verif.Render

open Verif.Graph

variable {P S M : Type}

/-- Well-formed store: slots within bounds, connections point to existing ports of existing nodes. -/
structure WFe (g : RGraph P S) : Prop where
  bound : ∀ i n, g.slot i = some n → i < g.cap
  edges : ∀ i n, g.slot i = some n → ∀ e ∈ n.edges, e.out < n.outputs.length ∧
    ∃ t, g.slot e.dst = some t ∧ ∀ p, e.port = some p → p < t.inputs.length

/-- Well-formed render graph: additionally the order is duplicate free, contains existing nodes and
respects all connections. -/
structure WF (g : RGraph P S) : Prop extends WFe g where
  nodup : g.ordered.Nodup
  mem : ∀ i ∈ g.ordered, ∃ n, g.slot i = some n
  fwd : ∀ u ∈ g.ordered, ∀ v ∈ g.ordered, ∀ n, g.slot u = some n →
    (∃ e ∈ n.edges, e.dst = v) → Before g.ordered u v

namespace RGraph

theorem get_eq_slot' {g : RGraph P S} (h : ∀ i n, g.slot i = some n → i < g.cap) (i : Nat) :
    g.get i = g.slot i := by
  unfold get
  split
  · rfl
  · rename_i hi
    cases hs : g.slot i with
    | none => rfl
    | some n => exact absurd (h i n hs) hi

theorem get_eq_slot {g : RGraph P S} (h : WFe g) (i : Nat) : g.get i = g.slot i :=
  get_eq_slot' h.bound i

theorem mem_keys {g : RGraph P S} (h : WFe g) (i : Nat) : i ∈ g.keys ↔ ∃ n, g.slot i = some n := by
  unfold keys
  simp only [List.mem_filter, List.mem_range, Option.isSome_iff_exists]
  exact ⟨fun h => h.2, fun ⟨n, hn⟩ => ⟨h.bound i n hn, n, hn⟩⟩

end RGraph

theorem not_before_self {l : List Nat} (hl : l.Nodup) (u : Nat) : ¬ Before l u u := by
  rintro ⟨p, q, r, h⟩
  rw [h] at hl
  have := List.nodup_append.1 hl
  exact this.2.2 u (by simp) u (by simp) rfl

theorem before_append_right {l r : List Nat} {u v : Nat} (h : Before l u v) : Before (l ++ r) u v := by
  obtain ⟨a, b, c, rfl⟩ := h
  exact ⟨a, b, c ++ r, by simp⟩

/-- `Before` is kept by filtering when both nodes are kept. -/
theorem before_filter {l : List Nat} {u v : Nat} (q : Nat → Bool) (h : Before l u v)
    (hu : q u = true) (hv : q v = true) : Before (l.filter q) u v := by
  obtain ⟨a, b, c, rfl⟩ := h
  exact ⟨a.filter q, b.filter q, c.filter q, by simp [hu, hv]⟩

/-- Same node except for inputs contents and the `hasInputs` flag. -/
structure NodeSim (n n' : Node P S) : Prop where
  tag : n'.tag = n.tag
  proc : n'.proc = n.proc
  outputs : n'.outputs = n.outputs
  cfg : n'.cfg = n.cfg
  edges : n'.edges = n.edges
  dropped : n'.dropped = n.dropped
  breaker : n'.breaker = n.breaker
  inputs : n'.inputs.length = n.inputs.length

theorem NodeSim.refl (n : Node P S) : NodeSim n n := ⟨rfl, rfl, rfl, rfl, rfl, rfl, rfl, rfl⟩

theorem NodeSim.trans {a b c : Node P S} (h : NodeSim a b) (k : NodeSim b c) : NodeSim a c :=
  ⟨k.tag.trans h.tag, k.proc.trans h.proc, k.outputs.trans h.outputs, k.cfg.trans h.cfg,
   k.edges.trans h.edges, k.dropped.trans h.dropped, k.breaker.trans h.breaker,
   k.inputs.trans h.inputs⟩

/-- Same graph except for inputs contents and the `hasInputs` flags. -/
structure Sim (g g' : RGraph P S) : Prop where
  cap : g'.cap = g.cap
  ordered : g'.ordered = g.ordered
  reclaimed : g'.reclaimed = g.reclaimed
  some : ∀ i n, g.slot i = some n → ∃ n', g'.slot i = some n' ∧ NodeSim n n'
  none : ∀ i, g.slot i = none → g'.slot i = none

theorem Sim.refl (g : RGraph P S) : Sim g g :=
  ⟨rfl, rfl, rfl, fun _ n h => ⟨n, h, .refl n⟩, fun _ h => h⟩

theorem Sim.trans {a b c : RGraph P S} (h : Sim a b) (k : Sim b c) : Sim a c := by
  refine ⟨k.cap.trans h.cap, k.ordered.trans h.ordered, k.reclaimed.trans h.reclaimed, ?_, ?_⟩
  · intro i n hn
    obtain ⟨n', h1, h2⟩ := h.some i n hn
    obtain ⟨n'', h3, h4⟩ := k.some i n' h1
    exact ⟨n'', h3, h2.trans h4⟩
  · exact fun i hi => k.none i (h.none i hi)

theorem Sim.back {g g' : RGraph P S} (h : Sim g g') {i : Nat} {n' : Node P S}
    (hn : g'.slot i = Option.some n') : ∃ n, g.slot i = Option.some n ∧ NodeSim n n' := by
  cases hs : g.slot i with
  | none => rw [h.none i hs] at hn; simp at hn
  | some n =>
    obtain ⟨m, h1, h2⟩ := h.some i n hs
    rw [hn] at h1
    cases h1
    exact ⟨n, rfl, h2⟩

theorem Sim.wf {g g' : RGraph P S} (h : Sim g g') (w : WF g) : WF g' := by
  refine ⟨⟨?_, ?_⟩, ?_, ?_, ?_⟩
  · intro i n' hn
    obtain ⟨n, h1, _⟩ := h.back hn
    rw [h.cap]; exact w.bound i n h1
  · intro i n' hn e he
    obtain ⟨n, h1, h2⟩ := h.back hn
    rw [h2.edges] at he
    obtain ⟨h3, t, h4, h5⟩ := w.edges i n h1 e he
    rw [h2.outputs]
    obtain ⟨t', h6, h7⟩ := h.some _ t h4
    exact ⟨h3, t', h6, fun p hp => by rw [h7.inputs]; exact h5 p hp⟩
  · rw [h.ordered]; exact w.nodup
  · intro i hi
    rw [h.ordered] at hi
    obtain ⟨n, hn⟩ := w.mem i hi
    obtain ⟨n', h1, _⟩ := h.some i n hn
    exact ⟨n', h1⟩
  · intro u hu v hv n' hn he
    obtain ⟨n, h1, h2⟩ := h.back hn
    rw [h.ordered] at hu hv ⊢
    rw [h2.edges] at he
    exact w.fwd u hu v hv n h1 he

namespace RGraph

variable (sem : Sem P S M)

/-- one edge is fed without panic; effect on the target input -/
theorem feed_spec {i : Nat} {outs : List S} {g : RGraph P S} {e : Edge}
    (hb : ∀ i n, g.slot i = some n → i < g.cap)
    (hi : e.dst ≠ i) (ho : e.out < outs.length)
    (ht : ∃ t, g.slot e.dst = some t ∧ ∀ p, e.port = some p → p < t.inputs.length) :
    ∃ g', feed sem i outs g e = some g' ∧ Sim g g' ∧ g'.slot i = g.slot i ∧
      ∀ k n, g.slot k = some n → ∃ n', g'.slot k = some n' ∧
        (n'.hasInputs = true ↔ n.hasInputs = true ∨ (e.dst = k ∧ e.port ≠ none)) ∧
        ∀ p, n'.inputs[p]? = (n.inputs[p]?).map fun s =>
          if e.dst = k ∧ e.port = some p then sem.add n.cfg s outs[e.out] else s := by
  obtain ⟨t, ht, hp⟩ := ht
  unfold feed
  cases hport : e.port with
  | none =>
    refine ⟨g, rfl, .refl g, rfl, ?_⟩
    intro k n hn
    refine ⟨n, hn, by simp, ?_⟩
    intro p; simp
  | some p =>
    have hlt := hp p hport
    simp only [hi, if_false]
    rw [get_eq_slot' hb, ht]
    simp only [List.getElem?_eq_getElem ho, List.getElem?_eq_getElem hlt]
    refine ⟨_, rfl, ⟨rfl, rfl, rfl, ?_, ?_⟩, ?_, ?_⟩
    · intro j n hn
      by_cases hj : j = e.dst
      · subst hj
        rw [ht] at hn; cases hn
        exact ⟨_, if_pos rfl, ⟨rfl, rfl, rfl, rfl, rfl, rfl, rfl, by simp⟩⟩
      · exact ⟨n, by simp [put, hj, hn], .refl n⟩
    · intro j hj
      have : j ≠ e.dst := by rintro rfl; rw [ht] at hj; simp at hj
      simp [put, this, hj]
    · simp [put, Ne.symm hi]
    · intro k n hn
      by_cases hk : k = e.dst
      · subst hk
        rw [ht] at hn; cases hn
        refine ⟨_, if_pos rfl, by simp, ?_⟩
        intro q
        simp only [List.getElem?_set]
        by_cases hq : p = q
        · subst hq; simp [hlt]
        · simp [hq]
      · refine ⟨n, by simp [put, hk, hn], by simp [Ne.symm hk], ?_⟩
        intro q; simp [Ne.symm hk]

/-- contributions of a list of edges with given outputs to port `p` of node `k` -/
def contrib (outs : List S) (es : List Edge) (k p : Nat) : List S :=
  es.filterMap fun e => if e.dst = k ∧ e.port = some p then outs[e.out]? else none

theorem feedAll_spec {i : Nat} {outs : List S} (es : List Edge) (g : RGraph P S)
    (hb : ∀ i n, g.slot i = some n → i < g.cap)
    (hi : ∀ e ∈ es, e.dst ≠ i) (ho : ∀ e ∈ es, e.out < outs.length)
    (ht : ∀ e ∈ es, ∃ t, g.slot e.dst = some t ∧ ∀ p, e.port = some p → p < t.inputs.length) :
    ∃ g', foldOpt (feed sem i outs) es g = some g' ∧ Sim g g' ∧ g'.slot i = g.slot i ∧
      ∀ k n, g.slot k = some n → ∃ n', g'.slot k = some n' ∧
        (n'.hasInputs = true ↔ n.hasInputs = true ∨ ∃ e ∈ es, e.dst = k ∧ e.port ≠ none) ∧
        ∀ p, n'.inputs[p]? = (n.inputs[p]?).map fun s =>
          (contrib outs es k p).foldl (sem.add n.cfg) s := by
  induction es generalizing g with
  | nil =>
    refine ⟨g, rfl, .refl g, rfl, fun k n hn => ⟨n, hn, by simp, ?_⟩⟩
    intro p; simp [contrib]
  | cons e es ih =>
    obtain ⟨g1, h1, h2, h3, h4⟩ := feed_spec sem hb (hi e (by simp)) (ho e (by simp)) (ht e (by simp))
    have hb1 : ∀ i n, g1.slot i = some n → i < g1.cap := by
      intro j n hn
      obtain ⟨m, hm, _⟩ := h2.back hn
      rw [h2.cap]; exact hb j m hm
    obtain ⟨g2, k1, k2, k3, k4⟩ := ih g1 hb1 (fun e he => hi e (by simp [he]))
      (fun e he => ho e (by simp [he])) (by
        intro e' he'
        obtain ⟨t, t1, t2⟩ := ht e' (by simp [he'])
        obtain ⟨t', t3, t4⟩ := h2.some _ t t1
        exact ⟨t', t3, fun p hp => by rw [t4.inputs]; exact t2 p hp⟩)
    refine ⟨g2, by simp [foldOpt, h1, k1], h2.trans k2, k3.trans h3, ?_⟩
    intro k n hn
    obtain ⟨n1, a1, a2, a3⟩ := h4 k n hn
    obtain ⟨n2, b1, b2, b3⟩ := k4 k n1 a1
    have hcfg : n1.cfg = n.cfg := by
      obtain ⟨m, c1, c2⟩ := h2.some k n hn
      rw [a1] at c1; cases c1; exact c2.cfg
    refine ⟨n2, b1, ?_, ?_⟩
    · rw [b2, a2]; simp [or_assoc]
    · intro p
      rw [b3, a3, hcfg, Option.map_map]
      congr 1
      funext s
      have : outs[e.out]? = some (outs[e.out]'(ho e (by simp))) :=
        List.getElem?_eq_getElem (ho e (by simp))
      by_cases hc : e.dst = k ∧ e.port = some p
      · have h5 : (if e.dst = k ∧ e.port = some p then outs[e.out]? else none) =
            some (outs[e.out]'(ho e (by simp))) := by rw [if_pos hc, this]
        simp only [contrib, Function.comp, List.filterMap_cons, h5, List.foldl_cons]
        rw [if_pos hc]
      · have h5 : (if e.dst = k ∧ e.port = some p then outs[e.out]? else none) = none := by
          rw [if_neg hc]
        simp only [contrib, Function.comp, List.filterMap_cons, h5]
        rw [if_neg hc]

/-- `process` keeps everything except processor state, outputs, and (on panic) the edges. -/
theorem process_cases (g : RGraph P S) (i : Nat) (n : Node P S) :
    (∃ p outs tail, sem.process n.proc n.inputs n.outputs (g.params i) = some (p, outs, tail) ∧
      outs.length = n.outputs.length ∧
      g.process sem i n = ({ n with proc := p, outputs := outs }, true, tail)) ∨
    (sem.process n.proc n.inputs n.outputs (g.params i) = none ∧
      g.process sem i n = ({ n with edges := [] }, false, false)) := by
  unfold process
  cases h : sem.process n.proc n.inputs n.outputs (g.params i) with
  | none => exact Or.inr ⟨rfl, rfl⟩
  | some r =>
    obtain ⟨p, outs, tail⟩ := r
    exact Or.inl ⟨p, outs, tail, rfl, sem.process_len _ _ _ _ _ _ _ h, rfl⟩

/-- the outcome of processing: whether node `i` leaves the graph -/
def freed (g : RGraph P S) (i : Nat) (n : Node P S) : Bool :=
  let r := g.process sem i n
  !r.2.1 || r.1.canFree sem r.2.2

/-- what processing of node `i` (state `n`) in `g` does -/
structure NodeStep (g : RGraph P S) (i : Nat) (n : Node P S) (g' : RGraph P S) : Prop where
  cap : g'.cap = g.cap
  ordered : g'.ordered = g.ordered
  reclaimed : g'.reclaimed = g.reclaimed ++ (if g.freed sem i n then [i] else [])
  self : g'.slot i = (if g.freed sem i n then Option.none else
    Option.some { (g.process sem i n).1 with
      inputs := n.inputs.map fun _ => sem.silence, hasInputs := false })
  none : ∀ k, k ≠ i → g.slot k = Option.none → g'.slot k = Option.none
  some : ∀ k m, k ≠ i → g.slot k = Option.some m → ∃ m', g'.slot k = Option.some m' ∧
        m'.tag = m.tag ∧ m'.proc = m.proc ∧ m'.outputs = m.outputs ∧ m'.cfg = m.cfg ∧
        m'.dropped = m.dropped ∧ m'.breaker = m.breaker ∧ m'.inputs.length = m.inputs.length ∧
        m'.edges = (if g.freed sem i n then m.edges.filter (fun e => e.dst ≠ i) else m.edges) ∧
        (m'.hasInputs = true ↔ m.hasInputs = true ∨
          ∃ e ∈ (g.process sem i n).1.edges, e.dst = k ∧ e.port ≠ Option.none) ∧
        ∀ p, m'.inputs[p]? = (m.inputs[p]?).map fun s =>
          (contrib (g.process sem i n).1.outputs (g.process sem i n).1.edges k p).foldl
            (sem.add m.cfg) s

/-- complete specification of the processing of one scheduled node -/
theorem renderNode_spec {g : RGraph P S} (w : WFe g) {i : Nat} {n : Node P S}
    (hn : g.slot i = some n) (hself : ∀ e ∈ n.edges, e.dst ≠ i) :
    ∃ g', renderNode sem g i = some g' ∧ NodeStep sem g i n g' := by
  -- facts about the processed node
  have hpr : ∀ e ∈ (g.process sem i n).1.edges, e ∈ n.edges ∧
      e.out < (g.process sem i n).1.outputs.length := by
    rcases process_cases sem g i n with ⟨p, outs, tail, _, hl, hp⟩ | ⟨_, hp⟩
    · rw [hp]; intro e he
      exact ⟨he, by simp only; rw [hl]; exact (w.edges i n hn e he).1⟩
    · rw [hp]; simp
  have hin : (g.process sem i n).1.inputs = n.inputs := by
    rcases process_cases sem g i n with ⟨p, outs, tail, _, hl, hp⟩ | ⟨_, hp⟩ <;> rw [hp]
  set n' := (g.process sem i n).1 with hn'
  let g1 := g.put i (some n')
  have hslot1 : ∀ k, k ≠ i → g1.slot k = g.slot k := by
    intro k hk; simp [g1, put, hk]
  have hb1 : ∀ k m, g1.slot k = some m → k < g1.cap := by
    intro k m hm
    by_cases hk : k = i
    · subst hk; exact w.bound k n hn
    · rw [hslot1 k hk] at hm; exact w.bound k m hm
  obtain ⟨g2, f1, f2, f3, f4⟩ := feedAll_spec sem (i := i) (outs := n'.outputs) n'.edges g1 hb1
    (fun e he => hself e (hpr e he).1) (fun e he => (hpr e he).2) (by
      intro e he
      obtain ⟨_, t, t1, t2⟩ := w.edges i n hn e (hpr e he).1
      exact ⟨t, by rw [hslot1 _ (hself e (hpr e he).1)]; exact t1, t2⟩)
  have hg1i : g1.slot i = some n' := by simp [g1, put]
  have hrn : renderNode sem g i = (if g.freed sem i n then some (g2.remove i)
      else some (g2.put i (some { n' with
        inputs := n'.inputs.map fun _ => sem.silence, hasInputs := false }))) := by
    unfold renderNode
    rw [get_eq_slot w, hn]
    simp only [← hn']
    show (match foldOpt (feed sem i n'.outputs) n'.edges g1 with
      | none => none
      | some g2 => _) = _
    rw [f1]
    simp only [freed, ← hn']
  have hcommon : ∀ k m, k ≠ i → g.slot k = some m → ∃ m', g2.slot k = some m' ∧ NodeSim m m' ∧
        (m'.hasInputs = true ↔ m.hasInputs = true ∨ ∃ e ∈ n'.edges, e.dst = k ∧ e.port ≠ none) ∧
        ∀ p, m'.inputs[p]? = (m.inputs[p]?).map fun s =>
          (contrib n'.outputs n'.edges k p).foldl (sem.add m.cfg) s := by
    intro k m hk hm
    have hm1 : g1.slot k = some m := by rw [hslot1 k hk]; exact hm
    obtain ⟨m', a, b, c⟩ := f4 k m hm1
    obtain ⟨m'', a', b'⟩ := f2.some k m hm1
    rw [a] at a'; cases a'
    exact ⟨m', a, b', b, c⟩
  cases hf : g.freed sem i n with
  | true =>
    rw [hf] at hrn
    simp only [if_true] at hrn
    refine ⟨g2.remove i, hrn, ⟨f2.cap, f2.ordered, ?_, ?_, ?_, ?_⟩⟩
    · simp [remove, f2.reclaimed, g1, put, hf]
    · simp [remove, hf]
    · intro k hk hs
      have : g2.slot k = none := f2.none k (by rw [hslot1 k hk]; exact hs)
      simp [remove, hk, this]
    · intro k m hk hm
      obtain ⟨m', a, b, c, d⟩ := hcommon k m hk hm
      refine ⟨{ m' with edges := m'.edges.filter fun e => e.dst ≠ i }, by simp [remove, hk, a],
        b.tag, b.proc, b.outputs, b.cfg, b.dropped, b.breaker, b.inputs, ?_, c, d⟩
      simp [b.edges, hf]
  | false =>
    rw [hf] at hrn
    simp only [Bool.false_eq_true, if_false] at hrn
    refine ⟨_, hrn, ⟨f2.cap, f2.ordered, ?_, ?_, ?_, ?_⟩⟩
    · simp [put, f2.reclaimed, g1, hf]
    · show (if i = i then _ else _) = _
      rw [if_pos rfl, hin, if_neg (by simp [hf])]
    · intro k hk hs
      have : g2.slot k = none := f2.none k (by rw [hslot1 k hk]; exact hs)
      simp [put, hk, this]
    · intro k m hk hm
      obtain ⟨m', a, b, c, d⟩ := hcommon k m hk hm
      exact ⟨m', by simp [put, hk, a], b.tag, b.proc, b.outputs, b.cfg, b.dropped, b.breaker,
        b.inputs, by simp [b.edges, hf], c, d⟩

/-- edges of the processed node are a subset of its edges, with valid outputs -/
theorem process_edges {g : RGraph P S} (i : Nat) (n : Node P S) :
    (g.process sem i n).1.edges = n.edges ∨ (g.process sem i n).1.edges = [] := by
  rcases process_cases sem g i n with ⟨p, outs, tail, _, hl, hp⟩ | ⟨_, hp⟩ <;> rw [hp] <;> simp

theorem process_outputs {g : RGraph P S} (i : Nat) (n : Node P S) :
    (g.process sem i n).1.outputs.length = n.outputs.length := by
  rcases process_cases sem g i n with ⟨p, outs, tail, _, hl, hp⟩ | ⟨_, hp⟩ <;> rw [hp]
  exact hl

theorem process_rest {g : RGraph P S} (i : Nat) (n : Node P S) :
    (g.process sem i n).1.tag = n.tag ∧ (g.process sem i n).1.cfg = n.cfg ∧
    (g.process sem i n).1.dropped = n.dropped ∧ (g.process sem i n).1.breaker = n.breaker ∧
    (g.process sem i n).1.inputs = n.inputs := by
  rcases process_cases sem g i n with ⟨p, outs, tail, _, hl, hp⟩ | ⟨_, hp⟩ <;> rw [hp] <;> simp

/-- every node after the step stems from a node before it -/
theorem NodeStep.back {g g' : RGraph P S} {i : Nat} {n : Node P S} (hn : g.slot i = Option.some n)
    (h : NodeStep sem g i n g') {k : Nat} {m' : Node P S} (hm : g'.slot k = Option.some m') :
    ∃ m, g.slot k = Option.some m ∧ m'.tag = m.tag ∧ m'.cfg = m.cfg ∧ m'.dropped = m.dropped ∧
      m'.breaker = m.breaker ∧ m'.inputs.length = m.inputs.length ∧
      m'.outputs.length = m.outputs.length ∧ (∀ e ∈ m'.edges, e ∈ m.edges) ∧
      (g.freed sem i n = true → k ≠ i ∧ ∀ e ∈ m'.edges, e.dst ≠ i) := by
  by_cases hk : k = i
  · subst hk
    rw [h.self] at hm
    split at hm
    · simp at hm
    · rename_i hf
      cases hm
      have hr := process_rest sem (g := g) k n
      refine ⟨n, hn, hr.1, hr.2.1, hr.2.2.1, hr.2.2.2.1, by simp, process_outputs sem k n, ?_, ?_⟩
      · intro e he
        rcases process_edges sem (g := g) k n with h1 | h1
        · simp only at he; rw [h1] at he; exact he
        · simp only at he; rw [h1] at he; simp at he
      · intro h1; exact absurd h1 hf
  · cases hs : g.slot k with
    | none => rw [h.none k hk hs] at hm; simp at hm
    | some m =>
      obtain ⟨m1, a, b1, b2, b3, b4, b5, b6, b7, b8, _⟩ := h.some k m hk hs
      rw [hm] at a; cases a
      refine ⟨m, rfl, b1, b4, b5, b6, b7, by rw [b3], ?_, ?_⟩
      · intro e he
        rw [b8] at he
        split at he
        · exact (List.mem_filter.1 he).1
        · exact he
      · intro hf
        refine ⟨hk, fun e he => ?_⟩
        rw [b8, if_pos hf] at he
        simpa using (List.mem_filter.1 he).2

/-- a node that is not the one being processed survives the step -/
theorem NodeStep.forth {g g' : RGraph P S} {i : Nat} {n : Node P S}
    (h : NodeStep sem g i n g') {k : Nat} {m : Node P S} (hk : k ≠ i ∨ g.freed sem i n = false)
    (hn : g.slot i = Option.some n)
    (hm : g.slot k = Option.some m) :
    ∃ m', g'.slot k = Option.some m' ∧ m'.tag = m.tag ∧ m'.inputs.length = m.inputs.length := by
  by_cases hki : k = i
  · subst hki
    rw [hn] at hm; cases hm
    have hf : g.freed sem k n = false := by simpa using hk
    exact ⟨_, h.self.trans (if_neg (by simp [hf])), (process_rest sem k n).1, by simp⟩
  · obtain ⟨m1, a, b1, b2, b3, b4, b5, b6, b7, b8, _⟩ := h.some k m hki hm
    exact ⟨m1, a, b1, b7⟩

theorem NodeStep.wfe {g g' : RGraph P S} {i : Nat} {n : Node P S} (hn : g.slot i = Option.some n)
    (w : WFe g) (h : NodeStep sem g i n g') : WFe g' := by
  refine ⟨?_, ?_⟩
  · intro k m' hm
    obtain ⟨m, hm0, _⟩ := h.back sem hn hm
    rw [h.cap]; exact w.bound k m hm0
  · intro k m' hm e he
    obtain ⟨m, hm0, b1, b2, b3, b4, b5, b6, b7, b8⟩ := h.back sem hn hm
    obtain ⟨h1, t, ht, hp⟩ := w.edges k m hm0 e (b7 e he)
    refine ⟨by rw [b6]; exact h1, ?_⟩
    have : e.dst ≠ i ∨ g.freed sem i n = false := by
      cases hf : g.freed sem i n with
      | false => exact Or.inr rfl
      | true => exact Or.inl ((b8 hf).2 e he)
    obtain ⟨t', a, _, c⟩ := h.forth sem this hn ht
    exact ⟨t', a, fun p hp' => by rw [c]; exact hp p hp'⟩

/-- Invariant of the loop over the order `L`; `post` are the nodes still to be processed. -/
structure LoopInv (L : List Nat) (post : List Nat) (g : RGraph P S) : Prop extends WFe g where
  ordered : g.ordered = L
  mem : ∀ i ∈ post, ∃ n, g.slot i = some n
  fwd : ∀ u ∈ L, ∀ v ∈ L, ∀ n, g.slot u = some n → (∃ e ∈ n.edges, e.dst = v) → Before L u v

theorem loop_step {L : List Nat} (hL : L.Nodup) {i : Nat} {post : List Nat} {g : RGraph P S}
    (hi : i ∈ L) (hnd : (i :: post).Nodup) (h : LoopInv L (i :: post) g) :
    ∃ n g', g.slot i = some n ∧ (∀ e ∈ n.edges, e.dst ≠ i) ∧ renderNode sem g i = some g' ∧
      NodeStep sem g i n g' ∧ LoopInv L post g' := by
  obtain ⟨n, hn⟩ := h.mem i (by simp)
  have hself : ∀ e ∈ n.edges, e.dst ≠ i := fun e he hd =>
    not_before_self hL i (h.fwd i hi i hi n hn ⟨e, he, hd⟩)
  obtain ⟨g', hr, hs⟩ := renderNode_spec sem h.toWFe hn hself
  refine ⟨n, g', hn, hself, hr, hs, ⟨hs.wfe sem hn h.toWFe, hs.ordered.trans h.ordered, ?_, ?_⟩⟩
  · intro j hj
    obtain ⟨m, hm⟩ := h.mem j (by simp [hj])
    have hji : j ≠ i := by rintro rfl; exact (List.nodup_cons.1 hnd).1 hj
    obtain ⟨m', a, _⟩ := hs.forth sem (Or.inl hji) hn hm
    exact ⟨m', a⟩
  · intro u hu v hv m' hm ⟨e, he, hd⟩
    obtain ⟨m, hm0, b1, b2, b3, b4, b5, b6, b7, b8⟩ := hs.back sem hn hm
    exact h.fwd u hu v hv m hm0 ⟨e, b7 e he, hd⟩

/-- The loop over the order never panics and keeps the invariant. -/
theorem loop_spec {L : List Nat} (hL : L.Nodup) (todo post : List Nat) (g : RGraph P S)
    (hsub : ∀ i ∈ todo, i ∈ L) (hnd : (todo ++ post).Nodup) (h : LoopInv L (todo ++ post) g) :
    ∃ g', foldOpt (renderNode sem) todo g = some g' ∧ LoopInv L post g' := by
  induction todo generalizing g with
  | nil => exact ⟨g, rfl, h⟩
  | cons i todo ih =>
    obtain ⟨n, g1, hn, hself, hr, hs, h1⟩ := loop_step sem hL (hsub i (by simp)) hnd h
    obtain ⟨g2, h2, h3⟩ := ih g1 (fun j hj => hsub j (by simp [hj]))
      (List.nodup_cons.1 hnd).2 h1
    exact ⟨g2, by simp [foldOpt, hr, h2], h3⟩

theorem foldOpt_append {α β : Type} (f : β → α → Option β) (l l' : List α) (b : β) :
    foldOpt f (l ++ l') b = (foldOpt f l b).bind (foldOpt f l') := by
  induction l generalizing b with
  | nil => rfl
  | cons a l ih =>
    simp only [List.cons_append, foldOpt]
    cases f b a with
    | none => rfl
    | some b' => simpa using ih b'

theorem wf_loopInv {g : RGraph P S} (w : WF g) : LoopInv g.ordered g.ordered g :=
  ⟨w.toWFe, rfl, w.mem, w.fwd⟩

/-- the topology read by `order_nodes` is closed -/
theorem topo_closed {g : RGraph P S} (w : WFe g) : g.topo.Closed := by
  intro u hu v hv
  obtain ⟨n, hn⟩ := (mem_keys w u).1 hu
  simp only [topo, hn, List.mem_map] at hv
  obtain ⟨e, he, rfl⟩ := hv
  obtain ⟨_, t, ht, _⟩ := w.edges u n hn e he
  exact (mem_keys w _).2 ⟨t, ht⟩

/-- node after ordering: unchanged or with cleared edges -/
theorem order_spec {g : RGraph P S} (w : WFe g) :
    ∃ t o g', orderNodes g.topo = .ok (t, o) ∧ g.order = some g' ∧ g'.cap = g.cap ∧
      g'.reclaimed = g.reclaimed ∧ g'.ordered = o ∧ WF g' ∧
      (∀ i, g.slot i = none → g'.slot i = none) ∧
      (∀ i n, g.slot i = some n → g'.slot i = some n ∨
        (g'.slot i = some { n with edges := [] } ∧ n.breaker = true ∧ g.topo.OnCycle i)) ∧
      (∀ i n, g.slot i = some n → t.succ i = [] → ∃ n', g'.slot i = some n' ∧ n'.edges = []) ∧
      g'.topo.succ = (fun i => if (g.slot i).isSome then t.succ i else []) := by
  obtain ⟨t, o, hok, hcut, hnd, hkeys, hm, hbef⟩ := orderNodes_spec g.topo (topo_closed w)
  let g' : RGraph P S := { g with
      slot := fun i => (g.slot i).map fun n => if t.succ i = [] then { n with edges := [] } else n
      ordered := o }
  have hg' : g.order = some g' := by simp only [order, hok]; rfl
  have hslot : ∀ i n, g.slot i = some n → g'.slot i =
      some (if t.succ i = [] then { n with edges := [] } else n) := by
    intro i n hn; simp [g', hn]
  have hsucc : ∀ i n, g.slot i = some n → g.topo.succ i = n.edges.map (·.dst) := by
    intro i n hn; simp [topo, hn]
  have hcase : ∀ i n, g.slot i = some n → (g'.slot i = some n ∧ t.succ i = n.edges.map (·.dst)) ∨
        (g'.slot i = some { n with edges := [] } ∧ t.succ i = [] ∧ n.breaker = true ∧
          g.topo.OnCycle i) := by
    intro i n hn
    rcases hcut.succ i ((mem_keys w i).2 ⟨n, hn⟩) with h1 | ⟨h1, h2, h3⟩
    · left
      rw [hsucc i n hn] at h1
      refine ⟨?_, h1⟩
      rw [hslot i n hn]
      split
      · rename_i he
        rw [he] at h1
        have : n.edges = [] := by simpa using h1.symm
        rw [← this]
      · rfl
    · right
      refine ⟨by rw [hslot i n hn, if_pos h1], h1, ?_, h3⟩
      simpa [topo, hn] using h2
  have hback : ∀ i n', g'.slot i = some n' → ∃ n, g.slot i = some n ∧
      n'.outputs = n.outputs ∧ n'.inputs = n.inputs ∧ n'.edges.map (·.dst) = t.succ i ∧
      ∀ e ∈ n'.edges, e ∈ n.edges := by
    intro i n' hn
    cases hs : g.slot i with
    | none => simp [g', hs] at hn
    | some n =>
      rcases hcase i n hs with ⟨h1, h2⟩ | ⟨h1, h2, _⟩
      · rw [hn] at h1; cases h1
        exact ⟨_, rfl, rfl, rfl, h2.symm, fun e he => he⟩
      · rw [hn] at h1; cases h1
        exact ⟨n, rfl, rfl, rfl, by simp [h2], by simp⟩
  refine ⟨t, o, g', hok, hg', rfl, rfl, rfl, ⟨⟨?_, ?_⟩, hnd, ?_, ?_⟩, ?_, ?_, ?_, ?_⟩
  · intro i n' hn
    obtain ⟨n, h1, _⟩ := hback i n' hn
    exact w.bound i n h1
  · intro i n' hn e he
    obtain ⟨n, h1, h2, h3, h4, h5⟩ := hback i n' hn
    obtain ⟨k1, m, k2, k3⟩ := w.edges i n h1 e (h5 e he)
    refine ⟨by rw [h2]; exact k1, _, hslot _ m k2, ?_⟩
    intro p hp
    have := k3 p hp
    split <;> exact this
  · intro i hi
    obtain ⟨n, hn⟩ := (mem_keys w i).1 (hkeys i hi)
    exact ⟨_, hslot i n hn⟩
  · intro u hu v hv n' hn ⟨e, he, hd⟩
    obtain ⟨n, h1, h2, h3, h4, h5⟩ := hback u n' hn
    refine hbef u hu v hv ⟨?_, ?_⟩
    · rw [hcut.keys]; exact hkeys u hu
    · rw [← h4, ← hd]; exact List.mem_map_of_mem he
  · intro i hi; simp [g', hi]
  · intro i n hn
    rcases hcase i n hn with ⟨h1, h2⟩ | ⟨h1, h2, h3⟩
    · exact Or.inl h1
    · exact Or.inr ⟨h1, h3⟩
  · intro i n hn ht
    exact ⟨_, by rw [hslot i n hn, if_pos ht], rfl⟩
  · funext i
    cases hs : g.slot i with
    | none => simp [topo, g', hs]
    | some n =>
      obtain ⟨m, _, _, _, h4, _⟩ := hback i _ (hslot i n hs)
      simp only [topo, hslot i n hs, Option.isSome_some, if_true]
      exact h4

/-- the graph on which the loop of `render` runs -/
def orderedGraph (g : RGraph P S) : Option (RGraph P S) :=
  if g.ordered = [] then g.order else some g

theorem orderedGraph_spec {g : RGraph P S} (w : WF g) :
    ∃ g1, g.orderedGraph = some g1 ∧ WF g1 ∧ g1.cap = g.cap ∧ g1.reclaimed = g.reclaimed ∧
      (g.ordered ≠ [] → g1 = g) ∧
      (∀ i, g.slot i = none → g1.slot i = none) ∧
      (∀ i n, g.slot i = some n → g1.slot i = some n ∨
        (g1.slot i = some { n with edges := [] } ∧ n.breaker = true ∧ g.topo.OnCycle i)) := by
  unfold orderedGraph
  split
  · rename_i ho
    obtain ⟨t, o, g', _, h1, h2, h3, h4, h5, h6, h7, _⟩ := order_spec w.toWFe
    exact ⟨g', h1, h5, h2, h3, fun h => absurd ho h, h6, h7⟩
  · exact ⟨g, rfl, w, rfl, rfl, fun _ => rfl, fun _ h => h, fun _ _ h => Or.inl h⟩

theorem render_eq (g : RGraph P S) : render sem g =
    (g.orderedGraph.bind fun g1 => (foldOpt (renderNode sem) g1.ordered g1).bind fun g2 =>
      let g3 := { g2 with ordered := g2.ordered.filter fun i => (g2.slot i).isSome }
      (g3.get 0).bind fun d => d.outputs.head?.map fun o => (g3, o)) := by
  unfold render orderedGraph
  cases (if g.ordered = [] then g.order else some g) with
  | none => rfl
  | some g1 =>
    simp only [Option.bind_some]
    cases foldOpt (renderNode sem) g1.ordered g1 with
    | none => rfl
    | some g2 =>
      simp only [Option.bind_some]
      generalize RGraph.get _ 0 = d
      cases d <;> rfl

/-- after the loop, the pruned graph is well-formed -/
theorem prune_wf {L : List Nat} (hL : L.Nodup) {g : RGraph P S} (h : LoopInv L [] g) :
    WF { g with ordered := g.ordered.filter fun i => (g.slot i).isSome } := by
  have ho := h.ordered
  refine ⟨⟨h.bound, h.edges⟩, ?_, ?_, ?_⟩
  · exact (ho ▸ hL).filter _
  · intro i hi
    exact Option.isSome_iff_exists.1 (List.mem_filter.1 hi).2
  · intro u hu v hv n hn he
    have hu' := List.mem_filter.1 hu
    have hv' := List.mem_filter.1 hv
    refine before_filter _ ?_ hu'.2 hv'.2
    rw [ho] at hu' hv' ⊢
    exact h.fwd u hu'.1 v hv'.1 n hn he

/-- The fate of node `i` (any node) over the loop `todo`. -/
theorem loop_fate {L : List Nat} (hL : L.Nodup) (todo : List Nat) (g g' : RGraph P S)
    (hsub : ∀ i ∈ todo, i ∈ L) (hnd : todo.Nodup) (h : LoopInv L todo g)
    (hf : foldOpt (renderNode sem) todo g = some g') :
    (∀ i, g.slot i = none → g'.slot i = none) ∧
    (∀ i n, i ∉ todo → g.slot i = some n → ∃ n', g'.slot i = some n' ∧ n'.tag = n.tag ∧
      n'.proc = n.proc ∧ n'.outputs = n.outputs ∧ n'.cfg = n.cfg ∧ n'.dropped = n.dropped ∧
      n'.breaker = n.breaker ∧ n'.inputs.length = n.inputs.length ∧ ∀ e ∈ n'.edges, e ∈ n.edges) ∧
    (∀ i n, i ∈ todo → g.slot i = some n →
      ∃ ga na, LoopInv L (i :: (todo.dropWhile (· ≠ i)).tail) ga ∧
        foldOpt (renderNode sem) (todo.takeWhile (· ≠ i)) g = some ga ∧
        ga.slot i = some na ∧ na.tag = n.tag ∧ na.proc = n.proc ∧ na.outputs = n.outputs ∧
        na.cfg = n.cfg ∧ na.dropped = n.dropped ∧ na.breaker = n.breaker ∧
        na.inputs.length = n.inputs.length ∧ (∀ e ∈ na.edges, e ∈ n.edges) ∧
        if ga.freed sem i na then g'.slot i = none else
          ∃ n', g'.slot i = some n' ∧ n'.tag = n.tag ∧ n'.proc = (ga.process sem i na).1.proc ∧
            n'.outputs = (ga.process sem i na).1.outputs ∧ n'.cfg = n.cfg ∧ n'.dropped = n.dropped ∧
            n'.breaker = n.breaker ∧ ∀ e ∈ n'.edges, e ∈ n.edges) := by
  induction todo generalizing g with
  | nil =>
    simp only [foldOpt, Option.some.injEq] at hf
    subst hf
    exact ⟨fun _ h => h, fun i n _ hn => ⟨n, hn, rfl, rfl, rfl, rfl, rfl, rfl, rfl, fun e he => he⟩,
      fun i n hi => by simp at hi⟩
  | cons j todo ih =>
    obtain ⟨nj, g1, hnj, hself, hr, hs, h1⟩ := loop_step sem hL (hsub j (by simp)) hnd h
    simp only [foldOpt, hr] at hf
    obtain ⟨f1, f2, f3⟩ := ih g1 (fun i hi => hsub i (by simp [hi])) (List.nodup_cons.1 hnd).2 h1 hf
    have hj := (List.nodup_cons.1 hnd).1
    refine ⟨?_, ?_, ?_⟩
    · intro i hi
      have : i ≠ j := by rintro rfl; rw [hnj] at hi; simp at hi
      exact f1 i (hs.none i this hi)
    · intro i n hi hn
      simp only [List.mem_cons, not_or] at hi
      obtain ⟨m, a, b1, b2, b3, b4, b5, b6, b7, b8, _⟩ := hs.some i n hi.1 hn
      obtain ⟨n', c0, c1, c2, c3, c4, c5, c6, c7, c8⟩ := f2 i m hi.2 a
      refine ⟨n', c0, c1.trans b1, c2.trans b2, c3.trans b3, c4.trans b4, c5.trans b5, c6.trans b6,
        c7.trans b7, ?_⟩
      intro e he
      have := c8 e he
      rw [b8] at this
      split at this
      · exact (List.mem_filter.1 this).1
      · exact this
    · intro i n hi hn
      by_cases hij : i = j
      · subst hij
        rw [hnj] at hn; cases hn
        refine ⟨g, nj, by simpa using h, by simp [foldOpt], hnj, rfl, rfl, rfl, rfl, rfl, rfl, rfl,
          fun e he => he, ?_⟩
        split
        · rename_i hfr
          exact f1 i (by rw [hs.self, if_pos hfr])
        · rename_i hfr
          have hsl := hs.self
          rw [if_neg hfr] at hsl
          obtain ⟨n', c0, c1, c2, c3, c4, c5, c6, c7, c8⟩ := f2 i _ hj hsl
          obtain ⟨r1, r2, r3, r4, r5⟩ := process_rest sem (g := g) i nj
          refine ⟨n', c0, c1.trans r1, c2, c3, c4.trans r2, c5.trans r3, c6.trans r4, ?_⟩
          intro e he
          have := c8 e he
          simp only at this
          rcases process_edges sem (g := g) i nj with h1 | h1 <;> rw [h1] at this
          · exact this
          · simp at this
      · have hi' : i ∈ todo := by simpa [hij] using hi
        obtain ⟨m, a, b1, b2, b3, b4, b5, b6, b7, b8, _⟩ := hs.some i n hij hn
        obtain ⟨ga, na, c0, c1, c2, c3, c4, c5, c6, c7, c8, c9, c10, c11⟩ := f3 i m hi' a
        have hsubm : ∀ e ∈ m.edges, e ∈ n.edges := by
          intro e he
          rw [b8] at he
          split at he
          · exact (List.mem_filter.1 he).1
          · exact he
        refine ⟨ga, na, ?_, ?_, c2, c3.trans b1, c4.trans b2, c5.trans b3, c6.trans b4, c7.trans b5,
          c8.trans b6, c9.trans b7, fun e he => hsubm e (c10 e he), ?_⟩
        · simpa [List.dropWhile, Ne.symm hij] using c0
        · simp only [List.takeWhile, Ne.symm hij, ne_eq, not_false_eq_true, decide_true, foldOpt, hr]
          exact c1
        · split
          · rename_i hfr; rw [if_pos hfr] at c11; exact c11
          · rename_i hfr; rw [if_neg hfr] at c11
            obtain ⟨n', d0, d1, d2, d3, d4, d5, d6, d7⟩ := c11
            exact ⟨n', d0, d1.trans b1, d2, d3, d4.trans b4, d5.trans b5, d6.trans b6,
              fun e he => hsubm e (d7 e he)⟩

/-- reclaim ids pushed by the loop are exactly the removed nodes, each once, in processing order -/
theorem loop_reclaimed {L : List Nat} (hL : L.Nodup) (todo : List Nat) (g g' : RGraph P S)
    (hsub : ∀ i ∈ todo, i ∈ L) (hnd : todo.Nodup) (h : LoopInv L todo g)
    (hf : foldOpt (renderNode sem) todo g = some g') :
    g'.reclaimed = g.reclaimed ++ todo.filter (fun i => (g'.slot i).isNone) ∧ g'.cap = g.cap ∧
      g'.ordered = g.ordered := by
  induction todo generalizing g with
  | nil => simp only [foldOpt, Option.some.injEq] at hf; subst hf; simp
  | cons j todo ih =>
    obtain ⟨nj, g1, hnj, hself, hr, hs, h1⟩ := loop_step sem hL (hsub j (by simp)) hnd h
    simp only [foldOpt, hr] at hf
    have hsub' : ∀ i ∈ todo, i ∈ L := fun i hi => hsub i (by simp [hi])
    have hnd' := (List.nodup_cons.1 hnd)
    obtain ⟨a, b, c⟩ := ih g1 hsub' hnd'.2 h1 hf
    obtain ⟨f1, f2, f3⟩ := loop_fate sem hL todo g1 g' hsub' hnd'.2 h1 hf
    refine ⟨?_, b.trans hs.cap, c.trans hs.ordered⟩
    rw [a, hs.reclaimed, List.append_assoc]
    congr 1
    by_cases hfr : g.freed sem j nj = true
    · have : g'.slot j = none := f1 j (by rw [hs.self, if_pos hfr])
      simp [hfr, this]
    · have hsl := hs.self
      rw [if_neg hfr] at hsl
      obtain ⟨n', c0, _⟩ := f2 j _ hnd'.1 hsl
      simp [hfr, c0]

/-- state of the graph after rendering a quantum; nothing is assumed about the processors -/
theorem render_spec {g : RGraph P S} (w : WF g) :
    ∃ g1 g2, g.orderedGraph = some g1 ∧ WF g1 ∧ foldOpt (renderNode sem) g1.ordered g1 = some g2 ∧
      LoopInv g1.ordered [] g2 ∧
      WF { g2 with ordered := g2.ordered.filter fun i => (g2.slot i).isSome } ∧
      render sem g = (g2.slot 0).bind fun d => d.outputs.head?.map fun o =>
        ({ g2 with ordered := g2.ordered.filter fun i => (g2.slot i).isSome }, o) := by
  obtain ⟨g1, h1, w1, _⟩ := orderedGraph_spec w
  obtain ⟨g2, h2, h3⟩ := loop_spec sem w1.nodup g1.ordered [] g1 (fun i h => h)
    (by simpa using w1.nodup) (by simpa using wf_loopInv w1)
  have hw := prune_wf w1.nodup h3
  refine ⟨g1, g2, h1, w1, h2, h3, hw, ?_⟩
  rw [render_eq, h1]
  simp only [Option.bind_some, h2]
  rw [get_eq_slot' (fun i n hn => hw.bound i n hn)]

/-- What the nodes of `todo` send in this quantum: id, produced outputs, connections at that time. -/
def trace : List Nat → RGraph P S → List (Nat × List S × List Edge)
  | [], _ => []
  | i :: is, g =>
    match g.slot i, renderNode sem g i with
    | some n, some g' =>
      (i, (g.process sem i n).1.outputs, (g.process sem i n).1.edges) :: trace is g'
    | _, _ => []

/-- signals that arrive at port `p` of node `k`, in processing order of the senders -/
def arrived (t : List (Nat × List S × List Edge)) (k p : Nat) : List S :=
  t.flatMap fun x => contrib x.2.1 x.2.2 k p

/-- Inputs of a node that is not in `todo` after the loop over `todo`. -/
theorem loop_inputs {L : List Nat} (hL : L.Nodup) (todo post : List Nat) (g g' : RGraph P S)
    (hsub : ∀ i ∈ todo, i ∈ L) (hnd : (todo ++ post).Nodup) (h : LoopInv L (todo ++ post) g)
    (hf : foldOpt (renderNode sem) todo g = some g') (k : Nat) (hk : k ∉ todo) (n : Node P S)
    (hn : g.slot k = some n) :
    ∃ n', g'.slot k = some n' ∧ (∀ p, n'.inputs[p]? = (n.inputs[p]?).map fun s =>
        (arrived (trace sem todo g) k p).foldl (sem.add n.cfg) s) ∧
      (n'.hasInputs = true ↔ n.hasInputs = true ∨
        ∃ x ∈ trace sem todo g, ∃ e ∈ x.2.2, e.dst = k ∧ e.port ≠ none) := by
  induction todo generalizing g n with
  | nil =>
    simp only [foldOpt, Option.some.injEq] at hf; subst hf
    exact ⟨n, hn, by simp [trace, arrived], by simp [trace]⟩
  | cons j todo ih =>
    obtain ⟨nj, g1, hnj, hself, hr, hs, h1⟩ := loop_step sem hL (hsub j (by simp)) hnd h
    simp only [foldOpt, hr] at hf
    simp only [List.mem_cons, not_or] at hk
    obtain ⟨m, a, b1, b2, b3, b4, b5, b6, b7, b8, b9, b10⟩ := hs.some k n hk.1 hn
    obtain ⟨n', c1, c2, c3⟩ := ih g1 (fun i hi => hsub i (by simp [hi]))
      (List.nodup_cons.1 hnd).2 h1 hf hk.2 m a
    refine ⟨n', c1, ?_, ?_⟩
    · intro p
      rw [c2, b10, b4, Option.map_map]
      simp only [trace, hnj, hr, arrived, List.flatMap_cons, List.foldl_append]
      rfl
    · rw [c3, b9]
      simp only [trace, hnj, hr, List.mem_cons, exists_eq_or_imp, or_assoc]

/-- Connections in the trace: those of the quantum start, minus those to nodes destroyed meanwhile
(for a node whose processor panics: none). -/
theorem trace_mem {L : List Nat} (hL : L.Nodup) (todo post : List Nat) (g : RGraph P S)
    (hsub : ∀ i ∈ todo, i ∈ L) (hnd : (todo ++ post).Nodup) (h : LoopInv L (todo ++ post) g) :
    (trace sem todo g).map (·.1) = todo := by
  induction todo generalizing g with
  | nil => rfl
  | cons j todo ih =>
    obtain ⟨nj, g1, hnj, hself, hr, hs, h1⟩ := loop_step sem hL (hsub j (by simp)) hnd h
    simp only [trace, hnj, hr, List.map_cons]
    rw [ih g1 (fun i hi => hsub i (by simp [hi])) (List.nodup_cons.1 hnd).2 h1]

end RGraph
end Verif.Render
