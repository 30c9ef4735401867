import Verif.Graph.SystemModel
import Verif.Graph.RenderProofs

/-! # Helper lemmas: invariants of the whole system -/

namespace Verif.Render

open Verif.Graph

variable {P S M : Type} (sem : Sem P S M)

/-! ## Structural operations keep well-formedness -/

namespace RGraph

theorem addNode_wf {g : RGraph P S} (w : WF g) {id : Nat} (hid : g.slot id = none) (tag : Nat)
    (proc : P) (nin nout : Nat) (cfg : Cfg) : WF (g.addNode sem id tag proc nin nout cfg) := by
  have hno : id ∉ g.ordered := fun h => by
    obtain ⟨n, hn⟩ := w.mem id h; rw [hid] at hn; simp at hn
  have hdst : ∀ i n, g.slot i = some n → ∀ e ∈ n.edges, e.dst ≠ id := by
    intro i n hn e he hd
    obtain ⟨_, t, ht, _⟩ := w.edges i n hn e he
    rw [hd, hid] at ht; simp at ht
  refine ⟨⟨?_, ?_⟩, ?_, ?_, ?_⟩
  · intro i n hn
    simp only [addNode] at hn ⊢
    split at hn
    · omega
    · have := w.bound i n hn; omega
  · intro i n hn e he
    simp only [addNode] at hn ⊢
    split at hn
    · cases hn; simp at he
    · obtain ⟨h1, t, h2, h3⟩ := w.edges i n hn e he
      exact ⟨h1, t, by rw [if_neg (hdst i n hn e he)]; exact h2, h3⟩
  · simp only [addNode]
    rw [List.nodup_append]
    exact ⟨w.nodup, by simp, by rintro a ha b hb rfl; simp at hb; subst hb; exact hno ha⟩
  · intro i hi
    simp only [addNode, List.mem_append, List.mem_singleton] at hi ⊢
    by_cases h : i = id
    · exact ⟨_, if_pos h⟩
    · obtain ⟨n, hn⟩ := w.mem i (by tauto)
      exact ⟨n, by rw [if_neg h]; exact hn⟩
  · intro u hu v hv n hn ⟨e, he, hd⟩
    simp only [addNode, List.mem_append, List.mem_singleton] at hu hv hn ⊢
    by_cases h : u = id
    · rw [if_pos h] at hn; cases hn; simp at he
    · rw [if_neg h] at hn
      have hv' : v ≠ id := hd ▸ hdst u n hn e he
      exact before_append_right (w.fwd u (by tauto) v (by tauto) n hn ⟨e, he, hd⟩)

theorem addEdge_spec {g : RGraph P S} (w : WF g) {src : Nat} {n : Node P S}
    (hn : g.slot src = some n) {e : Edge} (ho : e.out < n.outputs.length)
    (ht : ∃ t, g.slot e.dst = some t ∧ ∀ p, e.port = some p → p < t.inputs.length) :
    ∃ g', g.addEdge src e = some g' ∧ WF g' ∧ g'.cap = g.cap ∧ g'.reclaimed = g.reclaimed ∧
      g'.ordered = [] ∧ (∀ i, i ≠ src → g'.slot i = g.slot i) ∧
      g'.slot src = some { n with edges := n.edges ++ [e] } := by
  unfold addEdge
  rw [get_eq_slot w.toWFe, hn]
  refine ⟨_, rfl, ⟨⟨?_, ?_⟩, by simp, by simp, by simp⟩, rfl, rfl, rfl, ?_, by simp [put]⟩
  · intro i m hm
    simp only [put] at hm ⊢
    split at hm
    · rename_i h; subst h; exact w.bound i n hn
    · exact w.bound i m hm
  · have key : ∀ d t, g.slot d = some t → ∃ t', (if d = src then
        some { n with edges := n.edges ++ [e] } else g.slot d) = some t' ∧ t'.inputs = t.inputs := by
      intro d t hd
      by_cases h : d = src
      · subst h; rw [hn] at hd; cases hd; exact ⟨_, if_pos rfl, rfl⟩
      · exact ⟨t, by rw [if_neg h]; exact hd, rfl⟩
    have key2 : ∀ (x : Edge) (o : List S), (x.out < o.length ∧ ∃ t, g.slot x.dst = some t ∧
        ∀ p, x.port = some p → p < t.inputs.length) → x.out < o.length ∧
        ∃ t, (if x.dst = src then some { n with edges := n.edges ++ [e] } else g.slot x.dst) = some t ∧
        ∀ p, x.port = some p → p < t.inputs.length := by
      rintro x o ⟨h1, t, h2, h3⟩
      obtain ⟨t', k1, k2⟩ := key _ t h2
      exact ⟨h1, t', k1, fun p hp => by rw [k2]; exact h3 p hp⟩
    intro i m hm x hx
    simp only [put] at hm ⊢
    apply key2
    split at hm
    · cases hm
      simp only [List.mem_append, List.mem_singleton] at hx
      rcases hx with hx | rfl
      · exact w.edges src n hn x hx
      · exact ⟨ho, ht⟩
    · exact w.edges i m hm x hx
  · intro i hi; simp [put, hi]

theorem removeEdge_spec {g : RGraph P S} (w : WF g) {src : Nat} {n : Node P S}
    (hn : g.slot src = some n) (e : Edge) :
    ∃ g', g.removeEdge src e = some g' ∧ WF g' ∧ g'.cap = g.cap ∧ g'.reclaimed = g.reclaimed ∧
      g'.ordered = [] ∧ (∀ i, i ≠ src → g'.slot i = g.slot i) ∧
      g'.slot src = some { n with edges := n.edges.filter fun x => x ≠ e } := by
  have hfil : (fun x : Edge => decide (x.dst ≠ e.dst ∨ x.out ≠ e.out ∨ x.port ≠ e.port)) =
      fun x => decide (x ≠ e) := by
    funext x
    cases x; cases e
    simp only [ne_eq, Edge.mk.injEq]
    congr 1
    apply propext
    tauto
  unfold removeEdge
  rw [get_eq_slot w.toWFe, hn, hfil]
  refine ⟨_, rfl, ⟨⟨?_, ?_⟩, by simp, by simp, by simp⟩, rfl, rfl, rfl, ?_, by simp [put]⟩
  · intro i m hm
    simp only [put] at hm ⊢
    split at hm
    · rename_i h; subst h; exact w.bound i n hn
    · exact w.bound i m hm
  · intro i m hm x hx
    have key : ∀ d t, g.slot d = some t → ∃ t', (if d = src then
        some { n with edges := n.edges.filter fun x => x ≠ e } else g.slot d) = some t' ∧
          t'.inputs = t.inputs := by
      intro d t hd
      by_cases h : d = src
      · subst h; rw [hn] at hd; cases hd; exact ⟨_, if_pos rfl, rfl⟩
      · exact ⟨t, by rw [if_neg h]; exact hd, rfl⟩
    simp only [put] at hm ⊢
    have : x.out < m.outputs.length ∧ ∃ t, g.slot x.dst = some t ∧
        ∀ p, x.port = some p → p < t.inputs.length := by
      split at hm
      · cases hm; exact w.edges src n hn x (List.mem_filter.1 hx).1
      · exact w.edges i m hm x hx
    obtain ⟨h1, t, h2, h3⟩ := this
    obtain ⟨t', k1, k2⟩ := key _ t h2
    exact ⟨h1, t', k1, fun p hp => by rw [k2]; exact h3 p hp⟩
  · intro i hi; simp [put, hi]

/-- replacing a node by one with the same ports and edges keeps well-formedness -/
theorem put_wf {g : RGraph P S} (w : WF g) {i : Nat} {n n' : Node P S} (hn : g.slot i = some n)
    (he : n'.edges = n.edges) (hi : n'.inputs.length = n.inputs.length)
    (ho : n'.outputs.length = n.outputs.length) : WF (g.put i (some n')) := by
  have hslot : ∀ k m, (g.put i (some n')).slot k = some m → ∃ m0, g.slot k = some m0 ∧
      m.edges = m0.edges ∧ m.outputs.length = m0.outputs.length := by
    intro k m hm
    simp only [put] at hm
    split at hm
    · rename_i h; subst h; cases hm; exact ⟨n, hn, he, ho⟩
    · exact ⟨m, hm, rfl, rfl⟩
  have hslot' : ∀ k m0, g.slot k = some m0 → ∃ m, (g.put i (some n')).slot k = some m ∧
      m.inputs.length = m0.inputs.length := by
    intro k m0 hm
    simp only [put]
    by_cases h : k = i
    · subst h; rw [hn] at hm; cases hm; exact ⟨n', if_pos rfl, hi⟩
    · exact ⟨m0, by rw [if_neg h]; exact hm, rfl⟩
  refine ⟨⟨?_, ?_⟩, w.nodup, ?_, ?_⟩
  · intro k m hm
    obtain ⟨m0, h1, _⟩ := hslot k m hm
    exact w.bound k m0 h1
  · intro k m hm e hem
    obtain ⟨m0, h1, h2, h3⟩ := hslot k m hm
    rw [h2] at hem
    obtain ⟨k1, t, k2, k3⟩ := w.edges k m0 h1 e hem
    obtain ⟨t', l1, l2⟩ := hslot' _ t k2
    exact ⟨by rw [h3]; exact k1, t', l1, fun p hp => by rw [l2]; exact k3 p hp⟩
  · intro k hk
    obtain ⟨m0, h1⟩ := w.mem k hk
    obtain ⟨m, h2, _⟩ := hslot' k m0 h1
    exact ⟨m, h2⟩
  · intro u hu v hv m hm hex
    obtain ⟨m0, h1, h2, _⟩ := hslot u m hm
    rw [h2] at hex
    exact w.fwd u hu v hv m0 h1 hex

end RGraph

/-! ## Handles known to the render thread -/

/-- id ↦ (tag, number of inputs, number of outputs) -/
abbrev LMap := Nat → Option (Nat × Nat × Nat)

/-- nodes of the graph whose control handle is not known to be dropped -/
def absG (g : RGraph P S) : LMap := fun i =>
  match g.slot i with
  | some n => if n.dropped then none else some (n.tag, n.inputs.length, n.outputs.length)
  | none => none

def msgOk (A : LMap) : Msg P M → Prop
  | .register id _ _ _ _ _ => A id = none
  | .connect src stag e dtag => (∃ ni no, A src = some (stag, ni, no) ∧ e.out < no) ∧
      ∃ ni no, A e.dst = some (dtag, ni, no) ∧ ∀ p, e.port = some p → p < ni
  | .disconnect src stag _ => ∃ ni no, A src = some (stag, ni, no)
  | .dropped id tag => (∃ ni no, A id = some (tag, ni, no)) ∨ (A id = none ∧ id < 64)
  | .breaker id tag => ∃ ni no, A id = some (tag, ni, no)
  | .post id tag _ => ∃ ni no, A id = some (tag, ni, no)
  | .setCfg id tag _ => ∃ ni no, A id = some (tag, ni, no)

def msgEff (A : LMap) : Msg P M → LMap
  | .register id tag _ nin nout _ => fun i => if i = id then some (tag, nin, nout) else A i
  | .dropped id _ => fun i => if i = id then none else A i
  | _ => A

/-- all messages of the channel make sense one after the other and lead to `L` -/
def Walk (A : LMap) : List (Msg P M) → LMap → Prop
  | [], L => A = L
  | m :: ms, L => msgOk A m ∧ Walk (msgEff A m) ms L

theorem Walk.snoc {A L : LMap} {ms : List (Msg P M)} (h : Walk A ms L) {m : Msg P M}
    (hm : msgOk L m) : Walk A (ms ++ [m]) (msgEff L m) := by
  induction ms generalizing A with
  | nil => cases h; exact ⟨hm, rfl⟩
  | cons a ms ih => exact ⟨h.1, ih h.2⟩

/-- ids of the pending registrations -/
def regIds : List (Msg P M) → List Nat
  | [] => []
  | .register id _ _ _ _ _ :: ms => id :: regIds ms
  | _ :: ms => regIds ms

theorem regIds_append (a b : List (Msg P M)) : regIds (a ++ b) = regIds a ++ regIds b := by
  induction a with
  | nil => rfl
  | cons m a ih => cases m <;> simp [regIds, ih]

/-- where an id currently is: reclaim queue, being registered, registration on its way, in the graph -/
def uses (s : Sys P S M) (id : Nat) : Nat :=
  s.g.reclaimed.count id + s.alloc.count id + (regIds s.chan).count id +
    (if (s.g.slot id).isSome then 1 else 0)

structure Inv (s : Sys P S M) : Prop where
  wf : WF s.g
  walk : ∃ L : LMap, Walk (absG s.g) s.chan L ∧
    ∀ h : Handle, h ∈ s.live ↔ L h.id = some (h.tag, h.nin, h.nout)
  nodup : s.live.Nodup
  uniq : ∀ id, uses s id ≤ 1
  bound : ∀ id, 0 < uses s id → id < s.nextId
  dest : absG s.g 0 = some (0, 1, 1)
  destKept : (⟨0, 0, 1, 1⟩ : Handle) ∈ s.live
  cap : 64 ≤ s.g.cap
  noDrop0 : ∀ tag, Msg.dropped 0 tag ∉ s.chan

/-- processors that never panic, neither while processing nor while handling a message -/
def NoPanic (sem : Sem P S M) : Prop :=
  (∀ p ins outs ps, sem.process p ins outs ps ≠ none) ∧ ∀ p m, sem.onmessage p m ≠ none

/-- effect of handling one sensible message -/
theorem handle_spec (hp : NoPanic sem) {g : RGraph P S} (w : WF g) {m : Msg P M}
    (hcap : 64 ≤ g.cap) (hm : msgOk (absG g) m) (hfree : ∀ id ∈ regIds [m], g.slot id = none) :
    ∃ g', g.handle sem m = some g' ∧ WF g' ∧ absG g' = msgEff (absG g) m ∧
      g'.reclaimed = g.reclaimed ∧ g.cap ≤ g'.cap ∧
      (∀ i, (g'.slot i).isSome ↔ (g.slot i).isSome ∨ i ∈ regIds [m]) := by
  have habs : ∀ {id tag ni no}, absG g id = some (tag, ni, no) → ∃ n, g.slot id = some n ∧
      n.dropped = false ∧ n.tag = tag ∧ n.inputs.length = ni ∧ n.outputs.length = no := by
    intro id tag ni no h
    unfold absG at h
    cases hs : g.slot id with
    | none => rw [hs] at h; simp at h
    | some n =>
      rw [hs] at h
      simp only at h
      split at h
      · simp at h
      · rename_i hd
        simp only [Option.some.injEq, Prod.mk.injEq] at h
        exact ⟨n, rfl, by simpa using hd, h.1, h.2.1, h.2.2⟩
  have hput : ∀ {id : Nat} {n n' : Node P S}, g.slot id = some n → n'.edges = n.edges →
      n'.inputs.length = n.inputs.length → n'.outputs.length = n.outputs.length →
      n'.tag = n.tag → n'.dropped = n.dropped →
      WF (g.put id (some n')) ∧ absG (g.put id (some n')) = absG g ∧
      (∀ i, ((g.put id (some n')).slot i).isSome ↔ (g.slot i).isSome) := by
    intro id n n' hn h1 h2 h3 h4 h5
    refine ⟨RGraph.put_wf w hn h1 h2 h3, ?_, ?_⟩
    · funext i
      simp only [absG, RGraph.put]
      by_cases hi : i = id
      · subst hi; simp [hn, h2, h3, h4, h5]
      · simp [hi]
    · intro i
      simp only [RGraph.put]
      by_cases hi : i = id
      · subst hi; simp [hn]
      · simp [hi]
  cases m with
  | register id tag proc nin nout cfg =>
    have hid : g.slot id = none := hfree id (by simp [regIds])
    refine ⟨_, rfl, RGraph.addNode_wf sem w hid tag proc nin nout cfg, ?_, rfl, le_max_right _ _, ?_⟩
    · funext i
      simp only [absG, RGraph.addNode, msgEff]
      by_cases hi : i = id
      · simp [hi]
      · simp [hi]
    · intro i
      simp only [RGraph.addNode, regIds, List.mem_singleton]
      by_cases hi : i = id
      · simp [hi]
      · simp [hi]
  | connect src stag e dtag =>
    obtain ⟨⟨ni, no, h1, h2⟩, ni', no', h3, h4⟩ := hm
    obtain ⟨n, a1, a2, a3, a4, a5⟩ := habs h1
    obtain ⟨t, b1, b2, b3, b4, b5⟩ := habs h3
    obtain ⟨g', c1, c2, c3, c4, c5, c6, c7⟩ := RGraph.addEdge_spec w a1 (e := e) (by omega)
      ⟨t, b1, fun p hp => by rw [b4]; exact h4 p hp⟩
    refine ⟨g', c1, c2, ?_, c4, c3.ge, ?_⟩
    · funext i
      simp only [absG, msgEff]
      by_cases hi : i = src
      · subst hi; simp [c7, a1]
      · rw [c6 i hi]
    · intro i
      by_cases hi : i = src
      · subst hi; simp [c7, a1, regIds]
      · rw [c6 i hi]; simp [regIds]
  | disconnect src stag e =>
    obtain ⟨ni, no, h1⟩ := hm
    obtain ⟨n, a1, a2, a3, a4, a5⟩ := habs h1
    obtain ⟨g', c1, c2, c3, c4, c5, c6, c7⟩ := RGraph.removeEdge_spec w a1 e
    refine ⟨g', c1, c2, ?_, c4, c3.ge, ?_⟩
    · funext i
      simp only [absG, msgEff]
      by_cases hi : i = src
      · subst hi; simp [c7, a1]
      · rw [c6 i hi]
    · intro i
      by_cases hi : i = src
      · subst hi; simp [c7, a1, regIds]
      · rw [c6 i hi]; simp [regIds]
  | dropped id tag =>
    rcases hm with hm | ⟨h1, h2⟩
    swap
    · have heff : msgEff (absG g) (.dropped id tag : Msg P M) = absG g := by
        funext i
        simp only [msgEff]
        by_cases hi : i = id
        · simp [hi, h1]
        · simp [hi]
      rw [heff]
      simp only [RGraph.handle, RGraph.markDropped, if_pos (show id < g.cap by omega)]
      cases hs : g.slot id with
      | none => exact ⟨g, rfl, w, rfl, rfl, le_rfl, by simp [regIds]⟩
      | some n =>
        have hd : n.dropped = true := by
          cases hd : n.dropped with
          | true => rfl
          | false => simp [absG, hs, hd] at h1
        obtain ⟨b1, b2, b3⟩ := hput (n' := { n with dropped := true }) hs rfl rfl rfl rfl hd.symm
        exact ⟨_, rfl, b1, b2, rfl, le_rfl, fun i => by rw [b3]; simp [regIds]⟩
    obtain ⟨ni, no, h1⟩ := hm
    obtain ⟨n, a1, a2, a3, a4, a5⟩ := habs h1
    have hwf : WF (g.put id (some { n with dropped := true })) := RGraph.put_wf w a1 rfl rfl rfl
    refine ⟨g.put id (some { n with dropped := true }), ?_, hwf, ?_, rfl, le_rfl, ?_⟩
    · simp only [RGraph.handle, RGraph.markDropped, if_pos (w.bound id n a1), a1]
    · funext i
      simp only [absG, RGraph.put, msgEff]
      by_cases hi : i = id
      · simp [hi]
      · simp [hi]
    · intro i
      simp only [RGraph.put, regIds]
      by_cases hi : i = id
      · subst hi; simp [a1]
      · simp [hi]
  | breaker id tag =>
    obtain ⟨ni, no, h1⟩ := hm
    obtain ⟨n, a1, a2, a3, a4, a5⟩ := habs h1
    obtain ⟨b1, b2, b3⟩ := hput (n' := { n with breaker := true }) a1 rfl rfl rfl rfl rfl
    exact ⟨_, by simp only [RGraph.handle, RGraph.markBreaker, RGraph.get_eq_slot w.toWFe, a1]; rfl,
      b1, b2, rfl, le_rfl, fun i => by rw [b3]; simp [regIds]⟩
  | post id tag x =>
    obtain ⟨ni, no, h1⟩ := hm
    obtain ⟨n, a1, a2, a3, a4, a5⟩ := habs h1
    cases hx : sem.onmessage n.proc x with
    | none => exact absurd hx (hp.2 _ _)
    | some q =>
      obtain ⟨b1, b2, b3⟩ := hput (n' := { n with proc := q }) a1 rfl rfl rfl rfl rfl
      exact ⟨_, by
          simp only [RGraph.handle, RGraph.routeMessage, RGraph.get_eq_slot w.toWFe, a1,
            Option.bind_some, hx, Option.map_some],
        b1, b2, rfl, le_rfl, fun i => by rw [b3]; simp [regIds]⟩
  | setCfg id tag c =>
    obtain ⟨ni, no, h1⟩ := hm
    obtain ⟨n, a1, a2, a3, a4, a5⟩ := habs h1
    obtain ⟨b1, b2, b3⟩ := hput (n' := { n with cfg := c }) a1 rfl rfl rfl rfl rfl
    exact ⟨_, by simp only [RGraph.handle, RGraph.setCfg, RGraph.get_eq_slot w.toWFe, a1]; rfl,
      b1, b2, rfl, le_rfl, fun i => by rw [b3]; simp [regIds]⟩

/-- a node that leaves the graph although its processor did not panic has lost its handle -/
theorem freed_dropped (hp : NoPanic sem) {g : RGraph P S} {i : Nat} {n : Node P S}
    (h : g.freed sem i n = true) : n.dropped = true := by
  rcases RGraph.process_cases sem g i n with ⟨p, outs, tail, h1, h2, h3⟩ | ⟨h1, _⟩
  · unfold RGraph.freed at h
    rw [h3] at h
    simp only [Node.canFree] at h
    cases hd : n.dropped with
    | true => rfl
    | false => simp [hd] at h
  · exact absurd h1 (hp.1 _ _ _ _)

/-- effect of one quantum on the life cycle data -/
theorem quantum_spec (hp : NoPanic sem) {g : RGraph P S} (w : WF g)
    (hd : absG g 0 = some (0, 1, 1)) :
    ∃ g' o, g.render sem = some (g', o) ∧ WF g' ∧ g'.cap = g.cap ∧ absG g' = absG g ∧
      (∀ i, g.slot i = none → g'.slot i = none) ∧
      (∀ id, g'.reclaimed.count id + (if (g'.slot id).isSome then 1 else 0) =
        g.reclaimed.count id + (if (g.slot id).isSome then 1 else 0)) := by
  obtain ⟨g1, g2, h1, w1, h2, h3, h4, h5⟩ := RGraph.render_spec sem w
  obtain ⟨g1', e1, e2, e3, e4, e5, e6, e7⟩ := RGraph.orderedGraph_spec w
  rw [h1] at e1; cases e1
  obtain ⟨f1, f2, f3⟩ := RGraph.loop_fate sem w1.nodup g1.ordered g1 g2 (fun _ h => h) w1.nodup
    (RGraph.wf_loopInv w1) h2
  obtain ⟨r1, r2, r3⟩ := RGraph.loop_reclaimed sem w1.nodup g1.ordered g1 g2 (fun _ h => h) w1.nodup
    (RGraph.wf_loopInv w1) h2
  -- ordering does not change the abstraction
  have habs1 : absG g1 = absG g := by
    funext i
    simp only [absG]
    cases hs : g.slot i with
    | none => rw [e6 i hs]
    | some n => rcases e7 i n hs with h | ⟨h, _⟩ <;> rw [h]
  have hsome1 : ∀ i, (g1.slot i).isSome = (g.slot i).isSome := by
    intro i
    cases hs : g.slot i with
    | none => rw [e6 i hs]
    | some n => rcases e7 i n hs with h | ⟨h, _⟩ <;> simp [h]
  have hnotfreed : ∀ i n, g1.slot i = some n → n.dropped = false → ∃ n', g2.slot i = some n' ∧
      n'.tag = n.tag ∧ n'.dropped = false ∧ n'.inputs.length = n.inputs.length ∧
      n'.outputs.length = n.outputs.length := by
    intro i n hn hnd
    by_cases hi : i ∈ g1.ordered
    · obtain ⟨ga, na, a1, a2, a3, a4, a5, a6, a7, a8, a9, a10, a11, a12⟩ := f3 i n hi hn
      have hnf : ga.freed sem i na = false := by
        cases hf : ga.freed sem i na with
        | false => rfl
        | true => have := freed_dropped sem hp hf; rw [a8, hnd] at this; simp at this
      rw [hnf] at a12
      simp only [Bool.false_eq_true, if_false] at a12
      obtain ⟨n', b1, b2, b3, b4, b5, b6, b7, b8⟩ := a12
      -- inputs length: from the loop before and the loop after
      have hsplit : g1.ordered = g1.ordered.takeWhile (· ≠ i) ++ i :: (g1.ordered.dropWhile (· ≠ i)).tail := by
        conv_lhs => rw [← List.takeWhile_append_dropWhile (p := (· ≠ i)) (l := g1.ordered)]
        congr 1
        have hne : g1.ordered.dropWhile (· ≠ i) ≠ [] := by
          intro h0
          rw [List.dropWhile_eq_nil_iff] at h0
          have := h0 i hi
          simp at this
        have hhead := List.head_dropWhile_not (p := (· ≠ i)) (l := g1.ordered) hne
        simp only [ne_eq, decide_not, Bool.not_eq_false', decide_eq_true_eq] at hhead
        conv_lhs => rw [← List.cons_head_tail hne]
        simp only [ne_eq, decide_not] at hhead ⊢
        rw [hhead]
      have hrest : ∃ gb, RGraph.renderNode sem ga i = some gb ∧
          RGraph.foldOpt (RGraph.renderNode sem) (g1.ordered.dropWhile (· ≠ i)).tail gb = some g2 ∧
          ∃ nb, gb.slot i = some nb ∧ nb.inputs.length = na.inputs.length ∧
          RGraph.LoopInv g1.ordered (g1.ordered.dropWhile (· ≠ i)).tail gb := by
        have hnd2 : (i :: (g1.ordered.dropWhile (· ≠ i)).tail).Nodup := by
          have := w1.nodup
          rw [hsplit] at this
          exact (List.nodup_append.1 this).2.1
        obtain ⟨nn, gb, c1, c2, c3, c4, c5⟩ := RGraph.loop_step sem w1.nodup hi hnd2 a1
        rw [a3] at c1; cases c1
        rw [hsplit, RGraph.foldOpt_append, a2] at h2
        simp only [Option.bind_some, RGraph.foldOpt, c3] at h2
        have hself := c4.self
        rw [hnf] at hself
        exact ⟨gb, c3, h2, _, hself, by simp, c5⟩
      obtain ⟨gb, d1, d2, nb, d3, d4, d5⟩ := hrest
      have hnd2 : (i :: (g1.ordered.dropWhile (· ≠ i)).tail).Nodup := by
        have := w1.nodup
        rw [hsplit] at this
        exact (List.nodup_append.1 this).2.1
      obtain ⟨_, k2, _⟩ := RGraph.loop_fate sem w1.nodup _ gb g2
        (fun j hj => by
          rw [hsplit]; exact List.mem_append_right _ (List.mem_cons_of_mem _ hj)) (List.nodup_cons.1 hnd2).2 d5 d2
      obtain ⟨n'', l1, l2, l3, l4, l5, l6, l7, l8, l9⟩ := k2 i nb (List.nodup_cons.1 hnd2).1 d3
      rw [b1] at l1; cases l1
      refine ⟨n', b1, b2, b6.trans hnd, by rw [l8, d4, a10], ?_⟩
      rw [b4, RGraph.process_outputs, a6]
    · obtain ⟨n', c0, c1, c2, c3, c4, c5, c6, c7, c8⟩ := f2 i n hi hn
      exact ⟨n', c0, c1, c5.trans hnd, c7, by rw [c3]⟩
  have hdropkeep : ∀ i n, g1.slot i = some n → n.dropped = true → ∀ n', g2.slot i = some n' →
      n'.dropped = true := by
    intro i n hn hnd n' hn'
    by_cases hi : i ∈ g1.ordered
    · obtain ⟨ga, na, a1, a2, a3, a4, a5, a6, a7, a8, a9, a10, a11, a12⟩ := f3 i n hi hn
      split at a12
      · rw [hn'] at a12; simp at a12
      · obtain ⟨m, b1, b2, b3, b4, b5, b6, b7, b8⟩ := a12
        rw [hn'] at b1; cases b1; exact b6.trans hnd
    · obtain ⟨m, c0, c1, c2, c3, c4, c5, c6, c7, c8⟩ := f2 i n hi hn
      rw [hn'] at c0; cases c0; exact c5.trans hnd
  have habs2 : absG g2 = absG g1 := by
    funext i
    cases hs : g1.slot i with
    | none => simp [absG, hs, f1 i hs]
    | some n =>
      cases hdr : n.dropped with
      | false =>
        obtain ⟨n', k1, k2, k3, k4, k5⟩ := hnotfreed i n hs hdr
        simp [absG, hs, k1, k2, k3, k4, k5, hdr]
      | true =>
        cases hs2 : g2.slot i with
        | none => simp [absG, hs, hs2, hdr]
        | some n' => simp [absG, hs, hs2, hdr, hdropkeep i n hs hdr n' hs2]
  -- the destination is still there
  have hdest : ∃ d, g2.slot 0 = some d ∧ d.outputs.length = 1 := by
    have : absG g2 0 = some (0, 1, 1) := by rw [habs2, habs1, hd]
    unfold absG at this
    cases hs : g2.slot 0 with
    | none => rw [hs] at this; simp at this
    | some d =>
      rw [hs] at this
      simp only at this
      split at this
      · simp at this
      · simp only [Option.some.injEq, Prod.mk.injEq] at this
        exact ⟨d, rfl, this.2.2⟩
  obtain ⟨d, hd1, hd2⟩ := hdest
  obtain ⟨o, ho⟩ : ∃ o, d.outputs.head? = some o := by
    cases hdo : d.outputs with
    | nil => rw [hdo] at hd2; simp at hd2
    | cons a l => exact ⟨a, rfl⟩
  refine ⟨_, o, by rw [h5, hd1]; simp only [Option.bind_some, ho, Option.map_some], h4,
    r2.trans e3, ?_, ?_, ?_⟩
  · show absG g2 = absG g
    rw [habs2, habs1]
  · intro i hi
    exact f1 i (e6 i hi)
  · intro id
    show g2.reclaimed.count id + (if (g2.slot id).isSome then 1 else 0) = _
    rw [r1, e4, List.count_append, ← hsome1 id]
    by_cases hin : id ∈ g1.ordered
    · obtain ⟨n, hn⟩ := w1.mem id hin
      have hc : (g1.ordered.filter fun i => (g2.slot i).isNone).count id =
          if (g2.slot id).isNone then 1 else 0 := by
        by_cases hs : (g2.slot id).isNone
        · rw [List.count_filter (p := fun i => (g2.slot i).isNone) hs,
            List.count_eq_one_of_mem w1.nodup hin, if_pos hs]
        · rw [if_neg hs, List.count_eq_zero]
          exact fun hmem => hs (List.mem_filter.1 hmem).2
      rw [hc, hn]
      cases g2.slot id <;> simp
    · have hc : (g1.ordered.filter fun i => (g2.slot i).isNone).count id = 0 := by
        rw [List.count_eq_zero]
        exact fun hmem => hin (List.mem_filter.1 hmem).1
      rw [hc]
      cases hs : g1.slot id with
      | none => simp [f1 id hs]
      | some n =>
        obtain ⟨n', c0, _⟩ := f2 id n hin hs
        simp [c0]

/-- a handle at the end of the walk is known at its start or registered on the way -/
theorem Walk.mem {A L : LMap} {ms : List (Msg P M)} (h : Walk A ms L) {id : Nat}
    (hid : L id ≠ none) : A id ≠ none ∨ id ∈ regIds ms := by
  induction ms generalizing A with
  | nil => cases h; exact Or.inl hid
  | cons m ms ih =>
    rcases ih h.2 with h1 | h1
    · cases m with
      | register id' tag proc nin nout cfg =>
        by_cases h2 : id = id'
        · right; simp [regIds, h2]
        · left; simpa [msgEff, h2] using h1
      | dropped id' tag =>
        left
        by_cases h2 : id = id'
        · simp [msgEff, h2] at h1
        · simpa [msgEff, h2] using h1
      | connect => exact Or.inl h1
      | disconnect => exact Or.inl h1
      | breaker => exact Or.inl h1
      | post => exact Or.inl h1
      | setCfg => exact Or.inl h1
    · right
      cases m <;> simp [regIds, h1]

theorem absG_slot {g : RGraph P S} {id : Nat} (h : absG g id ≠ none) : ∃ n, g.slot id = some n := by
  cases hs : g.slot id with
  | none => simp [absG, hs] at h
  | some n => exact ⟨n, rfl⟩

/-- The id of a live handle is neither free nor being handed out; it belongs to this handle only. -/
theorem live_uses {s : Sys P S M} (h : Inv s) {x : Handle} (hx : x ∈ s.live) :
    s.g.reclaimed.count x.id = 0 ∧ s.alloc.count x.id = 0 ∧ x.id < s.nextId ∧
    ((∃ n, s.g.slot x.id = some n ∧ n.dropped = false ∧ n.tag = x.tag ∧ x.id ∉ regIds s.chan) ∨
      (s.g.slot x.id = none ∧ (regIds s.chan).count x.id = 1)) := by
  obtain ⟨L, hw, hL⟩ := h.walk
  have hlx := (hL x).1 hx
  have hu := h.uniq x.id
  have hb := h.bound x.id
  rcases hw.mem (id := x.id) (by rw [hlx]; simp) with h1 | h1
  · obtain ⟨n, hn⟩ := absG_slot h1
    simp only [uses, hn, Option.isSome_some, if_true] at hu hb
    refine ⟨by omega, by omega, hb (by omega), Or.inl ⟨n, hn, ?_, ?_, ?_⟩⟩
    · cases hd : n.dropped with
      | false => rfl
      | true => simp [absG, hn, hd] at h1
    · -- no registration of this id on the way, no drop either, so the tag is the one of the node
      have hreg : x.id ∉ regIds s.chan := by
        intro hm
        have := List.count_pos_iff.2 hm
        omega
      have : ∀ (ms : List (Msg P M)) (A : LMap), Walk A ms L → x.id ∉ regIds ms →
          A x.id = L x.id := by
        intro ms
        induction ms with
        | nil => intro A hA _; cases hA; rfl
        | cons m ms ih =>
          intro A hA hr
          have hr' : x.id ∉ regIds ms := by cases m <;> simp_all [regIds]
          have := ih _ hA.2 hr'
          cases m with
          | register id' tag proc nin nout cfg =>
            have : x.id ≠ id' := by intro h; simp [regIds, h] at hr
            simpa [msgEff, this] using ih _ hA.2 hr'
          | dropped id' tag =>
            by_cases h2 : x.id = id'
            · have h3 := ih _ hA.2 hr'
              simp [msgEff, h2] at h3
              rw [← h2, hlx] at h3; simp at h3
            · simpa [msgEff, h2] using this
          | connect => exact this
          | disconnect => exact this
          | breaker => exact this
          | post => exact this
          | setCfg => exact this
      have h2 := this s.chan _ hw hreg
      rw [hlx] at h2
      simp only [absG, hn] at h2
      split at h2
      · simp at h2
      · simp only [Option.some.injEq, Prod.mk.injEq] at h2
        exact h2.1
    · intro hm
      have := List.count_pos_iff.2 hm
      omega
  · have := List.count_pos_iff.2 h1
    simp only [uses] at hu hb
    have hs : s.g.slot x.id = none := by
      cases hs : s.g.slot x.id with
      | none => rfl
      | some n => simp [hs] at hu; omega
    simp only [hs, Option.isSome_none, Bool.false_eq_true, if_false] at hu hb
    exact ⟨by omega, by omega, hb (by omega), Or.inr ⟨hs, by omega⟩⟩

/-- sending a message that neither registers nor drops -/
theorem Inv.send {s : Sys P S M} (h : Inv s) (ms : List (Msg P M)) (conns : List (Nat × Edge))
    (hok : ∀ m ∈ ms, ∀ L : LMap, (∀ h : Handle, h ∈ s.live ↔ L h.id = some (h.tag, h.nin, h.nout)) →
      msgOk L m ∧ msgEff L m = L)
    (hreg : regIds ms = []) (hdrop : ∀ tag, Msg.dropped 0 tag ∉ ms) :
    Inv { s with chan := s.chan ++ ms, conns := conns } := by
  obtain ⟨L, hw, hL⟩ := h.walk
  refine ⟨h.wf, ⟨L, ?_, hL⟩, h.nodup, ?_, ?_, h.dest, h.destKept, h.cap, ?_⟩
  · have : ∀ (l : List (Msg P M)) (c : List (Msg P M)), (∀ m ∈ l, m ∈ ms) → Walk (absG s.g) c L →
        Walk (absG s.g) (c ++ l) L := by
      intro l
      induction l with
      | nil => intro c _ hc; simpa using hc
      | cons m l ih =>
        intro c hsub hc
        obtain ⟨h1, h2⟩ := hok m (hsub m (by simp)) L hL
        have := hc.snoc h1
        rw [h2] at this
        have := ih (c ++ [m]) (fun x hx => hsub x (by simp [hx])) this
        simpa using this
    exact this ms s.chan (fun _ h => h) hw
  · intro id
    have := h.uniq id
    simp only [uses, regIds_append, hreg, List.append_nil] at this ⊢
    exact this
  · intro id
    have := h.bound id
    simp only [uses, regIds_append, hreg, List.append_nil] at this ⊢
    exact this
  · intro tag hm
    simp only [List.mem_append] at hm
    rcases hm with hm | hm
    · exact h.noDrop0 tag hm
    · exact hdrop tag hm

/-- the invariant does not depend on the connection administration -/
theorem Inv.conns {s : Sys P S M} (h : Inv s) (conns : List (Nat × Edge)) :
    Inv { s with conns := conns } := by
  obtain ⟨a, b, c, d, e, f, g', k, l⟩ := h
  exact ⟨a, b, c, d, e, f, g', k, l⟩

theorem Inv.dropH {s : Sys P S M} (h : Inv s) (x : Handle) (hx : x ∈ s.live)
    (hm : isMagic x.id = false) :
    Inv { s with live := s.live.erase x, chan := s.chan ++ [Msg.dropped x.id x.tag] } := by
  obtain ⟨L, hw, hL⟩ := h.walk
  have hx0 : x.id ≠ 0 := by intro h0; rw [h0] at hm; simp [isMagic] at hm
  have hlx := (hL x).1 hx
  refine ⟨h.wf, ⟨msgEff L (Msg.dropped x.id x.tag : Msg P M), hw.snoc (Or.inl ⟨x.nin, x.nout, hlx⟩), ?_⟩,
    h.nodup.erase _, ?_, ?_, h.dest, ?_, h.cap, ?_⟩
  · intro y
    rw [h.nodup.mem_erase_iff, hL]
    simp only [msgEff]
    by_cases hy : y.id = x.id
    · simp only [hy, if_true]
      constructor
      · rintro ⟨h1, h2⟩
        rw [hlx] at h2
        simp only [Option.some.injEq, Prod.mk.injEq] at h2
        exfalso; apply h1
        cases x; cases y; simp_all
      · intro h1; simp at h1
    · simp only [hy, if_false]
      exact ⟨fun h => h.2, fun h => ⟨by rintro rfl; exact hy rfl, h⟩⟩
  · intro id
    have := h.uniq id
    simpa [uses, regIds_append, regIds] using this
  · intro id
    have := h.bound id
    simpa [uses, regIds_append, regIds] using this
  · rw [h.nodup.mem_erase_iff]
    exact ⟨by rintro rfl; exact hx0 rfl, h.destKept⟩
  · intro tag hm
    simp only [List.mem_append, List.mem_singleton, Msg.dropped.injEq] at hm
    rcases hm with hm | ⟨hm, _⟩
    · exact h.noDrop0 tag hm
    · exact hx0 hm.symm

/-- Every step of a system with well-behaved processors and constructors keeps the invariant; in
particular the render thread does not panic. -/
theorem inv_step (hp : NoPanic sem) {s : Sys P S M} (h : Inv s) (op : Op P M)
    (hop : ∀ id, op = .failCreate id → id < 64) : ∃ s', s.step sem op = some s' ∧ Inv s' := by
  obtain ⟨L, hw, hL⟩ := h.walk
  cases op with
  | acquire =>
    simp only [Sys.step, Sys.acquire]
    cases hr : s.g.reclaimed with
    | nil =>
      refine ⟨_, rfl, ⟨h.wf, ⟨L, hw, hL⟩, h.nodup, ?_, ?_, h.dest, h.destKept, h.cap, h.noDrop0⟩⟩
      · intro id
        have h1 := h.uniq id
        have h2 := h.bound id
        by_cases hid : s.nextId = id
        · subst hid
          have h3 : uses s s.nextId = 0 := Nat.eq_zero_of_not_pos fun h => lt_irrefl _ (h2 h)
          simp only [uses, hr] at h3
          simp only [uses, List.count_append, List.count_singleton_self, hr]
          omega
        · simp only [uses, List.count_append, List.count_singleton, hr] at h1 ⊢
          simp [hid] at h1 ⊢; omega
      · intro id
        have h2 := h.bound id
        simp only [uses, List.count_append, List.count_singleton, hr] at h2 ⊢
        by_cases hid : s.nextId = id
        · subst hid; simp
        · simp [hid] at h2 ⊢
          intro h3
          have := h2 h3
          omega
    | cons id0 rest =>
      refine ⟨_, rfl, ⟨⟨⟨h.wf.bound, h.wf.edges⟩, h.wf.nodup, h.wf.mem, h.wf.fwd⟩, ⟨L, hw, hL⟩,
        h.nodup, ?_, ?_, h.dest, h.destKept, h.cap, h.noDrop0⟩⟩
      · intro id
        have h1 := h.uniq id
        simp only [uses, List.count_append, List.count_nil, hr, List.count_cons] at h1 ⊢
        omega
      · intro id
        have h1 := h.bound id
        simp only [uses, List.count_append, List.count_nil, hr, List.count_cons] at h1 ⊢
        intro h2; exact h1 (by omega)
  | register id proc nin nout cfg =>
    simp only [Sys.step]
    split
    · rename_i hid
      have hc : 0 < s.alloc.count id := List.count_pos_iff.2 hid
      have hu := h.uniq id
      have hLid : L id = none := by
        by_contra hne
        rcases hw.mem hne with h1 | h1
        · obtain ⟨n, hn⟩ := absG_slot h1
          simp [uses, hn] at hu; omega
        · have := List.count_pos_iff.2 h1
          simp only [uses] at hu; omega
      refine ⟨_, rfl, ⟨h.wf, ⟨_, hw.snoc (m := Msg.register id s.nextTag proc nin nout cfg) hLid, ?_⟩,
        ?_, ?_, ?_, h.dest, by simp [h.destKept], h.cap, ?_⟩⟩
      · intro x
        simp only [List.mem_append, List.mem_singleton, hL, msgEff]
        by_cases hx : x.id = id
        · simp only [hx, if_true, hLid]
          constructor
          · rintro (h1 | h1)
            · simp at h1
            · subst h1; rfl
          · intro h1
            right
            simp only [Option.some.injEq, Prod.mk.injEq] at h1
            cases x; simp_all
        · simp only [hx, if_false]
          constructor
          · rintro (h1 | h1)
            · exact h1
            · subst h1; exact absurd rfl hx
          · exact Or.inl
      · rw [List.nodup_append]
        refine ⟨h.nodup, by simp, ?_⟩
        rintro a ha b hb rfl
        simp only [List.mem_singleton] at hb
        subst hb
        rw [hL] at ha
        simp only [hLid] at ha
        simp at ha
      · intro id'
        have h1 := h.uniq id'
        simp only [uses, regIds_append, regIds, List.count_append, List.count_singleton,
          List.count_erase] at h1 ⊢
        by_cases hid' : id = id'
        · subst hid'; simp at h1 ⊢; omega
        · have hne : ¬ id' = id := fun h => hid' h.symm
          simp [hid', hne] at h1 ⊢; omega
      · intro id'
        have h1 := h.bound id'
        simp only [uses, regIds_append, regIds, List.count_append, List.count_singleton,
          List.count_erase] at h1 ⊢
        by_cases hid' : id = id'
        · subst hid'; simp at h1 ⊢
          intro _; exact h1 (by omega)
        · have hne : ¬ id' = id := fun h => hid' h.symm
          simp [hid', hne] at h1 ⊢
          intro h2; exact h1 (by omega)
      · intro tag hm
        simp only [List.mem_append, List.mem_singleton, reduceCtorEq, or_false] at hm
        exact h.noDrop0 tag hm
    · exact ⟨s, rfl, h⟩
  | failCreate id =>
    simp only [Sys.step]
    split
    · rename_i hid
      have hc : 0 < s.alloc.count id := List.count_pos_iff.2 hid.1
      have hu := h.uniq id
      have hLid : L id = none := by
        by_contra hne
        rcases hw.mem hne with h1 | h1
        · obtain ⟨n, hn⟩ := absG_slot h1
          simp [uses, hn] at hu; omega
        · have := List.count_pos_iff.2 h1
          simp only [uses] at hu; omega
      have heff : msgEff L (.dropped id s.nextTag : Msg P M) = L := by
        funext i
        simp only [msgEff]
        by_cases hi : i = id
        · simp [hi, hLid]
        · simp [hi]
      have hw' := hw.snoc (m := Msg.dropped id s.nextTag) (Or.inr ⟨hLid, hop id rfl⟩)
      rw [heff] at hw'
      refine ⟨_, rfl, ⟨h.wf, ⟨L, hw', hL⟩, h.nodup, ?_, ?_, h.dest, h.destKept, h.cap, ?_⟩⟩
      · intro id'
        have h1 := h.uniq id'
        have h2 : (s.alloc.erase id).count id' ≤ s.alloc.count id' := List.erase_sublist.count_le _
        simp only [uses, regIds_append, regIds, List.append_nil] at h1 ⊢
        omega
      · intro id'
        have h1 := h.bound id'
        have h2 : (s.alloc.erase id).count id' ≤ s.alloc.count id' := List.erase_sublist.count_le _
        simp only [uses, regIds_append, regIds, List.append_nil] at h1 ⊢
        intro h3; exact h1 (by omega)
      · intro tag hm
        simp only [List.mem_append, List.mem_singleton, Msg.dropped.injEq] at hm
        rcases hm with hm | ⟨hm, _⟩
        · exact h.noDrop0 tag hm
        · rw [← hm] at hid; simp [isMagic] at hid
    · exact ⟨s, rfl, h⟩
  | connect a b out inp =>
    simp only [Sys.step]
    split
    · rename_i hg
      refine ⟨_, rfl, h.send _ _ ?_ (by simp [regIds]) (by simp)⟩
      intro m hm L' hL'
      simp only [List.mem_singleton] at hm
      subst hm
      refine ⟨⟨⟨a.nin, a.nout, (hL' a).1 hg.1, hg.2.2.1⟩, b.nin, b.nout, (hL' b).1 hg.2.1, ?_⟩, rfl⟩
      intro p hp'
      simp only [Option.some.injEq] at hp'
      subst hp'
      exact hg.2.2.2
    · exact ⟨s, rfl, h⟩
  | connectHidden a b admin =>
    simp only [Sys.step]
    split
    · rename_i hg
      refine ⟨_, rfl, h.send _ _ ?_ (by simp [regIds]) (by simp)⟩
      intro m hm L' hL'
      simp only [List.mem_singleton] at hm
      subst hm
      refine ⟨⟨⟨a.nin, a.nout, (hL' a).1 hg.1, hg.2.2⟩, b.nin, b.nout, (hL' b).1 hg.2.1, ?_⟩, rfl⟩
      intro p hp'
      simp at hp'
    · exact ⟨s, rfl, h⟩
  | disconnect a out dst inp =>
    simp only [Sys.step]
    split
    · rename_i hg
      refine ⟨_, rfl, h.send _ _ ?_ ?_ (by simp)⟩
      · intro m hm L' hL'
        simp only [List.mem_map] at hm
        obtain ⟨c, _, rfl⟩ := hm
        exact ⟨⟨a.nin, a.nout, (hL' a).1 hg⟩, rfl⟩
      · generalize s.conns.filter _ = l
        induction l with
        | nil => rfl
        | cons c l ih => simpa [regIds] using ih
    · exact ⟨s, rfl, h⟩
  | post x m =>
    simp only [Sys.step]
    split
    · rename_i hg
      refine ⟨_, rfl, h.send _ _ ?_ (by simp [regIds]) (by simp)⟩
      intro m hm L' hL'
      simp only [List.mem_singleton] at hm
      subst hm
      exact ⟨⟨x.nin, x.nout, (hL' x).1 hg⟩, rfl⟩
    · exact ⟨s, rfl, h⟩
  | setCfg x c =>
    simp only [Sys.step]
    split
    · rename_i hg
      refine ⟨_, rfl, h.send _ _ ?_ (by simp [regIds]) (by simp)⟩
      intro m hm L' hL'
      simp only [List.mem_singleton] at hm
      subst hm
      exact ⟨⟨x.nin, x.nout, (hL' x).1 hg⟩, rfl⟩
    · exact ⟨s, rfl, h⟩
  | breaker x =>
    simp only [Sys.step]
    split
    · rename_i hg
      refine ⟨_, rfl, h.send _ _ ?_ (by simp [regIds]) (by simp)⟩
      intro m hm L' hL'
      simp only [List.mem_singleton] at hm
      subst hm
      exact ⟨⟨x.nin, x.nout, (hL' x).1 hg⟩, rfl⟩
    · exact ⟨s, rfl, h⟩
  | drop x =>
    simp only [Sys.step]
    split
    · rename_i hg
      exact ⟨_, rfl, (h.dropH x hg.1 hg.2).conns _⟩
    · exact ⟨s, rfl, h⟩
  | dropSend x =>
    simp only [Sys.step]
    split
    · rename_i hg
      exact ⟨_, rfl, h.dropH x hg.1 hg.2⟩
    · exact ⟨s, rfl, h⟩
  | dropClear id => exact ⟨_, rfl, h.conns _⟩
  | recv =>
    simp only [Sys.step]
    cases hc : s.chan with
    | nil => exact ⟨s, rfl, h⟩
    | cons m ms =>
      rw [hc] at hw
      have hregs : regIds s.chan = regIds [m] ++ regIds ms := by
        rw [hc, ← regIds_append]; rfl
      have hfree : ∀ id ∈ regIds [m], s.g.slot id = none := by
        intro id hid
        have hu := h.uniq id
        have := List.count_pos_iff.2 hid
        cases hs : s.g.slot id with
        | none => rfl
        | some n => simp [uses, hregs, hs] at hu; omega
      obtain ⟨g', k1, k2, k3, k4, k6, k5⟩ := handle_spec sem hp h.wf h.cap hw.1 hfree
      have hslot : ∀ id, (if (g'.slot id).isSome then 1 else 0) =
          (if (s.g.slot id).isSome then 1 else 0) + (regIds [m]).count id := by
        intro id
        have hu := h.uniq id
        simp only [uses, hregs, List.count_append] at hu
        by_cases hid : id ∈ regIds [m]
        · have hpos := List.count_pos_iff.2 hid
          have h1 : (g'.slot id).isSome = true := (k5 id).2 (Or.inr hid)
          have h2 := hfree id hid
          simp only [h1, h2, if_true, Option.isSome_none, Bool.false_eq_true, if_false] at hu ⊢
          omega
        · have h0 : (regIds [m]).count id = 0 := List.count_eq_zero.2 hid
          have : (g'.slot id).isSome = (s.g.slot id).isSome := by
            rw [Bool.eq_iff_iff, k5]; simp [hid]
          rw [this, h0]; omega
      refine ⟨{ s with g := g', chan := ms }, by simp [k1], ⟨k2, ⟨L, ?_, hL⟩, h.nodup, ?_, ?_, ?_,
        h.destKept, le_trans h.cap k6, ?_⟩⟩
      · show Walk (absG g') ms L
        rw [k3]; exact hw.2
      · intro id
        have hu := h.uniq id
        simp only [uses, hregs, List.count_append, k4] at hu ⊢
        have := hslot id
        omega
      · intro id
        have hu := h.bound id
        simp only [uses, hregs, List.count_append, k4] at hu ⊢
        have := hslot id
        intro h3; exact hu (by omega)
      · show absG g' 0 = _
        rw [k3]
        have hd := h.dest
        cases m with
        | register id tag proc nin nout cfg =>
          have : (0 : Nat) ≠ id := by
            rintro rfl
            have := hfree 0 (by simp [regIds])
            simp [absG, this] at hd
          simp [msgEff, this, hd]
        | dropped id tag =>
          have : (0 : Nat) ≠ id := by
            rintro rfl
            exact h.noDrop0 tag (by rw [hc]; simp)
          simp [msgEff, this, hd]
        | connect => exact hd
        | disconnect => exact hd
        | breaker => exact hd
        | post => exact hd
        | setCfg => exact hd
      · intro tag hm
        exact h.noDrop0 tag (by rw [hc]; simp [hm])
  | quantum =>
    obtain ⟨g', o, k1, k2, k6, k3, k4, k5⟩ := quantum_spec sem hp h.wf h.dest
    refine ⟨{ s with g := g' }, by simp [Sys.step, k1], ⟨k2, ⟨L, ?_, hL⟩, h.nodup, ?_, ?_, ?_,
        h.destKept, le_of_le_of_eq h.cap k6.symm, h.noDrop0⟩⟩
    · show Walk (absG g') _ L
      rw [k3]; exact hw
    · intro id
      have hu := h.uniq id
      have := k5 id
      simp only [uses] at hu ⊢
      omega
    · intro id
      have hu := h.bound id
      have := k5 id
      simp only [uses] at hu ⊢
      intro h3; exact hu (by omega)
    · show absG g' 0 = _
      rw [k3]; exact h.dest

theorem inv_init (dest : P) (cfg : Cfg) : Inv (Sys.init sem dest cfg : Sys P S M) := by
  have hw0 : WF (RGraph.new : RGraph P S) :=
    ⟨⟨by simp [RGraph.new], by simp [RGraph.new]⟩, by simp [RGraph.new], by simp [RGraph.new],
      by simp [RGraph.new]⟩
  refine ⟨RGraph.addNode_wf sem hw0 rfl 0 dest 1 1 cfg, ⟨_, rfl, ?_⟩, by simp [Sys.init], ?_, ?_, ?_,
    by simp [Sys.init], by simp [Sys.init, RGraph.new, RGraph.addNode], by simp [Sys.init]⟩
  · intro x
    simp only [Sys.init, RGraph.new, RGraph.addNode, absG, List.mem_singleton]
    by_cases hx : x.id = 0
    · simp only [hx, if_true]
      constructor
      · rintro rfl; simp
      · intro h
        simp only [Bool.false_eq_true, if_false, List.length_replicate, Option.some.injEq,
          Prod.mk.injEq] at h
        obtain ⟨h1, h2, h3⟩ := h
        obtain ⟨a, b, c, d⟩ := x
        simp only at hx h1 h2 h3
        subst hx h1 h2 h3
        rfl
    · simp only [hx, if_false]
      constructor
      · rintro rfl; exact absurd rfl hx
      · simp
  · intro id
    simp only [uses, Sys.init, RGraph.new, RGraph.addNode, regIds, List.count_nil]
    by_cases h0 : id = 0
    · subst h0; simp
    · simp only [h0, if_false, Option.isSome_none, Bool.false_eq_true]
      have : List.Nodup [1, 2, 3, 4, 5, 6, 7, 8, 9, 10] := by decide
      have := List.nodup_iff_count_le_one.1 this id
      omega
  · intro id
    simp only [uses, Sys.init, RGraph.new, RGraph.addNode, regIds, List.count_nil]
    by_cases h0 : id = 0
    · subst h0; simp
    · simp only [h0, if_false, Option.isSome_none, Bool.false_eq_true]
      intro h
      have : 0 < List.count id [1, 2, 3, 4, 5, 6, 7, 8, 9, 10] := by omega
      have := List.count_pos_iff.1 this
      simp at this
      omega
  · simp [Sys.init, RGraph.new, RGraph.addNode, absG]

theorem inv_run (hp : NoPanic sem) {s : Sys P S M} (h : Inv s) (ops : List (Op P M))
    (hop : ∀ op ∈ ops, ∀ id, op = .failCreate id → id < 64) : ∃ s', s.run sem ops = some s' ∧ Inv s' := by
  induction ops generalizing s with
  | nil => exact ⟨s, rfl, h⟩
  | cons op ops ih =>
    obtain ⟨s1, h1, h2⟩ := inv_step sem hp h op (hop op (by simp))
    obtain ⟨s2, h3, h4⟩ := ih h2 (fun o ho => hop o (by simp [ho]))
    refine ⟨s2, ?_, h4⟩
    simp only [Sys.run, RGraph.foldOpt, h1] at h3 ⊢
    exact h3

end Verif.Render
