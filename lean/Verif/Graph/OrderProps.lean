import Verif.Graph.OrderProofs

/-!
# Properties of the processing order (C01 - C04)

`g : Topo` is an arbitrary graph: keys, parallel edges, self loops, cycles and cycle breaker flags
are unrestricted; the only hypothesis `g.Closed` says that connections point to existing nodes (an
invariant of the render thread, see `LifecycleProps.lean`).
-/

namespace Verif.Graph

open Relation

/-- C01. Ordering succeeds for every graph; the order has no duplicates, contains live nodes only
and every remaining connection between two scheduled nodes goes forward in the order. -/
theorem C01_upstream_first (g : Topo) (hcl : g.Closed) :
    ∃ g' order, orderNodes g = .ok (g', order) ∧ order.Nodup ∧ (∀ n ∈ order, n ∈ g.keys) ∧
      ∀ u ∈ order, ∀ v ∈ order, v ∈ g'.succ u → Before order u v := by
  obtain ⟨g', order, h, hc, hn, hk, _, hb⟩ := orderNodes_spec g hcl
  refine ⟨g', order, h, hn, hk, ?_⟩
  intro u hu v hv he
  exact hb u hu v hv ⟨by rw [hc.keys]; exact hk u hu, he⟩

/-- C02. Ordering never panics and never runs out of the recursion / restart bound, and for an
acyclic graph it keeps all connections and schedules every node exactly once. -/
theorem C02_terminates_and_complete (g : Topo) (hcl : g.Closed) :
    (∃ r, orderNodes g = .ok r) ∧
    ((∀ n, ¬ TransGen (fun u v => u ∈ g.keys ∧ v ∈ g.succ u) n n) →
      ∃ g' order, orderNodes g = .ok (g', order) ∧ (∀ n ∈ g.keys, g'.succ n = g.succ n) ∧
        order.Nodup ∧ ∀ n, n ∈ order ↔ n ∈ g.keys) := by
  obtain ⟨g', order, h, hc, hn, hk, hm, _⟩ := orderNodes_spec g hcl
  refine ⟨⟨_, h⟩, ?_⟩
  intro hac
  refine ⟨g', order, h, ?_, hn, ?_⟩
  · intro n hnk
    rcases hc.succ n hnk with h' | ⟨_, _, h'⟩
    · exact h'
    · exact absurd h' (hac n)
  · intro n
    refine ⟨hk n, fun hnk => ?_⟩
    by_contra hno
    exact hac n (hc.onCycle (hm n hnk hno))

theorem before_irrefl {l : List Nat} (hl : l.Nodup) (u : Nat) : ¬ Before l u u := by
  rintro ⟨p, q, r, h⟩
  rw [h] at hl
  have := List.nodup_append.1 hl
  exact this.2.2 u (by simp) u (by simp) rfl

theorem before_idx {l : List Nat} (hl : l.Nodup) {u v : Nat} (h : Before l u v) :
    l.idxOf u < l.idxOf v := by
  obtain ⟨p, q, r, rfl⟩ := h
  have hnd := List.nodup_append.1 hl
  have hup : u ∉ p := by
    intro h
    have h1 := (List.nodup_append.1 hnd.1).2.2
    exact h1 u h u (by simp) rfl
  have hv : v ∉ p ++ u :: q := fun h => hnd.2.2 v h v (by simp) rfl
  have h1 : (p ++ u :: q ++ v :: r).idxOf u = p.length := by
    rw [List.append_assoc, List.idxOf_append_of_notMem hup]; simp
  have h2 : (p ++ u :: q ++ v :: r).idxOf v = (p ++ u :: q).length := by
    rw [List.idxOf_append_of_notMem hv]; simp
  rw [h1, h2]; simp

/-- C03. Cycle resolution only touches cycles: connections are removed only from cycle breakers
which lie on a cycle of the given graph (all other connections stay), a node is left out of the
order only if it lies on a cycle, and every cycle that remains after cutting contains a node that
is left out. -/
theorem C03_only_cycles_are_cut (g : Topo) (hcl : g.Closed) :
    ∃ g' order, orderNodes g = .ok (g', order) ∧
      (∀ n ∈ g.keys, g'.succ n = g.succ n ∨
        (g'.succ n = [] ∧ g.breaker n = true ∧
          TransGen (fun u v => u ∈ g.keys ∧ v ∈ g.succ u) n n)) ∧
      (∀ n ∈ g.keys, n ∉ order → TransGen (fun u v => u ∈ g.keys ∧ v ∈ g'.succ u) n n) ∧
      (∀ n, ¬ TransGen (fun u v => u ∈ order ∧ v ∈ order ∧ v ∈ g'.succ u) n n) := by
  obtain ⟨g', order, h, hc, hn, hk, hm, hb⟩ := orderNodes_spec g hcl
  refine ⟨g', order, h, hc.succ, ?_, ?_⟩
  · intro n hnk hno
    have := hm n hnk hno
    unfold Topo.OnCycle Topo.Edge at this
    rw [hc.keys] at this
    exact this
  · intro n hcy
    have hlt : ∀ a b, TransGen (fun u v => u ∈ order ∧ v ∈ order ∧ v ∈ g'.succ u) a b →
        order.idxOf a < order.idxOf b := by
      intro a b hab
      induction hab with
      | single h' =>
        exact before_idx hn (hb _ h'.1 _ h'.2.1 ⟨by rw [hc.keys]; exact hk _ h'.1, h'.2.2⟩)
      | tail _ h' ih =>
        exact lt_trans ih
          (before_idx hn (hb _ h'.1 _ h'.2.1 ⟨by rw [hc.keys]; exact hk _ h'.1, h'.2.2⟩))
    exact lt_irrefl _ (hlt n n hcy)

/-- Concrete graph: 1 → 2 → 3 → 1 with chord 1 → 4 → 2 where the DFS visits 2 before 4, no
delay node. -/
def chordGraph : Topo where
  keys := [1, 2, 3, 4]
  succ := fun n => match n with | 1 => [2, 4] | 2 => [3] | 3 => [1] | 4 => [2] | _ => []
  breaker := fun _ => false

/-- C04 is violated by the code: node 4 lies on the delay-free cycle 1 → 4 → 2 → 3 → 1 but it is
scheduled (not muted). -/
theorem C04_negated : chordGraph.Closed ∧
    TransGen (fun u v => u ∈ chordGraph.keys ∧ v ∈ chordGraph.succ u) 4 4 ∧
    (∀ n, chordGraph.breaker n = false) ∧
    ∃ g' order, orderNodes chordGraph = .ok (g', order) ∧ 4 ∈ order := by
  refine ⟨by unfold Topo.Closed; decide, ?_, fun _ => rfl, ?_⟩
  · refine TransGen.head (b := 2) (by decide) (TransGen.head (b := 3) (by decide)
      (TransGen.head (b := 1) (by decide) (TransGen.single (by decide))))
  · exact ⟨chordGraph, [4], by rfl, by decide⟩

/-- C04, the part that holds: on every cycle without cycle breaker at least one node is muted
(missing for the full claim: all of its nodes). Here a cycle is a closed walk `p` through nodes of
the graph; cutting does not touch it as it contains no cycle breaker. -/
theorem C04_cycle_muted_partial (g : Topo) (hcl : g.Closed) (n : Nat)
    (hcy : TransGen (fun u v => u ∈ g.keys ∧ v ∈ g.succ u ∧ g.breaker u = false) n n) :
    ∃ g' order, orderNodes g = .ok (g', order) ∧
      ∃ m, m ∉ order ∧ m ∈ g.keys ∧
        ReflTransGen (fun u v => u ∈ g.keys ∧ v ∈ g.succ u ∧ g.breaker u = false) n m ∧
        ReflTransGen (fun u v => u ∈ g.keys ∧ v ∈ g.succ u ∧ g.breaker u = false) m n := by
  obtain ⟨g', order, h, hcut, _, hac⟩ := C03_only_cycles_are_cut g hcl
  refine ⟨g', order, h, ?_⟩
  by_contra hno
  push Not at hno
  set R := fun u v => u ∈ g.keys ∧ v ∈ g.succ u ∧ g.breaker u = false with hR
  -- otherwise all nodes reachable from and reaching n are in the order
  have key : ∀ a, TransGen R n a → ReflTransGen R a n →
      TransGen (fun u v => u ∈ order ∧ v ∈ order ∧ v ∈ g'.succ u) n a := by
    have hin : ∀ m, m ∈ g.keys → ReflTransGen R n m → ReflTransGen R m n → m ∈ order := by
      intro m hm h1 h2
      by_contra hmo
      exact hno m hmo hm h1 h2
    have hstep : ∀ u v, ReflTransGen R n u → R u v → ReflTransGen R v n →
        u ∈ order ∧ v ∈ order ∧ v ∈ g'.succ u := by
      intro u v h1 h2 h3
      refine ⟨hin u h2.1 h1 (ReflTransGen.head h2 h3), ?_, ?_⟩
      · exact hin v (hcl u h2.1 v h2.2.1) (h1.tail h2) h3
      · rcases hcut u h2.1 with h' | ⟨_, h', _⟩
        · rw [h']; exact h2.2.1
        · rw [h2.2.2] at h'; simp at h'
    intro a hna
    induction hna with
    | single h' => exact fun h3 => TransGen.single (hstep _ _ ReflTransGen.refl h' h3)
    | tail hab h' ih =>
      intro h3
      exact TransGen.tail (ih (ReflTransGen.head h' h3)) (hstep _ _ hab.to_reflTransGen h' h3)
  exact hac n (key n hcy ReflTransGen.refl)

/-! ### Non-vacuity -/

/-- source 1 → gain 2 → dest 0, delay 3 on a cycle 2 → 3 → 2, and a delay-free loop 4 ↔ 5 -/
def demoGraph : Topo where
  keys := [0, 1, 2, 3, 4, 5]
  succ := fun n => match n with | 1 => [2] | 2 => [0, 3] | 3 => [2] | 4 => [5] | 5 => [4] | _ => []
  breaker := fun n => n == 3

example : demoGraph.Closed := by unfold Topo.Closed; decide
example : ∃ g', orderNodes demoGraph = .ok (g', [1, 2, 3, 0]) ∧ g'.succ 3 = [] ∧ g'.succ 2 = [0, 3] :=
  ⟨_, rfl, rfl, rfl⟩
/-- an acyclic closed graph, so the second half of C02 applies -/
example : ∃ g : Topo, g.Closed ∧ g.keys = [0, 1, 2] ∧ g.succ 1 = [2] ∧ g.succ 2 = [0] ∧
    ∀ n, ¬ TransGen (fun u v => u ∈ g.keys ∧ v ∈ g.succ u) n n := by
  refine ⟨⟨[0, 1, 2], fun n => match n with | 1 => [2] | 2 => [0] | _ => [], fun _ => false⟩,
    by unfold Topo.Closed; decide, rfl, rfl, rfl, ?_⟩
  -- rank function 1 ↦ 0, 2 ↦ 1, 0 ↦ 2
  have hr : ∀ a b, TransGen (fun u v => u ∈ [0, 1, 2] ∧
      v ∈ (match u with | 1 => [2] | 2 => [0] | _ => [] : List Nat)) a b →
      (fun n => match n with | 1 => 0 | 2 => 1 | _ => 2 : Nat → Nat) a <
      (fun n => match n with | 1 => 0 | 2 => 1 | _ => 2 : Nat → Nat) b := by
    have hs : ∀ u v, (u ∈ [0, 1, 2] ∧
        v ∈ (match u with | 1 => [2] | 2 => [0] | _ => [] : List Nat)) →
        (fun n => match n with | 1 => 0 | 2 => 1 | _ => 2 : Nat → Nat) u <
        (fun n => match n with | 1 => 0 | 2 => 1 | _ => 2 : Nat → Nat) v := by
      rintro u v ⟨hu, hv⟩
      simp at hu
      rcases hu with rfl | rfl | rfl <;> simp_all
    intro a b h
    induction h with
    | single h => exact hs _ _ h
    | tail _ h ih => exact lt_trans ih (hs _ _ h)
  exact fun n h => lt_irrefl _ (hr n n h)
/-- a breaker-free cycle, so `C04_cycle_muted_partial` applies -/
example : TransGen (fun u v => u ∈ demoGraph.keys ∧ v ∈ demoGraph.succ u ∧
    demoGraph.breaker u = false) 4 4 :=
  TransGen.head (b := 5) (by decide) (TransGen.single (by decide))

end Verif.Graph
