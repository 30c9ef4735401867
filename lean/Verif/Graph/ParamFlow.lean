import Verif.Graph.QuantumProps

/-!
# C107: parameters are read in the quantum they belong to

An AudioParam is a node of the graph, connected to its owner by an edge without port
(`/repo/src/context/concrete_base.rs`, `/repo/src/param.rs` l.1606-1660). The owner does not receive its signal through
an input but reads its output buffer while it is processed (`AudioParamValues::get`,
`/repo/src/render/processor.rs` l.186-200; `Node::get_buffer`, graph.rs l.118-120). The theorem says which buffer it
finds there, for processors of any kind.
-/

namespace Verif.Render

open Verif.Graph

variable {P S M : Type}

/-- C107 (data flow). Let `p` be a node that is connected to node `i` (the parameter and its owner), both in the order.
Then `p` is processed before `i`. It finds at its inputs what was there at the start of the quantum, mixed with what the
nodes before it have sent to it in this quantum, and its processor is as at the start of the quantum. When its processor
does not panic and returns true (parameters always do, param.rs l.701), node `i` reads, when its turn comes, exactly the
buffer that `p` has produced in this quantum. The inputs of `i` are those of the quantum, too. -/
theorem C107_params_are_this_quantum (sem : Sem P S M) {g : RGraph P S} (w : WF g) :
    ∃ g1, (if g.ordered = [] then g.order else some g) = some g1 ∧
    ∀ i ∈ g1.ordered, ∀ p ∈ g1.ordered, ∀ np1, g1.slot p = some np1 → (∃ e ∈ np1.edges, e.dst = i) →
    ∃ pre mid post gp gi n na m ma, g1.ordered = pre ++ p :: (mid ++ i :: post) ∧
      RGraph.foldOpt (RGraph.renderNode sem) pre g1 = some gp ∧
      RGraph.foldOpt (RGraph.renderNode sem) (pre ++ p :: mid) g1 = some gi ∧
      g.slot i = some m ∧ gi.slot i = some ma ∧ ma.proc = m.proc ∧ ma.outputs = m.outputs ∧
      (∀ q, ma.inputs[q]? = (m.inputs[q]?).map fun s => (sent sem (pre ++ p :: mid) g1 i q).foldl (sem.add m.cfg) s) ∧
      g.slot p = some n ∧ gp.slot p = some na ∧
      (∀ q, na.inputs[q]? = (n.inputs[q]?).map fun s => (sent sem pre g1 p q).foldl (sem.add n.cfg) s) ∧
      ∀ proc' outs, sem.process n.proc na.inputs n.outputs (gp.params p) = some (proc', outs, true) →
        gi.params i p = outs.head? := by
  obtain ⟨g1, h1, w1, _, _, _, e6, e7⟩ := RGraph.orderedGraph_spec w
  refine ⟨g1, h1, ?_⟩
  intro i hi p hp n1 hn1 hedge
  have hstart : ∀ j n1, g1.slot j = some n1 → ∃ n, g.slot j = some n ∧ n1.proc = n.proc ∧
      n1.outputs = n.outputs ∧ n1.cfg = n.cfg ∧ n1.inputs = n.inputs := by
    intro j n1 hn1
    cases hs : g.slot j with
    | none => rw [e6 j hs] at hn1; simp at hn1
    | some n =>
      rcases e7 j n hs with h | ⟨h, _⟩ <;> rw [hn1] at h <;> cases h
      · exact ⟨_, rfl, rfl, rfl, rfl, rfl⟩
      · exact ⟨n, rfl, rfl, rfl, rfl, rfl⟩
  obtain ⟨n, hn, q1, q2, q3, q4⟩ := hstart p n1 hn1
  obtain ⟨m1, hm1⟩ := w1.mem i hi
  obtain ⟨m, hm, r1, r2, r3, r4⟩ := hstart i m1 hm1
  have hbef : Before g1.ordered p i := w1.fwd p hp i hi n1 hn1 hedge
  have hsplit := split_at hi
  have hpi : p ∈ g1.ordered.takeWhile (· ≠ i) := before_takeWhile w1.nodup hbef
  have hsplit2 := split_at hpi
  generalize hP : (g1.ordered.takeWhile (· ≠ i)).takeWhile (· ≠ p) = pre at hsplit2
  generalize hM : ((g1.ordered.takeWhile (· ≠ i)).dropWhile (· ≠ p)).tail = mid at hsplit2
  generalize (g1.ordered.dropWhile (· ≠ i)).tail = post at hsplit
  rw [hsplit2] at hsplit
  have hord : g1.ordered = pre ++ p :: (mid ++ i :: post) := by rw [hsplit]; simp
  have hnd : (pre ++ p :: (mid ++ i :: post)).Nodup := hord ▸ w1.nodup
  have hpp : p ∉ pre := fun h => (List.nodup_append.1 hnd).2.2 p h p (by simp) rfl
  have hpre : ∀ j ∈ pre, j ∈ g1.ordered := fun j hj => by rw [hord]; simp [hj]
  have hinv : RGraph.LoopInv g1.ordered (pre ++ p :: (mid ++ i :: post)) g1 := hord ▸ RGraph.wf_loopInv w1
  obtain ⟨gp, k1, k2⟩ := RGraph.loop_spec sem w1.nodup _ _ g1 hpre hnd hinv
  obtain ⟨na, l1, l2, _⟩ := RGraph.loop_inputs sem w1.nodup _ _ g1 gp hpre hnd hinv k1 p hpp n1 hn1
  have hinv2 : RGraph.LoopInv g1.ordered pre g1 :=
    ⟨hinv.toWFe, rfl, fun j hj => hinv.mem j (by simp only [List.mem_append]; exact Or.inl hj), hinv.fwd⟩
  obtain ⟨_, m2, _⟩ := RGraph.loop_fate sem w1.nodup _ g1 gp hpre (List.nodup_append.1 hnd).1 hinv2 k1
  obtain ⟨na', t0, t1, t2, t3, t4, _⟩ := m2 p n1 hpp hn1
  rw [l1] at t0; cases t0
  have hedges : na.edges = n1.edges := by
    obtain ⟨n', c1, c2⟩ := loop_edges sem w1.nodup _ _ g1 gp hpre hnd hinv k1 p hpp n1 hn1 (by
      intro e he hmem
      have hb := w1.fwd p hp _ (hpre _ hmem) n1 hn1 ⟨e, he, rfl⟩
      have h6 := before_takeWhile w1.nodup hb
      obtain ⟨s, t, hst⟩ := List.append_of_mem hmem
      rw [hord, hst] at h6
      have hnot : p ∉ List.takeWhile (· ≠ e.dst) (s ++ e.dst :: t ++ p :: (mid ++ i :: post)) := by
        rw [List.append_assoc, List.takeWhile_append]
        intro hm
        split at hm
        · simp only [List.cons_append, ne_eq, not_true_eq_false, decide_false, Bool.false_eq_true,
            not_false_eq_true, List.takeWhile_cons_of_neg, List.append_nil] at hm
          exact hpp (by rw [hst]; simp [List.mem_append]; exact Or.inl hm)
        · exact hpp (by rw [hst]; simp [List.mem_append]; exact Or.inl (List.takeWhile_subset _ hm))
      exact hnot h6)
    rw [l1] at c1; cases c1; exact c2
  have hnd2 : (p :: (mid ++ i :: post)).Nodup := (List.nodup_append.1 hnd).2.1
  obtain ⟨nn, gb, c1, c2, c3, c4, c5⟩ := RGraph.loop_step sem w1.nodup hp hnd2 k2
  rw [l1] at c1; cases c1
  have hmid : ∀ j ∈ mid, j ∈ g1.ordered := fun j hj => by rw [hord]; simp [hj]
  have hnd3 := List.nodup_cons.1 hnd2
  obtain ⟨gi, d1, d2⟩ := RGraph.loop_spec sem w1.nodup mid _ gb hmid hnd3.2 c5
  have hgi : RGraph.foldOpt (RGraph.renderNode sem) (pre ++ p :: mid) g1 = some gi := by
    rw [RGraph.foldOpt_append, k1]
    simp only [Option.bind_some, RGraph.foldOpt, c3]
    exact d1
  have hnd4 : ((pre ++ p :: mid) ++ i :: post).Nodup := by simpa using hnd
  have hinv4 : RGraph.LoopInv g1.ordered ((pre ++ p :: mid) ++ i :: post) g1 := by simpa using hinv
  have hpre4 : ∀ j ∈ pre ++ p :: mid, j ∈ g1.ordered := fun j hj => by
    rw [hsplit]; exact List.mem_append_left _ hj
  have hinot : i ∉ pre ++ p :: mid := fun h => (List.nodup_append.1 hnd4).2.2 i h i (by simp) rfl
  obtain ⟨ma, v1, v2, _⟩ := RGraph.loop_inputs sem w1.nodup _ _ g1 gi hpre4 hnd4 hinv4 hgi i hinot m1 hm1
  have hinv5 : RGraph.LoopInv g1.ordered (pre ++ p :: mid) g1 :=
    ⟨hinv4.toWFe, rfl, fun j hj => hinv4.mem j (by simp only [List.mem_append]; exact Or.inl (List.mem_append.1 hj)), hinv4.fwd⟩
  obtain ⟨_, z2, _⟩ := RGraph.loop_fate sem w1.nodup _ g1 gi hpre4 (List.nodup_append.1 hnd4).1 hinv5 hgi
  obtain ⟨ma', z0, z1, z3, z4, z5, _⟩ := z2 i m1 hinot hm1
  rw [v1] at z0; cases z0
  refine ⟨pre, mid, post, gp, gi, n, na, m, ma, hord, k1, hgi, hm, v1, z3.trans r1, z4.trans r2, ?_, hn, l1, ?_, ?_⟩
  · intro q
    rw [v2 q, r4, r3]
    rfl
  · intro q
    rw [l2 q, q4, q3]
    rfl
  · intro proc' outs hproc
    have hproc2 : sem.process na.proc na.inputs na.outputs (gp.params p) = some (proc', outs, true) := by
      rw [t2, t3, q1, q2]; exact hproc
    have hpr : gp.process sem p na = ({ na with proc := proc', outputs := outs }, true, true) := by
      unfold RGraph.process; rw [hproc2]
    have hne : na.edges ≠ [] := by
      rw [hedges]
      obtain ⟨e, he, _⟩ := hedge
      exact List.ne_nil_of_mem he
    have hfr : gp.freed sem p na = false := by
      unfold RGraph.freed
      rw [hpr]
      simp [Node.canFree, hne]
    have hself := c4.self
    rw [hfr, hpr] at hself
    simp only [Bool.false_eq_true, if_false] at hself
    have hinv3 : RGraph.LoopInv g1.ordered mid gb :=
      ⟨c5.toWFe, c5.ordered, fun j hj => c5.mem j (by simp only [List.mem_append]; exact Or.inl hj), c5.fwd⟩
    have hpm : p ∉ mid := fun h => hnd3.1 (by simp [h])
    obtain ⟨_, f2, _⟩ := RGraph.loop_fate sem w1.nodup _ gb gi hmid (List.nodup_append.1 hnd3.2).1 hinv3 d1
    obtain ⟨np', u0, u1, u2, u3, _⟩ := f2 p _ hpm hself
    have hne2 : p ≠ i := by
      rintro rfl
      exact hnd3.1 (by simp)
    unfold RGraph.params
    rw [if_neg hne2, RGraph.get_eq_slot' (fun i n hn => d2.bound i n hn), u0]
    simp only [Option.bind_some, u3]

end Verif.Render
