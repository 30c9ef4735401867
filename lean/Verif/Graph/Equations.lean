import Verif.Graph.Isolated

/-!
# C111: rendering solves the equations of the graph

What a graph without cycles means, without any order of processing: in every quantum each node applies its processor to the
sum of what its predecessors put out in the same quantum. These equations have exactly one solution, and the loop of
`Graph::render` (`/repo/src/render/graph.rs` l.490-591, model `RGraph.render`) computes it.
-/

namespace Verif.Render

open Verif.Graph Relation

variable {P S M : Type}

/-! ## Specification -/

/-- The results of the processors in a quantum: new state, outputs, tail flag; `none`: the processor panics, or there is no
node. -/
abbrev Results (P S : Type) := Nat → Option (P × List S × Bool)

/-- what node `j` sends to input `q` of node `i`: its output, for each of its connections to this input -/
def sends (g : RGraph P S) (r : Results P S) (i q j : Nat) : List S :=
  match g.slot j, r j with
  | some n, some x => n.edges.filterMap fun e => if e.dst = i ∧ e.port = some q then x.2.1[e.out]? else none
  | _, _ => []

/-- what arrives at input `q` of node `i` from the nodes `ks` -/
def arriving (g : RGraph P S) (ks : List Nat) (r : Results P S) (i q : Nat) : List S := ks.flatMap (sends g r i q)

/-- something arrives at node `i` -/
def fed (g : RGraph P S) (ks : List Nat) (r : Results P S) (i : Nat) : Bool :=
  ks.any fun j => match g.slot j, r j with
    | some n, some _ => n.edges.any fun e => decide (e.dst = i ∧ e.port ≠ none)
    | _, _ => false

/-- Node `i` leaves the graph at the end of the quantum: its processor panicked, or its handle is dropped and it is of no use
any more (no input and no tail or no connection; or no side effect and no connection). -/
def leaves (sem : Sem P S M) (g : RGraph P S) (ks : List Nat) (r : Results P S) (i : Nat) : Bool :=
  match g.slot i, r i with
  | some n, some x => n.dropped &&
      ((!(n.hasInputs || fed g ks r i) && (!x.2.2 || n.edges.isEmpty)) || (!sem.sideEffects x.1 && n.edges.isEmpty))
  | _, _ => true

/-- what node `i` sees of node `j` when it reads a parameter: its first output in this quantum -/
def seen (sem : Sem P S M) (g : RGraph P S) (ks : List Nat) (r : Results P S) (i j : Nat) : Option S :=
  if j = i ∨ leaves sem g ks r j = true then none else (r j).bind fun x => x.2.1.head?

/-- the inputs of node `i`: what is there (silence) and everything that arrives -/
def inputsOf (sem : Sem P S M) (g : RGraph P S) (ks : List Nat) (r : Results P S) (i : Nat) (n : Node P S) : List S :=
  n.inputs.mapIdx fun q s => (arriving g ks r i q).foldl (sem.add n.cfg) s

/-- The equations of the graph. -/
structure Solves (sem : Sem P S M) (g : RGraph P S) (ks : List Nat) (r : Results P S) : Prop where
  none : ∀ i, g.slot i = Option.none → r i = Option.none
  eq : ∀ i n, g.slot i = some n →
    r i = sem.process n.proc (inputsOf sem g ks r i n) n.outputs (seen sem g ks r i)

/-- the nodes after the quantum -/
def afterwards (sem : Sem P S M) (g : RGraph P S) (ks : List Nat) (r : Results P S) (i : Nat) : Option (Node P S) :=
  match g.slot i, r i with
  | some n, some x =>
    if leaves sem g ks r i then none else
      some { n with proc := x.1, outputs := x.2.1, inputs := n.inputs.map fun _ => sem.silence, hasInputs := false,
                    edges := n.edges.filter fun e => !leaves sem g ks r e.dst }
  | _, _ => none

/-- processors look only at the parameters `reads` -/
def Reads (sem : Sem P S M) (reads : P → Nat → Prop) : Prop :=
  ∀ p ins outs ps ps', (∀ j, reads p j → ps j = ps' j) → sem.process p ins outs ps = sem.process p ins outs ps'

/-- all nodes, each once -/
def Lists (g : RGraph P S) (ks : List Nat) : Prop := ks.Nodup ∧ ∀ i, i ∈ ks ↔ (g.slot i).isSome

/-! ## Proofs -/

/-- every connection leads to a later node -/
def Sorted (g : RGraph P S) (L : List Nat) : Prop :=
  ∀ pre i post, L = pre ++ i :: post → ∀ u, Joined g u i → u ∈ pre

theorem Sorted.forward {g : RGraph P S} {L : List Nat} (h : Sorted g L) (hL : L.Nodup) {pre post : List Nat} {i : Nat}
    (hs : L = pre ++ i :: post) {k : Nat} (hj : Joined g i k) : k ∉ pre ∧ k ≠ i := by
  rw [hs] at hL
  have hnd := List.nodup_append.1 hL
  have hi : i ∉ pre := fun hm => hnd.2.2 i hm i (by simp) rfl
  refine ⟨fun hk => ?_, ?_⟩
  · obtain ⟨a, b, rfl⟩ := List.append_of_mem hk
    have := h a k (b ++ i :: post) (by rw [hs]; simp) i hj
    exact hi (by simp [this])
  · rintro rfl
    exact hi (h pre k post hs k hj)

section
variable {sem : Sem P S M} {g : RGraph P S}

theorem sends_congr {r r' : Results P S} {j : Nat} (h : r j = r' j) (i q : Nat) : sends g r i q j = sends g r' i q j := by
  unfold sends; rw [h]

theorem sends_nil {r : Results P S} {i j : Nat} (h : ¬ Joined g j i) (q : Nat) : sends g r i q j = [] := by
  unfold sends
  cases hs : g.slot j with
  | none => rfl
  | some n =>
    cases r j with
    | none => rfl
    | some x =>
      simp only [List.filterMap_eq_nil_iff]
      intro e he
      exact if_neg fun hc => h ⟨n, hs, e, he, hc.1⟩

/-- `arriving` looks only at the results of predecessors -/
theorem arriving_congr {r r' : Results P S} {i : Nat} {ks : List Nat} (h : ∀ j ∈ ks, Joined g j i → r j = r' j) (q : Nat) :
    arriving g ks r i q = arriving g ks r' i q := by
  unfold arriving
  induction ks with
  | nil => rfl
  | cons j ks ih =>
    rw [List.flatMap_cons, List.flatMap_cons, ih fun j hj => h j (by simp [hj])]
    congr 1
    by_cases hj : Joined g j i
    · exact sends_congr (h j (by simp) hj) i q
    · rw [sends_nil hj, sends_nil hj]

theorem arriving_snoc (ks : List Nat) (r : Results P S) (j i q : Nat) :
    arriving g (ks ++ [j]) r i q = arriving g ks r i q ++ sends g r i q j := by
  simp [arriving]

theorem fed_iff {ks : List Nat} {r : Results P S} {i : Nat} : fed g ks r i = true ↔
    ∃ j ∈ ks, ∃ n, g.slot j = some n ∧ (r j).isSome ∧ ∃ e ∈ n.edges, e.dst = i ∧ e.port ≠ none := by
  unfold fed
  rw [List.any_eq_true]
  constructor
  · rintro ⟨j, hj, h⟩
    refine ⟨j, hj, ?_⟩
    cases hs : g.slot j with
    | none => rw [hs] at h; simp at h
    | some n =>
      cases hr : r j with
      | none => rw [hs, hr] at h; simp at h
      | some x =>
        rw [hs, hr] at h
        simp only [List.any_eq_true, decide_eq_true_eq] at h
        exact ⟨n, rfl, rfl, h⟩
  · rintro ⟨j, hj, n, hs, hr, h⟩
    refine ⟨j, hj, ?_⟩
    obtain ⟨x, hx⟩ := Option.isSome_iff_exists.1 hr
    rw [hs, hx]
    simp only [List.any_eq_true, decide_eq_true_eq]
    exact h

theorem fed_congr {r r' : Results P S} {i : Nat} {ks ks' : List Nat} (h : ∀ j ∈ ks, Joined g j i → r j = r' j ∧ j ∈ ks')
    (h' : ∀ j ∈ ks', Joined g j i → r' j = r j ∧ j ∈ ks) : fed g ks r i = fed g ks' r' i := by
  rw [Bool.eq_iff_iff, fed_iff, fed_iff]
  constructor
  · rintro ⟨j, hj, n, hn, hr, e, he, hd, hp⟩
    obtain ⟨h1, h2⟩ := h j hj ⟨n, hn, e, he, hd⟩
    exact ⟨j, h2, n, hn, by rw [← h1]; exact hr, e, he, hd, hp⟩
  · rintro ⟨j, hj, n, hn, hr, e, he, hd, hp⟩
    obtain ⟨h1, h2⟩ := h' j hj ⟨n, hn, e, he, hd⟩
    exact ⟨j, h2, n, hn, by rw [← h1]; exact hr, e, he, hd, hp⟩

theorem leaves_congr {r r' : Results P S} {i : Nat} {ks ks' : List Nat} (hr : r i = r' i)
    (hf : fed g ks r i = fed g ks' r' i) : leaves sem g ks r i = leaves sem g ks' r' i := by
  unfold leaves
  rw [hr, hf]

end

/-- The loop after the nodes `pre`: their results solve the equations so far, and the state of all nodes is known. -/
structure Upto (sem : Sem P S M) (g : RGraph P S) (pre : List Nat) (r : Results P S) (gc : RGraph P S) : Prop where
  cap : gc.cap = g.cap
  sup : ∀ i, i ∉ pre → r i = none
  eq : ∀ i ∈ pre, ∀ n, g.slot i = some n →
    r i = sem.process n.proc (inputsOf sem g pre r i n) n.outputs (seen sem g pre r i)
  gone : ∀ i, g.slot i = none → gc.slot i = none
  done : ∀ i ∈ pre, ∀ n, g.slot i = some n →
    (leaves sem g pre r i = true ∧ gc.slot i = none) ∨
    (leaves sem g pre r i = false ∧ ∃ x, r i = some x ∧ gc.slot i = some
      { n with proc := x.1, outputs := x.2.1, inputs := n.inputs.map fun _ => sem.silence, hasInputs := false,
               edges := n.edges.filter fun e => !(decide (e.dst ∈ pre) && leaves sem g pre r e.dst) })
  todo : ∀ i, i ∉ pre → ∀ n, g.slot i = some n → gc.slot i = some
    { n with inputs := inputsOf sem g pre r i n, hasInputs := n.hasInputs || fed g pre r i }

theorem Upto.start (sem : Sem P S M) (g : RGraph P S) : Upto sem g [] (fun _ => none) g := by
  refine ⟨rfl, fun _ _ => rfl, fun i hi => by simp at hi, fun _ h => h, fun i hi => by simp at hi, fun i _ n hn => ?_⟩
  rw [hn]
  have : inputsOf sem g [] (fun _ => none) i n = n.inputs := by
    unfold inputsOf arriving
    refine List.ext_getElem? fun q => ?_
    simp
  rw [this]
  simp [fed]

theorem node_ext {n m : Node P S} (h1 : m.tag = n.tag) (h2 : m.proc = n.proc) (h3 : m.inputs = n.inputs)
    (h4 : m.outputs = n.outputs) (h5 : m.cfg = n.cfg) (h6 : m.edges = n.edges) (h7 : m.dropped = n.dropped)
    (h8 : m.hasInputs = n.hasInputs) (h9 : m.breaker = n.breaker) : m = n := by
  cases m; cases n; simp_all

theorem Upto.step {sem : Sem P S M} {reads : P → Nat → Prop} (hreads : Reads sem reads) {g : RGraph P S}
    (wired : Wired reads g) {L : List Nat} (hL : L.Nodup) (hord : Sorted g L) {pre post : List Nat} {i : Nat}
    (hs : L = pre ++ i :: post) {r : Results P S} {gc gd : RGraph P S} (u : Upto sem g pre r gc) {n : Node P S}
    (hn : g.slot i = some n) {nc : Node P S} (hnc : gc.slot i = some nc) (hst : RGraph.NodeStep sem gc i nc gd)
    (hb : ∀ j m, gc.slot j = some m → j < gc.cap) :
    ∃ r', Upto sem g (pre ++ [i]) r' gd := by
  have hi : i ∉ pre := by
    rw [hs] at hL
    exact fun hm => (List.nodup_append.1 hL).2.2 i hm i (by simp) rfl
  have hfw : ∀ k, Joined g i k → k ∉ pre ∧ k ≠ i := fun k => hord.forward hL hs
  have hnci := u.todo i hi n hn
  rw [hnc] at hnci
  cases hnci
  -- the result
  obtain ⟨x0, hx0⟩ : ∃ x, sem.process n.proc (inputsOf sem g pre r i n) n.outputs (gc.params i) = x := ⟨_, rfl⟩
  let r' : Results P S := fun j => if j = i then x0 else r j
  have hri : r' i = x0 := if_pos rfl
  have hrj : ∀ j, j ≠ i → r' j = r j := fun j hj => if_neg hj
  have hpre : ∀ j ∈ pre, r' j = r j := fun j hj => hrj j (by rintro rfl; exact hi hj)
  -- nothing changes for what is processed
  have harr : ∀ k, (¬ Joined g i k) → ∀ q, arriving g (pre ++ [i]) r' k q = arriving g pre r k q := by
    intro k hk q
    rw [arriving_snoc, sends_nil hk, List.append_nil]
    exact arriving_congr (fun j hj _ => hpre j hj) q
  have hfed : ∀ k, (¬ Joined g i k) → fed g (pre ++ [i]) r' k = fed g pre r k := by
    intro k hk
    refine fed_congr (fun j hj hjk => ?_) fun j hj _ => ⟨(hpre j hj).symm, by simp [hj]⟩
    rcases List.mem_append.1 hj with hj | hj
    · exact ⟨hpre j hj, hj⟩
    · rw [List.mem_singleton.1 hj] at hjk; exact absurd hjk hk
  have hback : ∀ k ∈ pre ++ [i], ¬ Joined g i k := by
    intro k hk hj
    rcases List.mem_append.1 hk with hk | hk
    · exact (hfw k hj).1 hk
    · exact (hfw k hj).2 (List.mem_singleton.1 hk)
  have hlv : ∀ k ∈ pre, leaves sem g (pre ++ [i]) r' k = leaves sem g pre r k := fun k hk =>
    leaves_congr (hpre k hk) (hfed k (hback k (by simp [hk])))
  have hins : ∀ k, (¬ Joined g i k) → ∀ m, inputsOf sem g (pre ++ [i]) r' k m = inputsOf sem g pre r k m := by
    intro k hk m
    unfold inputsOf
    simp only [harr k hk]
  -- what is read
  have hpar : ∀ j, reads n.proc j → gc.params i j = seen sem g (pre ++ [i]) r' i j := by
    intro j hj
    unfold RGraph.params seen
    by_cases hji : j = i
    · simp [hji]
    · rw [if_neg hji, RGraph.get_eq_slot' hb]
      cases hsj : g.slot j with
      | none =>
        have : leaves sem g (pre ++ [i]) r' j = true := by unfold leaves; rw [hsj]
        rw [if_pos (.inr this), u.gone j hsj]; rfl
      | some m =>
        rcases wired i n hn j hj (by rw [hsj]; rfl) with h | h
        · exact absurd h hji
        · have hjp : j ∈ pre := hord pre i post hs j h
          rcases u.done j hjp m hsj with ⟨h1, h2⟩ | ⟨h1, x, hx, h2⟩
          · rw [if_pos (.inr (by rw [hlv j hjp]; exact h1)), h2]; rfl
          · rw [if_neg (by rw [hlv j hjp, h1]; simp [hji]), h2, hpre j hjp, hx]; rfl
  -- the equation of the node
  have heq : r' i = sem.process n.proc (inputsOf sem g (pre ++ [i]) r' i n) n.outputs (seen sem g (pre ++ [i]) r' i) := by
    rw [hri, hins i (hback i (by simp)), ← hx0]
    exact hreads _ _ _ _ _ hpar
  -- its fate
  have hproc : gc.process sem i { n with inputs := inputsOf sem g pre r i n, hasInputs := n.hasInputs || fed g pre r i } =
      match (generalizing := false) x0 with
      | some (p, outs, tail) => ({ n with inputs := inputsOf sem g pre r i n, hasInputs := n.hasInputs || fed g pre r i,
                                          proc := p, outputs := outs }, true, tail)
      | none => ({ n with inputs := inputsOf sem g pre r i n, hasInputs := n.hasInputs || fed g pre r i, edges := [] }, false, false) := by
    unfold RGraph.process
    simp only [hx0]
    cases x0 <;> rfl
  have hfreed : gc.freed sem i { n with inputs := inputsOf sem g pre r i n, hasInputs := n.hasInputs || fed g pre r i } =
      leaves sem g (pre ++ [i]) r' i := by
    unfold RGraph.freed leaves
    rw [hproc, hn, hri, hfed i (hback i (by simp))]
    cases x0 with
    | none => rfl
    | some x =>
      obtain ⟨p, outs, tail⟩ := x
      simp only [Bool.not_true, Bool.false_or, Node.canFree]
      cases n.dropped <;> cases (n.hasInputs || fed g pre r i) <;> cases tail <;> cases n.edges.isEmpty <;>
        cases sem.sideEffects p <;> rfl
  refine ⟨r', hst.cap.trans u.cap, ?_, ?_, ?_, ?_, ?_⟩
  · intro k hk
    simp only [List.mem_append, List.mem_singleton, not_or] at hk
    rw [hrj k hk.2]
    exact u.sup k hk.1
  · intro k hk m hm
    rcases List.mem_append.1 hk with hkp | hki
    · rw [hpre k hkp, hins k (hback k hk), u.eq k hkp m hm]
      refine hreads _ _ _ _ _ fun j hj => ?_
      unfold seen
      cases hsj : g.slot j with
      | none =>
        have h1 : leaves sem g (pre ++ [i]) r' j = true := by unfold leaves; rw [hsj]
        have h2 : leaves sem g pre r j = true := by unfold leaves; rw [hsj]
        rw [if_pos (.inr h2), if_pos (.inr h1)]
      | some mj =>
        rcases wired k m hm j hj (by rw [hsj]; rfl) with h | h
        · rw [if_pos (.inl h), if_pos (.inl h)]
        · obtain ⟨a, b, hab⟩ := List.append_of_mem hkp
          have hja : j ∈ a := hord a k (b ++ i :: post) (by rw [hs, hab]; simp) j h
          have hjp : j ∈ pre := by rw [hab]; simp [hja]
          rw [hlv j hjp, hpre j hjp]
    · rw [List.mem_singleton] at hki
      subst hki
      rw [hn] at hm; cases hm
      exact heq
  · intro k hk
    have : k ≠ i := by rintro rfl; rw [hn] at hk; simp at hk
    exact hst.none k this (u.gone k hk)
  · intro k hk m hm
    rcases List.mem_append.1 hk with hkp | hki
    · have hki : k ≠ i := by rintro rfl; exact hi hkp
      rw [hlv k hkp]
      rcases u.done k hkp m hm with ⟨h1, h2⟩ | ⟨h1, x, hx, h2⟩
      · exact .inl ⟨h1, hst.none k hki h2⟩
      · refine .inr ⟨h1, x, by rw [hpre k hkp]; exact hx, ?_⟩
        obtain ⟨m', x0', x1, x2, x3, x4, x5, x6, x7, x8, x9, x10⟩ := hst.some k _ hki h2
        rw [x0']
        have hno : ∀ e ∈ n.edges, e.dst ≠ k := fun e he hd => hback k hk ⟨n, hn, e, he, hd⟩
        have hpe : ∀ e ∈ (gc.process sem i { n with inputs := inputsOf sem g pre r i n, hasInputs := n.hasInputs || fed g pre r i }).1.edges,
            e.dst ≠ k := by
          rcases RGraph.process_edges sem (g := gc) i
            { n with inputs := inputsOf sem g pre r i n, hasInputs := n.hasInputs || fed g pre r i } with h | h <;> rw [h]
          · exact hno
          · simp
        congr 1
        refine node_ext x1 x2 ?_ x3 x4 ?_ x5 ?_ x6
        · apply List.ext_getElem?
          intro p
          rw [x10]
          have : RGraph.contrib (gc.process sem i { n with inputs := inputsOf sem g pre r i n, hasInputs := n.hasInputs || fed g pre r i }).1.outputs
              (gc.process sem i { n with inputs := inputsOf sem g pre r i n, hasInputs := n.hasInputs || fed g pre r i }).1.edges k p = [] := by
            unfold RGraph.contrib
            rw [List.filterMap_eq_nil_iff]
            intro e he
            rw [if_neg (fun h => hpe e he h.1)]
          rw [this]; simp
        · rw [x8, hfreed]
          simp only
          have key : ∀ e : Edge, (!(decide (e.dst ∈ pre ++ [i]) && leaves sem g (pre ++ [i]) r' e.dst)) =
              ((!(decide (e.dst ∈ pre) && leaves sem g pre r e.dst)) && !(decide (e.dst = i) && leaves sem g (pre ++ [i]) r' i)) := by
            intro e
            by_cases h1 : e.dst ∈ pre
            · have h2 : e.dst ≠ i := by rintro h; exact hi (h ▸ h1)
              simp [h1, h2, hlv _ h1]
            · by_cases h2 : e.dst = i
              · simp [h2, hi]
              · simp [h1, h2]
          simp only [key]
          split
          · rename_i hl
            rw [List.filter_filter]
            congr 1
            funext e
            rw [hl, Bool.and_comm]
            simp
          · rename_i hl
            simp [Bool.eq_false_iff.2 hl]
        · rw [Bool.eq_iff_iff, x9]
          constructor
          · rintro (h | ⟨e, h1, h2, _⟩)
            · exact h
            · exact absurd h2 (hpe e h1)
          · exact Or.inl
    · rw [List.mem_singleton] at hki
      subst hki
      rw [hn] at hm; cases hm
      have hself := hst.self
      rw [hfreed] at hself
      cases hl : leaves sem g (pre ++ [k]) r' k with
      | true => rw [hl, if_pos rfl] at hself; exact .inl ⟨rfl, hself⟩
      | false =>
        rw [hl, if_neg (by simp), hproc] at hself
        cases hx : x0 with
        | none =>
          have : leaves sem g (pre ++ [k]) r' k = true := by
            unfold leaves; rw [hn, hri, hx]
          rw [hl] at this; simp at this
        | some x =>
          refine .inr ⟨rfl, x, by rw [hri, hx], ?_⟩
          rw [hself, hx]
          obtain ⟨p, outs, tail⟩ := x
          congr 1
          refine node_ext rfl rfl ?_ rfl rfl ?_ rfl rfl rfl
          · unfold inputsOf
            simp [List.map_const']
          · simp only
            symm
            rw [List.filter_eq_self]
            intro e he
            obtain ⟨h1, h2⟩ := hfw e.dst ⟨n, hn, e, he, rfl⟩
            simp [h1, h2]
  · intro k hk m hm
    simp only [List.mem_append, List.mem_singleton, not_or] at hk
    obtain ⟨m', x0', x1, x2, x3, x4, x5, x6, x7, x8, x9, x10⟩ := hst.some k _ hk.2 (u.todo k hk.1 m hm)
    rw [x0']
    have hsend : ∀ q, RGraph.contrib (gc.process sem i { n with inputs := inputsOf sem g pre r i n, hasInputs := n.hasInputs || fed g pre r i }).1.outputs
          (gc.process sem i { n with inputs := inputsOf sem g pre r i n, hasInputs := n.hasInputs || fed g pre r i }).1.edges k q =
        sends g r' k q i := by
      intro q
      unfold sends RGraph.contrib
      rw [hproc, hn, hri]
      cases x0 with
      | none => rfl
      | some x => rfl
    congr 1
    refine node_ext x1 x2 ?_ x3 x4 ?_ x5 ?_ x6
    · apply List.ext_getElem?
      intro q
      rw [x10, hsend]
      simp only [inputsOf, List.getElem?_mapIdx, Option.map_map]
      congr 1
      funext s
      simp only [Function.comp]
      rw [arriving_snoc, List.foldl_append]
      congr 2
      exact (arriving_congr (fun j hj _ => hpre j hj) q).symm
    · rw [x8]
      split
      · rw [List.filter_eq_self]
        intro e he
        have : e.dst ≠ i := by
          intro hd
          exact hk.1 (hord pre i post hs k ⟨m, hm, e, he, hd⟩)
        simpa using this
      · rfl
    · rw [Bool.eq_iff_iff, x9]
      simp only [Bool.or_eq_true, or_assoc]
      refine or_congr_right ?_
      rw [fed_iff, fed_iff]
      constructor
      · rintro (⟨j, hj, a, ha, h1, h2⟩ | ⟨e, he, h1, h2⟩)
        · exact ⟨j, by simp [hj], a, ha, by rw [hpre j hj]; exact h1, h2⟩
        · rw [hproc] at he
          cases hx : x0 with
          | none => rw [hx] at he; simp at he
          | some x => rw [hx] at he; exact ⟨i, by simp, n, hn, by rw [hri, hx]; rfl, e, he, h1, h2⟩
      · rintro ⟨j, hj, a, ha, h1, e, he, h2⟩
        rcases List.mem_append.1 hj with hj | hj
        · exact .inl ⟨j, hj, a, ha, by rw [← hpre j hj]; exact h1, e, he, h2⟩
        · rw [List.mem_singleton] at hj
          subst hj
          rw [hn] at ha; cases ha
          right
          rw [hproc]
          cases hx : x0 with
          | none => rw [hri, hx] at h1; simp at h1
          | some x => exact ⟨e, he, h2⟩

/-- the whole loop -/
theorem Upto.loop {sem : Sem P S M} {reads : P → Nat → Prop} (hreads : Reads sem reads) {g : RGraph P S}
    (wired : Wired reads g) {L : List Nat} (hL : L.Nodup) (hord : Sorted g L) (hall : ∀ i ∈ L, (g.slot i).isSome) :
    ∀ (post pre : List Nat) (r : Results P S) (gc : RGraph P S), L = pre ++ post → Upto sem g pre r gc →
      RGraph.LoopInv L post gc →
      ∃ r' gd, RGraph.foldOpt (RGraph.renderNode sem) post gc = some gd ∧ Upto sem g L r' gd := by
  intro post
  induction post with
  | nil =>
    intro pre r gc hs u _
    rw [List.append_nil] at hs
    subst hs
    exact ⟨r, gc, rfl, u⟩
  | cons i post ih =>
    intro pre r gc hs u inv
    have hiL : i ∈ L := by rw [hs]; simp
    have hnd : (i :: post).Nodup := by rw [hs] at hL; exact (List.nodup_append.1 hL).2.1
    obtain ⟨nc, gd, hnc, _, hr, hst, inv'⟩ := RGraph.loop_step sem hL hiL hnd inv
    obtain ⟨n, hn⟩ := Option.isSome_iff_exists.1 (hall i hiL)
    obtain ⟨r', u'⟩ := u.step hreads wired hL hord hs hn hnc hst inv.bound
    obtain ⟨r'', ge, h1, h2⟩ := ih (pre ++ [i]) r' gd (by rw [hs]; simp) u' inv'
    exact ⟨r'', ge, by simp only [RGraph.foldOpt, hr]; exact h1, h2⟩

/-- two solutions agree -/
theorem Solves.unique {sem : Sem P S M} {reads : P → Nat → Prop} (hreads : Reads sem reads) {g : RGraph P S}
    (wired : Wired reads g) {L : List Nat} (hord : Sorted g L) (hall : ∀ i, (g.slot i).isSome → i ∈ L)
    {ks : List Nat} {r r' : Results P S} (h : Solves sem g ks r) (h' : Solves sem g ks r') : r = r' := by
  have key : ∀ (post pre : List Nat), L = pre ++ post → (∀ i ∈ pre, r i = r' i) → ∀ i ∈ L, r i = r' i := by
    intro post
    induction post with
    | nil => intro pre hs hp; rw [hs, List.append_nil]; exact hp
    | cons i post ih =>
      intro pre hs hp
      refine ih (pre ++ [i]) (by rw [hs]; simp) fun j hj => ?_
      rcases List.mem_append.1 hj with hj | hj
      · exact hp j hj
      · rw [List.mem_singleton] at hj
        subst hj
        cases hn : g.slot j with
        | none => rw [h.none j hn, h'.none j hn]
        | some n =>
          rw [h.eq j n hn, h'.eq j n hn]
          have hin : inputsOf sem g ks r j n = inputsOf sem g ks r' j n := by
            unfold inputsOf
            congr 1
            funext q s
            rw [arriving_congr fun k _ hk => hp k (hord pre j post hs k hk)]
          rw [hin]
          refine hreads _ _ _ _ _ fun k hk => ?_
          unfold seen
          cases hsk : g.slot k with
          | none =>
            have h1 : leaves sem g ks r k = true := by unfold leaves; rw [hsk]
            have h2 : leaves sem g ks r' k = true := by unfold leaves; rw [hsk]
            rw [if_pos (.inr h1), if_pos (.inr h2)]
          | some m =>
            rcases wired j n hn k hk (by rw [hsk]; rfl) with e | hkj
            · rw [if_pos (.inl e), if_pos (.inl e)]
            · have hkp := hord pre j post hs k hkj
              have hf : fed g ks r k = fed g ks r' k := by
                obtain ⟨a, b, hab⟩ := List.append_of_mem hkp
                have hp' : ∀ l, Joined g l k → r l = r' l := fun l hl => by
                  refine hp l ?_
                  rw [hab]
                  exact List.mem_append_left _ (hord a k (b ++ j :: post) (by rw [hs, hab]; simp) l hl)
                exact fed_congr (fun l hl hlk => ⟨hp' l hlk, hl⟩) fun l hl hlk => ⟨(hp' l hlk).symm, hl⟩
              rw [leaves_congr (hp k hkp) hf, hp k hkp]
  funext i
  cases hn : g.slot i with
  | none => rw [h.none i hn, h'.none i hn]
  | some n => exact key L [] rfl (by simp) i (hall i (by rw [hn]; rfl))

theorem Sorted.of_wf {g g1 : RGraph P S} (w : WF g1) (hs : g1.slot = g.slot) (hall : ∀ i, i ∈ g1.ordered ↔ (g.slot i).isSome) :
    Sorted g g1.ordered := by
  intro pre i post hL u ⟨n, hn, e, he, hd⟩
  have hu : u ∈ g1.ordered := (hall u).2 (by rw [hn]; rfl)
  have hi : i ∈ g1.ordered := by rw [hL]; simp
  have hb := before_takeWhile w.nodup (w.fwd u hu i hi n (by rw [hs]; exact hn) ⟨e, he, hd⟩)
  have hip : i ∉ pre := by
    have := w.nodup
    rw [hL] at this
    exact fun hm => (List.nodup_append.1 this).2.2 i hm i (by simp) rfl
  rw [hL, List.takeWhile_append_of_pos (fun x hx => by
    have : x ≠ i := by rintro rfl; exact hip hx
    simpa using this)] at hb
  simpa using hb

/-- C111: take any graph without cycles whose nodes will all be processed (C05), with processors that read only parameters
that are connected to them. There is an order of its nodes, for the order of the sums, such that the equations of the graph
have exactly one solution, and rendering a quantum computes it: the destination puts out its output in the solution, and the
nodes are as the solution says, with new states and outputs; those that are of no use any more have left. Rendering fails only
if the destination has left (or has no output). -/
theorem C111_equations {sem : Sem P S M} {reads : P → Nat → Prop} (hreads : Reads sem reads) {g : RGraph P S}
    (fg : Fit reads g) :
    ∃ ks r, Lists g ks ∧ Solves sem g ks r ∧ (∀ r', Solves sem g ks r' → r' = r) ∧
      ∃ o rec, g.render sem = ((afterwards sem g ks r 0).bind fun d => d.outputs.head?).map fun y =>
        ({ cap := g.cap, slot := afterwards sem g ks r, ordered := o, reclaimed := rec }, y) := by
  obtain ⟨g1, g2, a1, a2, a3, a4, _⟩ := C05_every_node_processed_partial sem fg.wf fg.complete fg.acyclic
  obtain ⟨w1, s1⟩ := ordered_slot fg.wf fg.acyclic a1
  obtain ⟨_, _, c1, _, c2, _, _, c3⟩ := RGraph.render_spec sem fg.wf
  rw [show g.orderedGraph = some g1 from a1] at c1; cases c1
  rw [a4] at c2; cases c2
  have hord : Sorted g g1.ordered := .of_wf w1 s1 a3
  have hcap : g1.cap = g.cap := by
    obtain ⟨g1', h1, _, h2, _⟩ := RGraph.orderedGraph_spec fg.wf
    rw [show g.orderedGraph = some g1 from a1] at h1; cases h1; exact h2
  have hstart : Upto sem g [] (fun _ => none) g1 := by
    have := Upto.start sem g
    exact ⟨hcap, this.sup, this.eq, fun i h => by rw [s1]; exact h, fun i hi => by simp at hi, fun i hi n hn => by rw [s1]; exact this.todo i hi n hn⟩
  obtain ⟨r, gd, h1, u⟩ := Upto.loop hreads fg.wired a2 hord (fun i hi => (a3 i).1 hi) g1.ordered [] _ g1 rfl hstart
    (RGraph.wf_loopInv w1)
  rw [a4] at h1; cases h1
  have hsol : Solves sem g g1.ordered r :=
    ⟨fun i hi => u.sup i fun hm => by rw [a3, hi] at hm; simp at hm,
     fun i n hn => u.eq i ((a3 i).2 (by rw [hn]; rfl)) n hn⟩
  have hslot : g2.slot = afterwards sem g g1.ordered r := by
    funext i
    unfold afterwards
    cases hn : g.slot i with
    | none => exact u.gone i hn
    | some n =>
      have hi : i ∈ g1.ordered := (a3 i).2 (by rw [hn]; rfl)
      rcases u.done i hi n hn with ⟨k1, k2⟩ | ⟨k1, x, hx, k2⟩
      · rw [k1, k2]
        cases r i <;> rfl
      · rw [hx, k1, k2]
        simp only [Bool.false_eq_true, if_false]
        congr 1
        refine node_ext rfl rfl rfl rfl rfl ?_ rfl rfl rfl
        refine List.filter_congr fun e he => ?_
        have : e.dst ∈ g1.ordered := by
          obtain ⟨_, t, ht, _⟩ := fg.wf.edges i n hn e he
          exact (a3 _).2 (by rw [ht]; rfl)
        simp [this]
  refine ⟨g1.ordered, r, ⟨a2, a3⟩, hsol, fun r' h' => h'.unique hreads fg.wired hord (fun i hi => (a3 i).2 hi) hsol,
    g2.ordered.filter fun i => (g2.slot i).isSome, g2.reclaimed, ?_⟩
  rw [c3, ← hslot, ← u.cap]
  cases g2.slot 0 with
  | none => rfl
  | some d => rfl

theorem head_mem {l : List S} {a : S} (h : l.head? = some a) : a ∈ l := by
  cases l with
  | nil => simp at h
  | cons b l => simp at h; simp [h]

/-- the outputs of a solution are well-formed signals -/
theorem Solves.ok {sem : Sem P S M} {ok : S → Prop} {reads : P → Nat → Prop} (ho : Orderly sem ok reads) {g : RGraph P S}
    (hok : OkG ok g) (wired : Wired reads g) {L : List Nat} (hord : Sorted g L) (hall : ∀ i, (g.slot i).isSome → i ∈ L)
    {ks : List Nat} {r : Results P S} (h : Solves sem g ks r) : ∀ i x, r i = some x → ∀ s ∈ x.2.1, ok s := by
  classical
  have key : ∀ (post pre : List Nat), L = pre ++ post → (∀ i ∈ pre, ∀ x, r i = some x → ∀ s ∈ x.2.1, ok s) →
      ∀ i ∈ L, ∀ x, r i = some x → ∀ s ∈ x.2.1, ok s := by
    intro post
    induction post with
    | nil => intro pre hs hp; rw [hs, List.append_nil]; exact hp
    | cons i post ih =>
      intro pre hs hp
      refine ih (pre ++ [i]) (by rw [hs]; simp) fun j hj => ?_
      rcases List.mem_append.1 hj with hj | hj
      · exact hp j hj
      · rw [List.mem_singleton] at hj
        subst hj
        intro x hx s hs'
        cases hn : g.slot j with
        | none => rw [h.none j hn] at hx; simp at hx
        | some n =>
          have harr : ∀ q, ∀ a ∈ arriving g ks r j q, ok a := by
            intro q a ha
            unfold arriving at ha
            obtain ⟨k, _, hk⟩ := List.mem_flatMap.1 ha
            by_cases hkj : Joined g k j
            · have hkp := hord pre j post hs k hkj
              unfold sends at hk
              split at hk
              · rename_i m y _ hy
                obtain ⟨e, _, he⟩ := List.mem_filterMap.1 hk
                split at he
                · exact hp k hkp y hy a (List.mem_of_getElem? he)
                · simp at he
              · simp at hk
            · rw [sends_nil hkj] at hk; simp at hk
          have heq := h.eq j n hn
          rw [hx, ho.reads n.proc _ _ _ (fun k => if k ∈ pre then seen sem g ks r j k else Option.none) (by
            intro k hk
            split
            · rfl
            · rename_i hkp
              unfold seen
              cases hsk : g.slot k with
              | none =>
                have h1 : leaves sem g ks r k = true := by unfold leaves; rw [hsk]
                rw [if_pos (.inr h1)]
              | some m =>
                rcases wired j n hn k hk (by rw [hsk]; rfl) with e | hkj
                · rw [if_pos (.inl e)]
                · exact absurd (hord pre j post hs k hkj) hkp)] at heq
          obtain ⟨p', outs', t⟩ := x
          refine ho.process _ _ _ _ p' outs' t heq.symm ?_ (hok j n hn).2 ?_ s hs'
          · intro a ha
            obtain ⟨q, hq, rfl⟩ := List.mem_mapIdx.1 ha
            exact fold_ok ho _ _ _ (harr q) ((hok j n hn).1 _ (List.getElem_mem hq))
          · intro k a hka
            split at hka
            · rename_i hkp
              unfold seen at hka
              split at hka
              · simp at hka
              · obtain ⟨y, hy, hh⟩ := Option.bind_eq_some_iff.1 hka
                exact hp k hkp y hy a (head_mem hh)
            · simp at hka
  intro i x hx
  cases hn : g.slot i with
  | none => rw [h.none i hn] at hx; simp at hx
  | some n => exact key L [] rfl (by simp) i (hall i (by rw [hn]; rfl)) x hx

/-- the order of the sums does not matter -/
theorem Solves.perm {sem : Sem P S M} {ok : S → Prop} {reads : P → Nat → Prop} (ho : Orderly sem ok reads) {g : RGraph P S}
    (hok : OkG ok g) {ks ks' : List Nat} (hk : ks.Perm ks') {r : Results P S}
    (hr : ∀ i x, r i = some x → ∀ s ∈ x.2.1, ok s) :
    (∀ i, leaves sem g ks' r i = leaves sem g ks r i) ∧ (Solves sem g ks r → Solves sem g ks' r) := by
  have hl : ∀ i, leaves sem g ks' r i = leaves sem g ks r i := fun i =>
    leaves_congr rfl (fed_congr (fun j hj _ => ⟨rfl, hk.mem_iff.2 hj⟩) fun j hj _ => ⟨rfl, hk.mem_iff.1 hj⟩)
  refine ⟨hl, fun h => ⟨h.none, fun i n hn => ?_⟩⟩
  rw [h.eq i n hn]
  have hs : seen sem g ks' r i = seen sem g ks r i := by
    funext j
    unfold seen
    rw [hl]
  rw [hs]
  congr 1
  unfold inputsOf
  refine List.ext_getElem? fun q => ?_
  rw [List.getElem?_mapIdx, List.getElem?_mapIdx]
  cases hq : n.inputs[q]? with
  | none => rfl
  | some s =>
    simp only [Option.map_some, Option.some.injEq]
    refine fold_perm ho _ (hk.flatMap_right _) s ?_ ((hok i n hn).1 s (List.mem_of_getElem? hq))
    intro a ha
    obtain ⟨k, _, hk⟩ := List.mem_flatMap.1 ha
    unfold sends at hk
    split at hk
    · rename_i m y _ hy
      obtain ⟨e, _, he⟩ := List.mem_filterMap.1 hk
      split at he
      · exact hr k y hy a (List.mem_of_getElem? he)
      · simp at he
    · simp at hk

/-- C111 if sums do not depend on the order (C13): whatever the order `ks` in which they are written down, the equations of
the graph have exactly one solution, and rendering a quantum computes it. -/
theorem C111_any_order {sem : Sem P S M} {ok : S → Prop} {reads : P → Nat → Prop} (ho : Orderly sem ok reads)
    {g : RGraph P S} (fg : Fit reads g) (hok : OkG ok g) {ks : List Nat} (hks : Lists g ks) :
    ∃ r, Solves sem g ks r ∧ (∀ r', Solves sem g ks r' → r' = r) ∧
      ∃ o rec, g.render sem = ((afterwards sem g ks r 0).bind fun d => d.outputs.head?).map fun y =>
        ({ cap := g.cap, slot := afterwards sem g ks r, ordered := o, reclaimed := rec }, y) := by
  obtain ⟨L, r, hL, h1, _, o, rec, h3⟩ := C111_equations ho.reads fg
  obtain ⟨g1, g2, a1, a2, a3, a4, _⟩ := C05_every_node_processed_partial sem fg.wf fg.complete fg.acyclic
  obtain ⟨w1, s1⟩ := ordered_slot fg.wf fg.acyclic a1
  have hord : Sorted g g1.ordered := .of_wf w1 s1 a3
  have hp : L.Perm ks := (List.perm_ext_iff_of_nodup hL.1 hks.1).2 fun i => by rw [hL.2, hks.2]
  obtain ⟨p1, p2⟩ := Solves.perm (sem := sem) ho hok hp (h1.ok ho hok fg.wired hord fun i hi => (a3 i).2 hi)
  refine ⟨r, p2 h1, fun r' h' => h'.unique ho.reads fg.wired hord (fun i hi => (a3 i).2 hi) (p2 h1), o, rec, ?_⟩
  have : afterwards sem g ks r = afterwards sem g L r := by
    funext i
    unfold afterwards
    simp only [p1]
  rw [this, h3]

/-- A source (11) feeds a node that adds 100 (12) and the destination, 12 feeds the destination. In whatever order the nodes
are listed, the equations have one solution and it is what is rendered; the source sends 5, node 12 sends 105, the
destination plays 110. -/
example {ks : List Nat} (hks : ks.Perm [0, 11, 12]) :
    let g := demoG [⟨0, 12, some 0⟩, ⟨0, 0, some 0⟩] [⟨0, 0, some 0⟩] []
    ∃ r, Solves calmSem g ks r ∧ (∀ r', Solves calmSem g ks r' → r' = r) ∧
      (g.render calmSem).map (fun x => (x.2, x.1.slot 12)) =
        (r 0).bind fun x => x.2.1.head?.map fun y => (y, afterwards calmSem g ks r 12) := by
  intro g
  have hl : Lists g ks := by
    refine ⟨hks.nodup_iff.2 (by decide), fun i => ?_⟩
    rw [hks.mem_iff]
    by_cases h0 : i = 0 <;> by_cases h1 : i = 11 <;> by_cases h2 : i = 12 <;> simp [g, demoG, h0, h1, h2]
  obtain ⟨r, h1, h2, o, rec, h3⟩ := C111_any_order calm_orderly (demo_fit (by simp) (by simp) : Fit _ g)
    (fun _ _ _ => ⟨fun _ _ => trivial, fun _ _ => trivial⟩) hl
  refine ⟨r, h1, h2, ?_⟩
  rw [h3]
  have h4 := h1.eq 0 ⟨0, 0, [0], [0], cfg0, [], false, false, false⟩ rfl
  cases hr : r 0 with
  | none => rw [hr] at h4; simp [calmSem] at h4
  | some x =>
    have hl : leaves calmSem g ks r 0 = false := by simp [leaves, hr, g, demoG]
    have : afterwards calmSem g ks r 0 = some ⟨0, x.1, [0], x.2.1, cfg0, [], false, false, false⟩ := by
      simp only [afterwards, hr, hl]
      rfl
    rw [this]
    cases hh : x.2.1 <;> simp [hh, g]

example : ((demoG [⟨0, 12, some 0⟩, ⟨0, 0, some 0⟩] [⟨0, 0, some 0⟩] []).render calmSem).map (fun x =>
    (x.2, (x.1.slot 11).map (·.outputs), (x.1.slot 12).map (·.outputs))) = some (110, some [5], some [105]) := by
  decide +kernel

end Verif.Render
