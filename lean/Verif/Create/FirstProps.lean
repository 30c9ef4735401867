import Verif.Create.Props

/-!
# C90: a new node is rendered with the values of its options

The render thread handles the messages of a constructor one by one and may render quanta in between. In every quantum
in which the node exists, its parameters have the values that the user sees.
-/

namespace Verif.Create

open Verif.Param (Fl Proc Arith AllSet lastValue)

section
variable {K : Type} [Field K] [LinearOrder K] [IsStrictOrderedRing K] [FloorRing K] [FloorSemiring K]

/-- does the message concern the parameter `p` or its node `n`? -/
def CMsg.about (p n : Nat) : CMsg K → Bool
  | .param id _ => id = p
  | .node id => id = n
  | .post id _ => id = p
  | .connect src _ => src = p

/-- the processor of a new parameter -/
def Ctl.fresh (c : Ctl K) : Proc K K := { intrinsic := c.dflt, aRate := c.aRate, current := c.dflt }

/-- The messages about the `i`-th parameter while its node is being constructed. -/
structure About (n : Nat) (p : Nat) (c : Ctl K) (posts : List K) (s : St K) : Prop where
  id : c.id = p
  range : c.mn ≤ c.dflt ∧ c.dflt ≤ c.mx
  sent : s.sent.filter (CMsg.about p n) = .param p c.fresh :: posts.map (CMsg.post p)
  queue : s.queue.filter (CMsg.about p n) = [.connect p n]
  current : c.current = c.clamp (posts.getLast?.getD c.dflt)

/-- Invariant of the construction. -/
structure Good (n : Nat) (ids : Nat → Nat) (s : St K) : Prop where
  params : ∀ i c, s.params[i]? = some c → ∃ posts, About n (ids i) c posts s
  sent : ∀ m ∈ s.sent, ∃ i < s.params.length, (∃ p, m = .param (ids i) p) ∨ ∃ v, m = .post (ids i) v
  queue : ∀ m ∈ s.queue, ∃ i < s.params.length, m = .connect (ids i) n

omit [Field K] [LinearOrder K] [IsStrictOrderedRing K] [FloorRing K] [FloorSemiring K] in
theorem Good.unknown [Field K] [LinearOrder K] {n : Nat} {ids : Nat → Nat} (hinj : Function.Injective ids) {s : St K}
    (h : Good n ids s) {i : Nat} (hi : s.params.length ≤ i) :
    s.sent.filter (CMsg.about (ids i) n) = [] ∧ s.queue.filter (CMsg.about (ids i) n) = [] := by
  constructor <;> rw [List.filter_eq_nil_iff]
  · intro m hm
    obtain ⟨j, hj, ⟨p, rfl⟩ | ⟨v, rfl⟩⟩ := h.sent m hm <;>
      simp only [CMsg.about, decide_eq_true_eq] <;> intro he <;> have := hinj he <;> omega
  · intro m hm
    obtain ⟨j, hj, rfl⟩ := h.queue m hm
    simp only [CMsg.about, decide_eq_true_eq]
    intro he
    have := hinj he
    omega

omit [IsStrictOrderedRing K] [FloorRing K] [FloorSemiring K] in
theorem Good.act {n : Nat} {ids : Nat → Nat} (hinj : Function.Injective ids) (hn : ∀ i, ids i ≠ n) {s t : St K}
    (h : Good n ids s) {a : Act K} (ha : s.act n ids a = some t) : Good n ids t := by
  cases a with
  | param d =>
    simp only [St.act] at ha
    cases hp : audioParamPair d (ids s.params.length) with
    | none => rw [hp] at ha; cases ha
    | some r =>
      obtain ⟨c, p⟩ := r
      rw [hp] at ha
      have hcp : c.id = ids s.params.length ∧ (c.mn ≤ c.dflt ∧ c.dflt ≤ c.mx) ∧ p = c.fresh ∧ c.current = c.dflt := by
        unfold audioParamPair at hp
        split at hp
        · split at hp
          · rename_i hr
            cases hp
            exact ⟨rfl, hr, rfl, rfl⟩
          · cases hp
        · cases hp
      obtain ⟨hid, hr, rfl, hcur⟩ := hcp
      have hw : s.queue.filter (CMsg.waitsFor (ids s.params.length)) = [] := by
        rw [List.filter_eq_nil_iff]
        intro m hm
        obtain ⟨j, hj, rfl⟩ := h.queue m hm
        simp only [CMsg.waitsFor, decide_eq_true_eq]
        exact fun he => hn _ he.symm
      have hnw : (s.queue.filter fun m => !CMsg.waitsFor (ids s.params.length) m) = s.queue := by
        rw [List.filter_eq_self]
        intro m hm
        have := List.filter_eq_nil_iff.1 hw m hm
        simpa using this
      dsimp only at ha
      cases ha
      simp only [St.register, hw, hnw, List.append_nil]
      refine ⟨?_, ?_, ?_⟩
      · intro i c' hc'
        dsimp only at hc'
        rcases lt_trichotomy i s.params.length with hi | rfl | hi
        · rw [List.getElem?_append_left hi] at hc'
          obtain ⟨posts, g⟩ := h.params i c' hc'
          have hne : ids s.params.length ≠ ids i := fun he => by have := hinj he; omega
          refine ⟨posts, g.id, g.range, ?_, ?_, g.current⟩
          · dsimp only
            rw [List.filter_append, g.sent]
            simp [CMsg.about, hne]
          · dsimp only
            rw [List.filter_append, g.queue]
            simp [CMsg.about, hne]
        · simp only [List.getElem?_append_right le_rfl, Nat.sub_self, List.getElem?_cons_zero, Option.some.injEq] at hc'
          subst hc'
          obtain ⟨g1, g2⟩ := h.unknown hinj (le_refl s.params.length)
          refine ⟨[], hid, hr, ?_, ?_, ?_⟩
          · dsimp only
            rw [List.filter_append, g1]
            simp [CMsg.about]
          · dsimp only
            rw [List.filter_append, g2]
            simp [CMsg.about]
          · rw [hcur]
            simp [Ctl.clamp, hr.1, hr.2]
        · rw [List.getElem?_append_right hi.le] at hc'
          have : (i - s.params.length) ≠ 0 := by omega
          simp [this] at hc'
      · intro m hm
        dsimp only at hm ⊢
        rw [List.length_append, List.length_singleton]
        rcases List.mem_append.1 hm with hm | hm
        · obtain ⟨j, hj, hj'⟩ := h.sent m hm
          exact ⟨j, by omega, hj'⟩
        · rw [List.mem_singleton] at hm
          exact ⟨s.params.length, by omega, .inl ⟨_, hm⟩⟩
      · intro m hm
        dsimp only at hm ⊢
        rw [List.length_append, List.length_singleton]
        rcases List.mem_append.1 hm with hm | hm
        · obtain ⟨j, hj, hj'⟩ := h.queue m hm
          exact ⟨j, by omega, hj'⟩
        · rw [List.mem_singleton] at hm
          exact ⟨s.params.length, by omega, hm⟩
  | constrain k =>
    cases ha
    refine ⟨?_, ?_, ?_⟩
    · intro i c hc
      dsimp only at hc
      rw [List.getElem?_modify] at hc
      cases ho : s.params[i]? with
      | none => rw [ho] at hc; cases hc
      | some c0 =>
        rw [ho] at hc
        obtain ⟨posts, g⟩ := h.params i c0 ho
        cases hc
        refine ⟨posts, ?_⟩
        split
        · exact ⟨g.id, g.range, g.sent, g.queue, g.current⟩
        · exact ⟨g.id, g.range, g.sent, g.queue, g.current⟩
    · intro m hm
      obtain ⟨j, hj, hj'⟩ := h.sent m hm
      exact ⟨j, by simpa using hj, hj'⟩
    · intro m hm
      obtain ⟨j, hj, hj'⟩ := h.queue m hm
      exact ⟨j, by simpa using hj, hj'⟩
  | set k v =>
    simp only [St.act] at ha
    cases hk : s.params[k]? with
    | none => rw [hk] at ha; cases ha
    | some c0 =>
      rw [hk] at ha
      have hkl : k < s.params.length := by
        by_contra hlt
        rw [List.getElem?_eq_none (by omega)] at hk
        cases hk
      cases v with
      | nan => cases ha
      | pinf => cases ha
      | ninf => cases ha
      | fin x =>
        dsimp only at ha
        cases ha
        obtain ⟨posts0, g0⟩ := h.params k c0 hk
        refine ⟨?_, ?_, ?_⟩
        · intro i c hc
          dsimp only at hc
          rw [List.getElem?_set] at hc
          by_cases hik : k = i
          · subst hik
            rw [if_pos rfl, if_pos hkl] at hc
            cases hc
            refine ⟨posts0 ++ [x], g0.id, g0.range, ?_, g0.queue, ?_⟩
            · dsimp only
              rw [List.filter_append, g0.sent]
              simp [CMsg.about, g0.id, Ctl.fresh]
            · simp [Ctl.clamp]
          · rw [if_neg hik] at hc
            obtain ⟨posts, g⟩ := h.params i c hc
            have hne : c0.id ≠ ids i := by
              rw [g0.id]
              exact fun he => hik (hinj he)
            refine ⟨posts, g.id, g.range, ?_, g.queue, g.current⟩
            dsimp only
            rw [List.filter_append, g.sent]
            simp [CMsg.about, hne]
        · intro m hm
          dsimp only at hm ⊢
          rw [List.length_set]
          rcases List.mem_append.1 hm with hm | hm
          · exact h.sent m hm
          · rw [List.mem_singleton] at hm
            exact ⟨k, hkl, .inr ⟨x, by rw [hm, g0.id]⟩⟩
        · intro m hm
          dsimp only at hm ⊢
          rw [List.length_set]
          exact h.queue m hm

omit [IsStrictOrderedRing K] [FloorRing K] [FloorSemiring K] in
theorem Good.acts {n : Nat} {ids : Nat → Nat} (hinj : Function.Injective ids) (hn : ∀ i, ids i ≠ n) {as : List (Act K)}
    {s t : St K} (h : Good n ids s) (ha : s.acts n ids as = some t) : Good n ids t := by
  induction as generalizing s with
  | nil => cases ha; exact h
  | cons a as ih =>
    unfold St.acts at ha
    cases hs : s.act n ids a with
    | none => rw [hs] at ha; cases ha
    | some u => rw [hs] at ha; exact ih (h.act hinj hn hs) ha

/-- the messages of a complete construction -/
structure Done (n : Nat) (ids : Nat → Nat) (s : St K) : Prop where
  params : ∀ i c, s.params[i]? = some c → ∃ posts : List K,
    s.sent.filter (CMsg.about (ids i) n) =
      .param (ids i) c.fresh :: (posts.map (CMsg.post (ids i)) ++ [.node n, .connect (ids i) n]) ∧
    c.current = c.clamp (posts.getLast?.getD c.dflt)
  sent : ∀ m ∈ s.sent, (∃ i < s.params.length, (∃ p, m = .param (ids i) p) ∨ (∃ v, m = .post (ids i) v) ∨
    m = .connect (ids i) n) ∨ m = .node n

omit [IsStrictOrderedRing K] [FloorRing K] [FloorSemiring K] in
theorem create_done {n : Nat} {ids : Nat → Nat} (hinj : Function.Injective ids) (hn : ∀ i, ids i ≠ n)
    {as : List (Act K)} {s : St K} (h : create n ids as = some s) : Done n ids s := by
  unfold create at h
  cases ha : St.acts n ids ({} : St K) as with
  | none => rw [ha] at h; cases h
  | some t =>
    rw [ha] at h
    cases h
    have hg : Good n ids t := Good.acts hinj hn ⟨fun i c hc => by simp at hc, by simp, by simp⟩ ha
    have hw : t.queue.filter (CMsg.waitsFor n) = t.queue := by
      rw [List.filter_eq_self]
      intro m hm
      obtain ⟨j, hj, rfl⟩ := hg.queue m hm
      simp [CMsg.waitsFor]
    constructor
    · intro i c hc
      obtain ⟨posts, g⟩ := hg.params i c hc
      refine ⟨posts, ?_, g.current⟩
      simp only [St.register, hw]
      rw [List.filter_append, List.filter_append, g.sent, g.queue]
      simp [CMsg.about]
    · intro m hm
      simp only [St.register, hw] at hm ⊢
      rcases List.mem_append.1 hm with hm | hm
      · rcases List.mem_append.1 hm with hm | hm
        · obtain ⟨j, hj, h1 | h1⟩ := hg.sent m hm
          · exact .inl ⟨j, hj, .inl h1⟩
          · exact .inl ⟨j, hj, .inr (.inl h1)⟩
        · exact .inr (by simpa using hm)
      · obtain ⟨j, hj, h1⟩ := hg.queue m hm
        exact .inl ⟨j, hj, .inr (.inr h1)⟩

/-! ## The render thread -/

/-- The parameter on the render thread has the intrinsic value `v`, now and until further messages arrive. -/
structure Holds (v : K) (p : Proc K K) : Prop where
  only : AllSet p.timeline
  last : lastValue p.intrinsic p.timeline = p.intrinsic
  value : p.intrinsic = v

/-- How far the messages about a parameter have been handled. -/
inductive Phase (n p : Nat) (c : Ctl K) (posts : List K) (r : Rt K) (rest : List (CMsg K)) : Prop
  | before (h1 : r.params p = none) (h2 : n ∉ r.nodes)
      (h3 : rest.filter (CMsg.about p n) = .param p c.fresh :: (posts.map (CMsg.post p) ++ [.node n, .connect p n]))
  | posting (q : Proc K K) (done todo : List K) (h1 : r.params p = some q) (h2 : n ∉ r.nodes) (h3 : posts = done ++ todo)
      (h4 : Holds (done.getLast?.getD c.dflt) q)
      (h5 : rest.filter (CMsg.about p n) = todo.map (CMsg.post p) ++ [.node n, .connect p n])
  | ready (q : Proc K K) (h1 : r.params p = some q) (h2 : n ∈ r.nodes) (h4 : Holds (posts.getLast?.getD c.dflt) q)
      (h5 : rest.filter (CMsg.about p n) = [.connect p n] ∨ rest.filter (CMsg.about p n) = [])

theorem loop_allSet_panic {A : Arith K K} {b : Param.Block K} (n : Nat) (p : Proc K K) (h : AllSet p.timeline) :
    Param.loop A b n p ≠ .panic := by
  induction n generalizing p with
  | zero => simp [Param.loop]
  | succ n ih =>
    unfold Param.loop
    have he : ∃ r, Param.computeEvent A p b = .ok r ∧ AllSet r.2.timeline := by
      unfold Param.computeEvent
      cases hp : p.timeline with
      | nil => exact ⟨_, rfl, by simp [AllSet]⟩
      | cons e rest =>
        rw [hp] at h
        dsimp only
        rw [(h e (by simp)).1]
        dsimp only
        unfold Param.computeSetValue
        rw [hp]
        dsimp only
        split
        · exact ⟨_, rfl, h⟩
        · exact ⟨_, rfl, fun x hx => h x (by simp [hx])⟩
    obtain ⟨r, hr, hs⟩ := he
    rw [hr]
    simp only [Param.Res.bind]
    split
    · simp
    · exact ih _ hs

theorem block_ok {A : Arith K K} {b : Param.Block K} {p : Proc K K} (h : AllSet p.timeline) :
    ∃ q, Param.computeBuffer A p b = .ok q := by
  cases hb : Param.computeBuffer A p b with
  | ok q => exact ⟨q, rfl⟩
  | fuel => exact absurd hb (Param.C24_terminates A b p)
  | panic =>
    exfalso
    unfold Param.computeBuffer at hb
    dsimp only at hb
    split at hb
    · split at hb
      · cases hb
      · exact loop_allSet_panic _ _ (by exact h) hb
    · split at hb
      · cases hb
      · exact loop_allSet_panic _ _ (by exact h) hb

theorem Holds.block {A : Arith K K} {b : Param.Block K} (hdt : 0 < b.dt) (hcount : 0 < b.count) (ht : 0 ≤ b.time) {v : K}
    {p : Proc K K} (h : Holds v p) : ∃ q, blockOf A b p = some q ∧ Holds v q ∧ q.current = A.clamp v ∧
      ∀ j < b.count, q.valueAt j = some v := by
  obtain ⟨q, hq⟩ := block_ok (A := A) (b := b) h.only
  obtain ⟨h1, h2, h3, h4⟩ := Param.allSet_block hdt hcount ht h.only h.last hq
  refine ⟨q, by simp [blockOf, hq], ⟨by rw [h1]; simp [AllSet], by rw [h1]; rfl, by rw [h2, h.value]⟩, ?_, ?_⟩
  · rw [h3, h.value]
  · intro j hj
    rw [h4 j hj, h.value]

theorem Holds.post {v x : K} {p : Proc K K} (h : Holds v p) :
    ∃ q, Param.handle p { kind := .setValue, value := x, time := 0 } = .ok q ∧ Holds x q := by
  refine ⟨_, Param.handle_allSet h.only x, ?_, ?_, rfl⟩
  · intro e he
    rcases List.mem_append.1 he with he | he
    · exact h.only e he
    · rw [List.mem_singleton] at he
      subst he
      exact ⟨rfl, rfl⟩
  · simp [lastValue]

/-- The invariant for all parameters of the node. -/
structure Agree (n : Nat) (ids : Nat → Nat) (params : List (Ctl K)) (posts : Nat → List K) (r : Rt K)
    (rest : List (CMsg K)) : Prop where
  phase : ∀ i c, params[i]? = some c → Phase n (ids i) c (posts i) r rest
  known : ∀ m ∈ rest, (∃ i < params.length, (∃ p, m = .param (ids i) p) ∨ (∃ v, m = .post (ids i) v) ∨
    m = .connect (ids i) n) ∨ m = .node n

theorem Agree.quantum {n : Nat} {ids : Nat → Nat} {params : List (Ctl K)} {posts : Nat → List K} {r : Rt K}
    {rest : List (CMsg K)} {A : Nat → Arith K K} {dt : K} (hdt : 0 < dt) {count : Nat} (hcount : 0 < count)
    (h : Agree n ids params posts r rest) : Agree n ids params posts (r.quantum A dt count) rest := by
  refine ⟨fun i c hc => ?_, h.known⟩
  have hb : ∀ v q, Holds v q → ∃ q', blockOf (A (ids i)) ⟨r.frame * dt, dt, count⟩ q = some q' ∧ Holds v q' := by
    intro v q hq
    obtain ⟨q', h1, h2, -⟩ := hq.block (A := A (ids i)) (b := ⟨r.frame * dt, dt, count⟩) hdt hcount (by positivity)
    exact ⟨q', h1, h2⟩
  cases h.phase i c hc with
  | before h1 h2 h3 => exact .before (by simp [Rt.quantum, h1]) h2 h3
  | posting q done todo h1 h2 h3 h4 h5 =>
    obtain ⟨q', g1, g2⟩ := hb _ _ h4
    exact .posting q' done todo (by simp [Rt.quantum, h1, g1]) h2 h3 g2 h5
  | ready q h1 h2 h4 h5 =>
    obtain ⟨q', g1, g2⟩ := hb _ _ h4
    exact .ready q' (by simp [Rt.quantum, h1, g1]) h2 g2 h5

omit [FloorRing K] [FloorSemiring K] in
/-- A message that does not concern the parameter. -/
theorem Phase.other {n p : Nat} {c : Ctl K} {posts : List K} {r r' : Rt K} {m : CMsg K} {rest : List (CMsg K)}
    (h : Phase n p c posts r (m :: rest)) (hm : CMsg.about p n m = false) (h1 : r'.params p = r.params p)
    (h2 : n ∈ r'.nodes ↔ n ∈ r.nodes) : Phase n p c posts r' rest := by
  have hf : (m :: rest).filter (CMsg.about p n) = rest.filter (CMsg.about p n) := by
    rw [List.filter_cons, hm]; simp
  cases h with
  | before g1 g2 g3 => exact .before (by rw [h1, g1]) (by rwa [h2]) (by rw [← hf]; exact g3)
  | posting q done todo g1 g2 g3 g4 g5 =>
    exact .posting q done todo (by rw [h1, g1]) (by rwa [h2]) g3 g4 (by rw [← hf]; exact g5)
  | ready q g1 g2 g4 g5 => exact .ready q (by rw [h1, g1]) (by rwa [h2]) g4 (by rw [← hf]; exact g5)

theorem Agree.recv {n : Nat} {ids : Nat → Nat} (hinj : Function.Injective ids) (hn : ∀ i, ids i ≠ n)
    {params : List (Ctl K)} {posts : Nat → List K} {r : Rt K} {m : CMsg K} {rest : List (CMsg K)}
    (h : Agree n ids params posts r (m :: rest)) : ∃ r', r.recv m = some r' ∧ Agree n ids params posts r' rest := by
  have hk : ∀ m ∈ rest, (∃ i < params.length, (∃ p, m = .param (ids i) p) ∨ (∃ v, m = .post (ids i) v) ∨
    m = .connect (ids i) n) ∨ m = .node n := fun m hm => h.known m (by simp [hm])
  rcases h.known m (by simp) with ⟨i, hi, hm⟩ | hm
  · have hci := h.phase i _ (List.getElem?_eq_getElem hi)
    have hne : ∀ j, j ≠ i → ids i ≠ ids j := fun j hj he => hj (hinj he).symm
    rcases hm with ⟨p, rfl⟩ | ⟨v, rfl⟩ | rfl
    · refine ⟨_, rfl, ⟨fun j c hc => ?_, hk⟩⟩
      by_cases hj : j = i
      · subst hj
        cases hci with
        | before h1 h2 h3 =>
          rw [List.filter_cons_of_pos (by simp [CMsg.about])] at h3
          injection h3 with h3 h3'
          injection h3 with _ h3
          rw [List.getElem?_eq_getElem hi] at hc
          cases hc
          exact .posting p [] (posts j) (by simp) h2 rfl ⟨by rw [h3]; simp [Ctl.fresh, AllSet], by rw [h3]; rfl,
            by rw [h3]; rfl⟩ h3'
        | posting q done todo h1 h2 h3 h4 h5 =>
          rw [List.filter_cons_of_pos (by simp [CMsg.about])] at h5
          cases todo with
          | nil => simp at h5
          | cons a b => simp at h5
        | ready q h1 h2 h4 h5 =>
          rw [List.filter_cons_of_pos (by simp [CMsg.about])] at h5
          simp at h5
      · refine (h.phase j c hc).other (by simp [CMsg.about, hne j hj]) ?_ Iff.rfl
        simp [(hne j hj).symm]
    · cases hci with
      | before h1 h2 h3 =>
        rw [List.filter_cons_of_pos (by simp [CMsg.about])] at h3
        simp at h3
      | ready q h1 h2 h4 h5 =>
        rw [List.filter_cons_of_pos (by simp [CMsg.about])] at h5
        simp at h5
      | posting q done todo h1 h2 h3 h4 h5 =>
        rw [List.filter_cons_of_pos (by simp [CMsg.about])] at h5
        cases todo with
        | nil => simp at h5
        | cons a todo =>
          simp only [List.map_cons, List.cons_append] at h5
          injection h5 with h5 h5'
          injection h5 with _ h5
          subst h5
          obtain ⟨q', g1, g2⟩ := h4.post (x := v)
          refine ⟨{ r with params := fun k => if k = ids i then some q' else r.params k },
            by simp only [Rt.recv, h1, g1], ⟨fun j c hc => ?_, hk⟩⟩
          by_cases hj : j = i
          · subst hj
            refine .posting q' (done ++ [v]) todo (by simp) h2 (by rw [h3]; simp) ?_ h5'
            simpa using g2
          · refine (h.phase j c hc).other (by simp [CMsg.about, hne j hj]) ?_ Iff.rfl
            simp [(hne j hj).symm]
    · have hs : (r.params (ids i)).isSome = true ∧ n ∈ r.nodes := by
        cases hci with
        | before h1 h2 h3 =>
          rw [List.filter_cons_of_pos (by simp [CMsg.about])] at h3
          simp at h3
        | posting q done todo h1 h2 h3 h4 h5 =>
          rw [List.filter_cons_of_pos (by simp [CMsg.about])] at h5
          cases todo with
          | nil => simp at h5
          | cons a b => simp at h5
        | ready q h1 h2 h4 h5 => exact ⟨by rw [h1]; rfl, h2⟩
      refine ⟨r, by simp only [Rt.recv, hs, and_self, if_true], ⟨fun j c hc => ?_, hk⟩⟩
      by_cases hj : j = i
      · subst hj
        rw [List.getElem?_eq_getElem hi] at hc
        cases hc
        cases hci with
        | before h1 h2 h3 => rw [h1] at hs; simp at hs
        | posting q done todo h1 h2 h3 h4 h5 => exact absurd hs.2 h2
        | ready q h1 h2 h4 h5 =>
          refine .ready q h1 h2 h4 (.inr ?_)
          rw [List.filter_cons_of_pos (by simp [CMsg.about])] at h5
          rcases h5 with h5 | h5
          · injection h5
          · cases h5
      · exact (h.phase j c hc).other (by simp [CMsg.about, hne j hj]) rfl Iff.rfl
  · subst hm
    refine ⟨_, rfl, ⟨fun j c hc => ?_, hk⟩⟩
    cases h.phase j c hc with
    | before h1 h2 h3 =>
      rw [List.filter_cons_of_pos (by simp [CMsg.about])] at h3
      simp at h3
    | posting q done todo h1 h2 h3 h4 h5 =>
      rw [List.filter_cons_of_pos (by simp [CMsg.about])] at h5
      cases todo with
      | nil =>
        simp only [List.map_nil, List.nil_append] at h5
        injection h5 with _ h5
        rw [List.append_nil] at h3
        exact .ready q h1 (by simp) (by rw [h3]; exact h4) (.inl h5)
      | cons a b => simp at h5
    | ready q h1 h2 h4 h5 =>
      rw [List.filter_cons_of_pos (by simp [CMsg.about])] at h5
      simp at h5

theorem Agree.run {n : Nat} {ids : Nat → Nat} (hinj : Function.Injective ids) (hn : ∀ i, ids i ≠ n)
    {params : List (Ctl K)} {posts : Nat → List K} {A : Nat → Arith K K} {dt : K} (hdt : 0 < dt) {count : Nat}
    (hcount : 0 < count) (hs : List Bool) {r : Rt K} {ms : List (CMsg K)} (h : Agree n ids params posts r ms) :
    ∃ r' ms', r.run A dt count ms hs = some (r', ms') ∧ Agree n ids params posts r' ms' := by
  induction hs generalizing r ms with
  | nil => exact ⟨r, ms, by cases ms <;> rfl, h⟩
  | cons b hs ih =>
    cases b with
    | false =>
      obtain ⟨r', ms', h1, h2⟩ := ih (h.quantum (A := A) hdt hcount)
      exact ⟨r', ms', by cases ms <;> exact h1, h2⟩
    | true =>
      cases ms with
      | nil =>
        obtain ⟨r', ms', h1, h2⟩ := ih h
        exact ⟨r', ms', h1, h2⟩
      | cons m ms =>
        obtain ⟨r1, g1, g2⟩ := h.recv hinj hn
        obtain ⟨r', ms', h1, h2⟩ := ih g2
        exact ⟨r', ms', by simp only [Rt.run, g1, Option.bind_some, h1], h2⟩

omit [IsStrictOrderedRing K] in
/-- Messages are received in order and the node exists once its message has been received. -/
theorem run_rest {n : Nat} {A : Nat → Arith K K} {dt : K} {count : Nat} (hs : List Bool) {r r' : Rt K}
    {ms ms' : List (CMsg K)} (h : r.run A dt count ms hs = some (r', ms')) (hk : n ∈ r.nodes ∨ .node n ∈ ms) :
    ms' = ms.drop (hs.count true) ∧ (n ∈ r'.nodes ∨ .node n ∈ ms') := by
  induction hs generalizing r ms with
  | nil =>
    have : (r, ms) = (r', ms') := by cases ms <;> exact Option.some.inj h
    cases this
    exact ⟨rfl, hk⟩
  | cons b hs ih =>
    cases b with
    | false =>
      have h' : (r.quantum A dt count).run A dt count ms hs = some (r', ms') := by cases ms <;> exact h
      simpa using ih h' hk
    | true =>
      cases ms with
      | nil => simpa using ih (show r.run A dt count [] hs = some (r', ms') from h) hk
      | cons m ms =>
        simp only [Rt.run] at h
        cases hm : r.recv m with
        | none => rw [hm] at h; cases h
        | some r1 =>
          rw [hm] at h
          have hk1 : n ∈ r1.nodes ∨ .node n ∈ ms := by
            have hmono : n ∈ r.nodes → n ∈ r1.nodes := by
              intro hn
              cases m with
              | param id p => cases hm; exact hn
              | node id => cases hm; exact List.mem_append_left _ hn
              | post id v =>
                simp only [Rt.recv] at hm
                split at hm
                · cases hm
                · split at hm <;> cases hm
                  exact hn
              | connect a b =>
                simp only [Rt.recv] at hm
                split at hm <;> cases hm
                exact hn
            rcases hk with hk | hk
            · exact .inl (hmono hk)
            · rcases List.mem_cons.1 hk with hk | hk
              · subst hk
                cases hm
                exact .inl (by simp)
              · exact .inr hk
          simpa using ih h hk1

omit [IsStrictOrderedRing K] [FloorRing K] [FloorSemiring K] in
/-- C90: the constructor leaves no message behind; the connection of each parameter with its node is sent exactly once. -/
theorem C90_sent_once {n : Nat} {ids : Nat → Nat} (hinj : Function.Injective ids) (hn : ∀ i, ids i ≠ n)
    {as : List (Act K)} {s : St K} (h : create n ids as = some s) :
    s.queue = [] ∧ ∀ i < s.params.length, (s.sent.filter fun m => match m with
      | .connect a b => a = ids i ∧ b = n
      | _ => false).length = 1 := by
  have hd := create_done hinj hn h
  constructor
  · unfold create at h
    cases ha : St.acts n ids ({} : St K) as with
    | none => rw [ha] at h; cases h
    | some t =>
      rw [ha] at h
      cases h
      have hg : Good n ids t := Good.acts hinj hn ⟨fun i c hc => by simp at hc, by simp, by simp⟩ ha
      simp only [St.register]
      rw [List.filter_eq_nil_iff]
      intro m hm
      obtain ⟨j, hj, rfl⟩ := hg.queue m hm
      simp [CMsg.waitsFor]
  · intro i hi
    obtain ⟨posts, hp, -⟩ := hd.params i _ (List.getElem?_eq_getElem hi)
    have hsub : (s.sent.filter fun m => match m with
        | .connect a b => decide (a = ids i ∧ b = n)
        | _ => false) = (s.sent.filter (CMsg.about (ids i) n)).filter fun m => match m with
        | .connect a b => decide (a = ids i ∧ b = n)
        | _ => false := by
      rw [List.filter_filter]
      congr 1
      funext m
      cases m <;> simp [CMsg.about]
      intro h _; exact h
    rw [hsub, hp]
    simp [List.filter_append, List.filter_map]

/-- C90: let the render thread receive the messages of any constructor and render quanta in between, in any order. It
never panics. In every quantum in which the node exists, all frames of each of its parameters have one value `x`, and
brought into the range this is the value which the user saw when the constructor returned. And the node does exist once
all messages have been received. -/
theorem C90_first_quantum {n : Nat} {ids : Nat → Nat} (hinj : Function.Injective ids) (hn : ∀ i, ids i ≠ n)
    {as : List (Act K)} {s : St K} (hc : create n ids as = some s) {A : Nat → Arith K K} {dt : K} (hdt : 0 < dt)
    {count : Nat} (hcount : 0 < count) (f : Nat) (hs : List Bool) :
    ∃ r ms, Rt.run A dt count { frame := f } s.sent hs = some (r, ms) ∧
      (n ∈ r.nodes → ∀ i c, s.params[i]? = some c → ∃ p x, (r.quantum A dt count).params (ids i) = some p ∧
        c.current = min (max x c.mn) c.mx ∧ ∀ j < count, p.valueAt j = some x) ∧
      (s.sent.length ≤ hs.count true → n ∈ r.nodes ∧ ms = []) := by
  have hd := create_done hinj hn hc
  have hex : ∀ i, ∃ posts : List K, ∀ c, s.params[i]? = some c →
      s.sent.filter (CMsg.about (ids i) n) =
        .param (ids i) c.fresh :: (posts.map (CMsg.post (ids i)) ++ [.node n, .connect (ids i) n]) ∧
      c.current = c.clamp (posts.getLast?.getD c.dflt) := by
    intro i
    cases hi : s.params[i]? with
    | none => exact ⟨[], fun c hc => by cases hc⟩
    | some c =>
      obtain ⟨posts, hp⟩ := hd.params i c hi
      exact ⟨posts, fun c' hc' => by cases hc'; exact hp⟩
  choose posts hposts using hex
  have ha : Agree n ids s.params posts ({ frame := f } : Rt K) s.sent :=
    ⟨fun i c hi => .before rfl (by simp) (hposts i c hi).1, hd.sent⟩
  obtain ⟨r, ms, h1, h2⟩ := ha.run hinj hn (A := A) hdt hcount hs
  refine ⟨r, ms, h1, fun hnode i c hi => ?_, fun hl => ?_⟩
  · cases h2.phase i c hi with
    | before g1 g2 g3 => exact absurd hnode g2
    | posting q done todo g1 g2 g3 g4 g5 => exact absurd hnode g2
    | ready q g1 g2 g4 g5 =>
      obtain ⟨q', k1, k2, k3, k4⟩ := g4.block (A := A (ids i)) (b := ⟨r.frame * dt, dt, count⟩) hdt hcount
        (by positivity)
      refine ⟨q', _, by simp [Rt.quantum, g1, k1], ?_, k4⟩
      rw [(hposts i c hi).2]
      rfl
  · have hnode : CMsg.node n ∈ s.sent := by
      unfold create at hc
      cases hacts : St.acts n ids ({} : St K) as with
      | none => rw [hacts] at hc; cases hc
      | some t => rw [hacts] at hc; cases hc; simp [St.register]
    obtain ⟨g1, g2⟩ := run_rest hs h1 (.inr hnode)
    rw [List.drop_eq_nil_of_le hl] at g1
    subst g1
    exact ⟨by simpa using g2, rfl⟩

end

/-- a gain node with gain 3: of its four messages, two are handled before the first quantum and the others before the
second -/
example : ((create 7 id (Kind.closure (K := ℚ) (fun _ => 38) 48000 1 (fun _ => .fin 3) .gain)).bind fun s =>
    Rt.run (fun _ => Verif.Param.exact (fun _ => 0) (fun _ _ => 0) (-1000) 1000) (1 / 48000) 128 { frame := 0 } s.sent [true, true, false, true, true, false]).map
      (fun x => (x.1.nodes, (x.1.params 0).map fun p => p.valueAt 100, x.2.length)) =
    some ([7], some (some 3), 0) := by decide +kernel

end Verif.Create
