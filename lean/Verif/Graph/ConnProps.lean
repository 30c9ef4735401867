import Verif.Graph.ConnProofs

/-!
# C10 and C11: what `connect` and `disconnect` achieve

`calls sem a b out inp ops s0 0` is the number of calls `a.connect(b)` (for this output and input)
since the last call of `a.disconnect(..)` covering this connection in the history `ops`; for a set
semantics a connection should exist (once) iff this number is positive.
-/

namespace Verif.Render

open Verif.Graph Relation

variable {P S M : Type}

theorem cinv_run (sem : Sem P S M) (hp : NoPanic sem) (ops : List (Op P M)) {s : Sys P S M}
    (h : Inv s) {a b : Handle} {out inp k : Nat} (c : CInv a b out inp s k)
    (hsim : ∀ op ∈ ops, op.simple = true) (hbr : ∀ x, Op.breaker x ∈ ops → x.tag ≠ a.tag) :
    ∃ s', s.run sem ops = some s' ∧ Inv s' ∧ CInv a b out inp s' (calls sem a b out inp ops s k) := by
  induction ops generalizing s k with
  | nil => exact ⟨s, rfl, h, c⟩
  | cons op ops ih =>
    have hf : ∀ id, op ≠ .failCreate id := by
      rintro id rfl
      have := hsim _ (List.mem_cons_self ..)
      simp [Op.simple] at this
    obtain ⟨s1, h1, h2⟩ := inv_step sem hp h op (fun id e => absurd e (hf id))
    have c1 := cinv_step sem hp h c op (hsim op (by simp)) (fun x hx => hbr x (by simp [hx])) h1
    obtain ⟨s', h3, h4, h5⟩ := ih h2 c1 (fun o ho => hsim o (by simp [ho]))
      (fun x hx => hbr x (by simp [hx]))
    refine ⟨s', ?_, h4, ?_⟩
    · simp only [Sys.run, RGraph.foldOpt, h1] at h3 ⊢; exact h3
    · simp only [calls, h1]; exact h5

theorem cinv_init (sem : Sem P S M) (dest : P) (cfg : Cfg) (a b : Handle) (out inp : Nat) :
    CInv a b out inp (Sys.init sem dest cfg : Sys P S M) 0 := by
  refine ⟨?_, ?_, by simp, by simp [Sys.init], by simp [Sys.init], ?_, by simp [Sys.init]⟩
  · intro ha _
    simp only [Sys.init, List.mem_singleton] at ha
    subst ha
    simp [Sys.init, gE, RGraph.addNode, RGraph.new, cnt]
  · simp [Sys.init]
  · intro n hn _
    simp only [Sys.init, RGraph.addNode, RGraph.new] at hn
    split at hn
    · cases hn; rfl
    · simp at hn

/-- C10, what the code provides: connections form a multiset. For every history (no panics, drops and
constructors atomic, `a` not a delay writer) and every two handles that are alive at its end: once
the render thread has handled all messages, the number of parallel connections from output `out` of
`a` to input `inp` of `b` is the number of `connect` calls since the last covering `disconnect`.
In particular no connection is lost or survives a disconnect. Missing for the full claim: repeated
`connect` calls should not multiply the connection, see `C10_negated`. -/
theorem C10_connections_partial (sem : Sem P S M) (hp : NoPanic sem) (dest : P) (cfg : Cfg)
    (ops : List (Op P M)) (hsim : ∀ op ∈ ops, op.simple = true) (a b : Handle) (out inp : Nat)
    (hbr : ∀ x, Op.breaker x ∈ ops → x.tag ≠ a.tag) :
    ∃ s, (Sys.init sem dest cfg).run sem ops = some s ∧
      (a ∈ s.live → b ∈ s.live → s.chan = [] → ∃ n, s.g.slot a.id = some n ∧ n.tag = a.tag ∧
        n.edges.count ⟨out, b.id, some inp⟩ = calls sem a b out inp ops (Sys.init sem dest cfg) 0) := by
  obtain ⟨s, h1, h2, h3⟩ := cinv_run sem hp ops (inv_init sem dest cfg)
    (cinv_init sem dest cfg a b out inp) hsim hbr
  refine ⟨s, h1, ?_⟩
  intro ha hb hc
  have h4 := h3.count ha hb
  rw [hc] at h4
  rcases (live_uses h2 ha).2.2.2 with ⟨n, k1, k2, k3, _⟩ | ⟨_, k2⟩
  · refine ⟨n, k1, k3, ?_⟩
    simpa [cnt, gE, k1] using h4
  · rw [hc] at k2; simp [regIds] at k2

/-- C11, the part that holds: while both handles are alive, `a.disconnect(..)` takes effect: as soon
as the messages have been handled, the graph contains no covered connection from `a` to `b`. -/
theorem C11_disconnect_effective_partial (sem : Sem P S M) (hp : NoPanic sem) (dest : P) (cfg : Cfg)
    (ops later : List (Op P M)) (hsim : ∀ op ∈ ops ++ later, op.simple = true) (a b : Handle)
    (o d i : Option Nat) (out inp : Nat) (ho : o = none ∨ o = some out)
    (hd : d = none ∨ d = some b.id) (hi : i = none ∨ i = some inp)
    (hlater : ∀ op ∈ later, op ≠ .connect a b out inp)
    (hbr : ∀ x, Op.breaker x ∈ ops ++ later → x.tag ≠ a.tag) :
    ∃ s, (Sys.init sem dest cfg).run sem (ops ++ .disconnect a o d i :: later) = some s ∧
      (a ∈ s.live → b ∈ s.live → s.chan = [] →
        ∀ n, s.g.slot a.id = some n → (⟨out, b.id, some inp⟩ : Edge) ∉ n.edges) := by
  have hsim' : ∀ op ∈ ops ++ .disconnect a o d i :: later, op.simple = true := by
    intro op hop
    simp only [List.mem_append, List.mem_cons] at hop
    rcases hop with h | rfl | h
    · exact hsim op (by simp [h])
    · rfl
    · exact hsim op (by simp [h])
  have hbr' : ∀ x, Op.breaker x ∈ ops ++ .disconnect a o d i :: later → x.tag ≠ a.tag := by
    intro x hx
    simp only [List.mem_append, List.mem_cons, reduceCtorEq, false_or] at hx
    exact hbr x (by simpa using hx)
  obtain ⟨s, h1, h2⟩ := C10_connections_partial sem hp dest cfg _ hsim' a b out inp hbr'
  refine ⟨s, h1, ?_⟩
  intro ha hb hc n hn
  obtain ⟨n', k1, _, k3⟩ := h2 ha hb hc
  rw [hn] at k1; cases k1
  rw [← List.count_eq_zero, k3]
  -- the count of calls is zero
  have zero : ∀ (l : List (Op P M)) (s : Sys P S M), (∀ op ∈ l, op ≠ .connect a b out inp) →
      calls sem a b out inp l s 0 = 0 := by
    intro l
    induction l with
    | nil => intro s _; rfl
    | cons op l ih =>
      intro s hl
      have hop := hl op (by simp)
      have : callStep s.live a b out inp 0 op = 0 := by
        cases op with
        | connect a' b' o' i' =>
          simp only [callStep]
          rw [if_neg]
          rintro ⟨rfl, rfl, rfl, rfl, _⟩
          exact hop rfl
        | disconnect => simp [callStep]
        | acquire => rfl
        | register => rfl
        | failCreate => rfl
        | connectHidden => rfl
        | post => rfl
        | setCfg => rfl
        | breaker => rfl
        | drop => rfl
        | dropSend => rfl
        | dropClear => rfl
        | recv => rfl
        | quantum => rfl
      simp only [calls, this]
      split
      · exact ih _ fun op h => hl op (by simp [h])
      · rfl
  have split : ∀ (l : List (Op P M)) (s : Sys P S M) (k : Nat),
      (∃ s', RGraph.foldOpt (Sys.step sem) (l ++ .disconnect a o d i :: later) s = some s') →
      calls sem a b out inp (l ++ .disconnect a o d i :: later) s k = 0 := by
    intro l
    induction l with
    | nil =>
      rintro s k ⟨s', hs'⟩
      simp only [List.nil_append, RGraph.foldOpt] at hs'
      simp only [List.nil_append, calls, callStep]
      rw [if_pos ⟨trivial, ho, hd, hi⟩]
      cases hst : s.step sem (.disconnect a o d i) with
      | none => rw [hst] at hs'; simp at hs'
      | some s1 => exact zero _ _ hlater
    | cons op l ih =>
      rintro s k ⟨s', hs'⟩
      simp only [List.cons_append, RGraph.foldOpt] at hs'
      simp only [List.cons_append, calls]
      cases hst : s.step sem op with
      | none => rw [hst] at hs'; simp at hs'
      | some s1 =>
        rw [hst] at hs'
        exact ih s1 _ ⟨s', hs'⟩
  exact split ops _ 0 ⟨s, h1⟩

/-- a history to which both theorems apply, with live handles and an empty channel at the end -/
example :
    let a : Handle := ⟨11, 1, 1, 1⟩
    let b : Handle := ⟨12, 2, 1, 1⟩
    let ops : List (Op Nat Nat) := [.acquire, .register 11 5 1 1 cfg0, .acquire,
      .register 12 0 1 1 cfg0, .connect a b 0 0, .connect b destH 0 0, .disconnect a none none none,
      .connect a b 0 0, .recv, .recv, .quantum, .recv, .recv, .recv, .recv, .quantum]
    (∀ op ∈ ops, op.simple = true) ∧
    ((Sys.init calmSem 0 cfg0).run calmSem ops).map (fun s => (s.chan.length, s.live)) =
      some (0, [destH, a, b]) ∧
    calls calmSem a b 0 0 ops (Sys.init calmSem 0 cfg0) 0 = 1 ∧
    heard ((Sys.init calmSem 0 cfg0).run calmSem ops) = some [5] := by
  refine ⟨by decide, by decide +kernel, by decide +kernel, by decide +kernel⟩

/-- C10 is violated: connecting twice doubles the signal. -/
theorem C10_negated :
    let a : Handle := ⟨11, 1, 0, 1⟩
    let once : List (Op Nat Nat) := [.acquire, .register 11 5 0 1 cfg0, .connect a destH 0 0]
    heard ((Sys.init calmSem 0 cfg0).run calmSem (once ++ [.recv, .recv, .quantum])) = some [5] ∧
    heard ((Sys.init calmSem 0 cfg0).run calmSem
      (once ++ [.connect a destH 0 0, .recv, .recv, .recv, .quantum])) = some [10] := by
  decide +kernel

/-- C11 is violated: source 11 feeds gain 12 which feeds the destination. When the handle of the gain
is dropped before the source is disconnected, the call has no effect: the source stays audible. -/
theorem C11_negated :
    let a : Handle := ⟨11, 1, 0, 1⟩
    let b : Handle := ⟨12, 2, 1, 1⟩
    let pre : List (Op Nat Nat) := [.acquire, .register 11 5 0 1 cfg0, .acquire,
      .register 12 0 1 1 cfg0, .connect a b 0 0, .connect b destH 0 0]
    let recvs : List (Op Nat Nat) := [.recv, .recv, .recv, .recv, .recv, .recv, .quantum, .quantum]
    heard ((Sys.init calmSem 0 cfg0).run calmSem
      (pre ++ [.disconnect a none none none, .drop b] ++ recvs)) = some [0] ∧
    heard ((Sys.init calmSem 0 cfg0).run calmSem
      (pre ++ [.drop b, .disconnect a none none none] ++ recvs)) = some [5] := by
  decide +kernel

/-- C11 is violated also for live handles when control threads interleave (the two parts of
`mark_node_dropped` are separate): thread 1 drops node 11 and is interrupted between the two parts;
the render thread frees the node; thread 2 creates a new node, which gets the id 11, and connects it;
thread 1 continues and erases the administration of the new node. The new node can then not be
disconnected any more. -/
theorem C11_negated_race :
    let x : Handle := ⟨11, 1, 0, 1⟩
    let y : Handle := ⟨11, 2, 0, 1⟩
    let pre : List (Op Nat Nat) := [.acquire, .register 11 4 0 1 cfg0, .recv, .dropSend x, .recv,
      .quantum, .acquire, .register 11 5 0 1 cfg0, .connect y destH 0 0]
    let post : List (Op Nat Nat) := [.disconnect y none none none, .recv, .recv, .recv, .quantum]
    heard ((Sys.init calmSem 0 cfg0).run calmSem (pre ++ post)) = some [0] ∧
    heard ((Sys.init calmSem 0 cfg0).run calmSem (pre ++ [.dropClear 11] ++ post)) = some [5] ∧
    (((Sys.init calmSem 0 cfg0).run calmSem (pre ++ [.dropClear 11] ++ post)).map
      fun s => s.live) = some [destH, y] := by
  decide +kernel

end Verif.Render
