import Verif.Graph.SystemProofs

/-!
# Properties of whole histories: life cycle of nodes, connections, ids and messages
(C05, C06, C07, C08, C09, C53, C54)

`ops : List (Op P M)` is an arbitrary interleaving of API calls of any number of control threads
with message handling and rendering; processors (`sem`) are arbitrary, see `SystemModel.lean`.
-/

namespace Verif.Render

open Verif.Graph Relation

variable {P S M : Type}

/-! ## Concrete system for examples and counterexamples -/

/-- Signals are numbers, a processor `p` outputs `p` plus the sum of its inputs on every output,
processor 99 panics, a message replaces the number; odd processors report a tail; 42 has side
effects. -/
def toySem : Sem Nat Nat Nat where
  process := fun p ins outs _ =>
    if p = 99 then none else some (p, outs.map fun _ => p + ins.foldl (· + ·) 0, p % 2 == 1)
  process_len := by
    intro p ins outs ps p' outs' t h
    split at h
    · simp at h
    · simp only [Option.some.injEq, Prod.mk.injEq] at h
      rw [← h.2.1]; simp
  onmessage := fun _ m => some m
  sideEffects := fun p => p == 42
  silence := 0
  add := fun _ a b => a + b

/-- the same without the panicking processor -/
def calmSem : Sem Nat Nat Nat where
  process := fun p ins outs _ => some (p, outs.map fun _ => p + ins.foldl (· + ·) 0, p % 2 == 1)
  process_len := by
    intro p ins outs ps p' outs' t h
    simp only [Option.some.injEq, Prod.mk.injEq] at h
    rw [← h.2.1]; simp
  onmessage := fun _ m => some m
  sideEffects := fun p => p == 42
  silence := 0
  add := fun _ a b => a + b

def cfg0 : Cfg := ⟨2, 0, 0⟩
def destH : Handle := ⟨0, 0, 1, 1⟩

theorem calm_noPanic : NoPanic calmSem := ⟨by simp [calmSem], by simp [calmSem]⟩

/-- signal at the destination -/
def heard (s : Option (Sys Nat Nat Nat)) : Option (List Nat) :=
  s.bind fun s => (s.g.slot 0).map (·.outputs)

/-! ## C07 / C01 for histories -/

/-- C07. Whatever the history, the render thread does not panic, every connection in the graph leads
from an existing output to an existing input of an existing node, and the processing order contains
every node at most once, only existing nodes, and respects all connections.

Scope: processors do not panic, and constructors may fail half way only for nodes whose id is below 64; see
`C07_negated`, `C09_negated` and `C54_negated` for what happens otherwise. -/
theorem C07_no_dangling_connections_partial (sem : Sem P S M) (hp : NoPanic sem) (dest : P)
    (cfg : Cfg) (ops : List (Op P M)) (hop : ∀ op ∈ ops, ∀ id, op = .failCreate id → id < 64) :
    ∃ s, (Sys.init sem dest cfg).run sem ops = some s ∧
      (∀ i n, s.g.slot i = some n → ∀ e ∈ n.edges, e.out < n.outputs.length ∧
        ∃ t, s.g.slot e.dst = some t ∧ ∀ p, e.port = some p → p < t.inputs.length) ∧
      s.g.ordered.Nodup ∧ (∀ i ∈ s.g.ordered, (s.g.slot i).isSome) ∧
      (∀ u ∈ s.g.ordered, ∀ v ∈ s.g.ordered, ∀ n, s.g.slot u = some n →
        (∃ e ∈ n.edges, e.dst = v) → s.g.ordered.idxOf u < s.g.ordered.idxOf v) := by
  obtain ⟨s, h1, h2⟩ := inv_run sem hp (inv_init sem dest cfg) ops hop
  refine ⟨s, h1, h2.wf.edges, h2.wf.nodup, ?_, ?_⟩
  · intro i hi
    obtain ⟨n, hn⟩ := h2.wf.mem i hi
    simp [hn]
  · intro u hu v hv n hn he
    have hb := h2.wf.fwd u hu v hv n hn he
    obtain ⟨p, q, r, hl⟩ := hb
    have hnd := h2.wf.nodup
    rw [hl] at hnd ⊢
    have h3 := List.nodup_append.1 hnd
    have hup : u ∉ p := fun h => (List.nodup_append.1 h3.1).2.2 u h u (by simp) rfl
    have hv' : v ∉ p ++ u :: q := fun h => h3.2.2 v h v (by simp) rfl
    have k1 : (p ++ u :: q ++ v :: r).idxOf u = p.length := by
      rw [List.append_assoc, List.idxOf_append_of_notMem hup]; simp
    have k2 : (p ++ u :: q ++ v :: r).idxOf v = (p ++ u :: q).length := by
      rw [List.idxOf_append_of_notMem hv']; simp
    rw [k1, k2]; simp

/-- A history meeting the hypotheses of C07, C08 and C09: two nodes are registered and connected, one
is destroyed and its id is reused while messages are under way. -/
def busyOps : List (Op Nat Nat) :=
  [.acquire, .acquire, .register 12 5 0 1 cfg0, .register 11 4 1 1 cfg0, .recv, .recv,
    .connect ⟨12, 1, 0, 1⟩ ⟨11, 2, 1, 1⟩ 0 0, .connect ⟨11, 2, 1, 1⟩ destH 0 0, .recv, .quantum, .recv,
    .disconnect ⟨12, 1, 0, 1⟩ none none none, .drop ⟨11, 2, 1, 1⟩, .recv, .quantum, .recv, .quantum,
    .acquire, .register 11 5 1 1 cfg0, .post ⟨11, 3, 1, 1⟩ 8, .recv, .post ⟨11, 3, 1, 1⟩ 9, .acquire, .failCreate 13]

example : NoPanic calmSem ∧ (∀ op ∈ busyOps, ∀ id, op = .failCreate id → id < 64) ∧
    (((Sys.init calmSem 0 cfg0).run calmSem busyOps).map fun s =>
      (s.chan.length, s.live.length, s.g.keys.length)) = some (3, 3, 3) :=
  ⟨calm_noPanic, by simp [busyOps], by decide +kernel⟩

/-- C07 fails when a processor has panicked: its node is removed although its handle is alive, so that another node can
still be connected to it. The connection leads nowhere, and the next quantum panics. -/
theorem C07_negated : ∃ (ops : List (Op Nat Nat)) (s : Sys Nat Nat Nat),
    (Sys.init toySem 0 cfg0).run toySem ops = some s ∧ (∀ op ∈ ops, ∀ id, op ≠ .failCreate id) ∧
    (∃ i n, s.g.slot i = some n ∧ ∃ e ∈ n.edges, s.g.slot e.dst = none) ∧
    (s.run toySem [.quantum]).isNone := by
  refine ⟨[.acquire, .register 11 99 1 1 cfg0, .recv, .quantum, .acquire, .acquire, .register 12 5 0 1 cfg0,
    .connect ⟨12, 2, 0, 1⟩ ⟨11, 1, 1, 1⟩ 0 0, .recv, .recv], _, rfl, by simp, ⟨12, _, rfl, ⟨0, 11, some 0⟩, ?_, rfl⟩,
    by decide +kernel⟩
  simp

/-! ## C06 for histories -/

/-- C06. Whatever the history (scope as in C07), a node whose handle is alive is in the graph as soon as its
registration has been handled, and it is the one that was created with this handle. -/
theorem C06_live_handle_keeps_node_partial (sem : Sem P S M) (hp : NoPanic sem) (dest : P) (cfg : Cfg)
    (ops : List (Op P M)) (hop : ∀ op ∈ ops, ∀ id, op = .failCreate id → id < 64) :
    ∃ s, (Sys.init sem dest cfg).run sem ops = some s ∧ ∀ h ∈ s.live,
      (∃ n, s.g.slot h.id = some n ∧ n.tag = h.tag ∧ n.dropped = false) ∨
      (∃ proc nin nout c tag, Msg.register h.id tag proc nin nout c ∈ s.chan) := by
  obtain ⟨s, h1, h2⟩ := inv_run sem hp (inv_init sem dest cfg) ops hop
  refine ⟨s, h1, fun h hh => ?_⟩
  rcases (live_uses h2 hh).2.2.2 with ⟨n, k1, k2, k3, _⟩ | ⟨_, k⟩
  · exact Or.inl ⟨n, k1, k3, k2⟩
  · right
    have hm : h.id ∈ regIds s.chan := List.count_pos_iff.1 (by omega)
    generalize s.chan = ms at hm
    induction ms with
    | nil => simp [regIds] at hm
    | cons m ms ih =>
      cases m with
      | register id tag proc nin nout c =>
        simp only [regIds, List.mem_cons] at hm
        rcases hm with hm | hm
        · exact ⟨proc, nin, nout, c, tag, by simp [hm]⟩
        · obtain ⟨p, a, b, c, t, h⟩ := ih hm
          exact ⟨p, a, b, c, t, List.mem_cons_of_mem _ h⟩
      | _ =>
        obtain ⟨p, a, b, c, t, h⟩ := ih (by simpa [regIds] using hm)
        exact ⟨p, a, b, c, t, List.mem_cons_of_mem _ h⟩

/-- C06 fails for histories in which some processor panics: the id of the panicked node is recycled for a new node, the
drop of the old handle marks the new node as dropped, and the next quantum destroys it although its handle is alive, its
processor has not panicked, and it is connected to the destination. -/
theorem C06_negated : ∃ (ops : List (Op Nat Nat)) (s : Sys Nat Nat Nat) (old new : Handle),
    (Sys.init toySem 0 cfg0).run toySem ops = some s ∧ old ≠ new ∧ old ∈ s.live ∧ new ∈ s.live ∧
    (s.g.slot new.id).map (fun n => (n.tag, n.proc, n.dropped, n.edges)) = some (new.tag, 4, false, [⟨0, 0, some 0⟩]) ∧
    (s.run toySem [.quantum]).any (fun s' => (s'.g.slot new.id).isSome) = true ∧
    (s.run toySem [.drop old, .recv, .quantum]).any
      (fun s' => decide (new ∈ s'.live) && (s'.g.slot new.id).isNone) = true := by
  refine ⟨[.acquire, .register 11 99 1 1 cfg0, .recv, .quantum, .acquire, .register 11 4 1 1 cfg0,
    .connect ⟨11, 2, 1, 1⟩ destH 0 0, .recv, .recv], _, ⟨11, 1, 1, 1⟩, ⟨11, 2, 1, 1⟩, rfl, by decide, by decide,
    by decide, rfl, by decide +kernel, by decide +kernel⟩

/-! ## C08: ids -/

/-- C08. Two different live handles never share an id; an id handed out for a new node is not the id
of a live handle, of a node that is still rendering, or of a registration that is under way.
Scope as in C07. -/
theorem C08_ids_unique_partial (sem : Sem P S M) (hp : NoPanic sem) (dest : P) (cfg : Cfg)
    (ops : List (Op P M)) (hop : ∀ op ∈ ops, ∀ id, op = .failCreate id → id < 64) :
    ∃ s, (Sys.init sem dest cfg).run sem ops = some s ∧
      (∀ x ∈ s.live, ∀ y ∈ s.live, x.id = y.id → x = y) ∧
      ∀ id, id ∈ s.acquire.alloc → id ∉ s.alloc →
        (∀ x ∈ s.live, x.id ≠ id) ∧ s.g.slot id = none ∧
        (∀ tag proc nin nout c, Msg.register id tag proc nin nout c ∉ s.chan) := by
  obtain ⟨s, h1, h2⟩ := inv_run sem hp (inv_init sem dest cfg) ops hop
  refine ⟨s, h1, ?_, ?_⟩
  · intro x hx y hy hxy
    obtain ⟨L, _, hL⟩ := h2.walk
    have a := (hL x).1 hx
    have b := (hL y).1 hy
    rw [hxy, b] at a
    simp only [Option.some.injEq, Prod.mk.injEq] at a
    cases x; cases y; simp_all
  · intro id hid hno
    have hreg : ∀ (ms : List (Msg P M)) tag proc nin nout c,
        Msg.register id tag proc nin nout c ∈ ms → id ∈ regIds ms := by
      intro ms tag proc nin nout c hm
      induction ms with
      | nil => simp at hm
      | cons m ms ih =>
        simp only [List.mem_cons] at hm
        rcases hm with rfl | hm
        · simp [regIds]
        · have := ih hm
          cases m <;> simp [regIds, this]
    have h3 := inv_step sem hp h2 Op.acquire (by simp)
    obtain ⟨s', h4, h5⟩ := h3
    simp only [Sys.step, Option.some.injEq] at h4
    subst h4
    have hl : s.acquire.live = s.live := by unfold Sys.acquire; split <;> rfl
    have hc : s.acquire.chan = s.chan := by unfold Sys.acquire; split <;> rfl
    have hs : s.acquire.g.slot = s.g.slot := by unfold Sys.acquire; split <;> rfl
    have hpos : 0 < s.acquire.alloc.count id := List.count_pos_iff.2 hid
    have hu := h5.uniq id
    simp only [uses] at hu
    refine ⟨?_, ?_, ?_⟩
    · intro x hx hxid
      rw [← hl] at hx
      have := (live_uses h5 hx).2.1
      rw [hxid] at this; omega
    · rw [← hs]
      cases h6 : s.acquire.g.slot id with
      | none => rfl
      | some n => simp [h6] at hu; omega
    · intro tag proc nin nout c hm
      rw [← hc] at hm
      have := List.count_pos_iff.2 (hreg _ _ _ _ _ _ hm)
      omega

/-- C08 fails when a processor panics: the node is removed and its id is recycled although its
handle is alive; two live handles then have the same id. -/
theorem C08_negated : ∃ ops s, (Sys.init toySem 0 cfg0).run toySem ops = some s ∧
    (∀ op ∈ ops, ∀ id, op ≠ .failCreate id) ∧
    ∃ x ∈ s.live, ∃ y ∈ s.live, x.id = y.id ∧ x ≠ y := by
  refine ⟨[.acquire, .register 11 99 1 1 cfg0, .recv, .quantum, .acquire, .register 11 7 1 1 cfg0],
    _, rfl, by simp, ⟨11, 1, 1, 1⟩, by decide, ⟨11, 2, 1, 1⟩, by decide, rfl, by decide⟩

/-! ## C09: messages -/

/-- the node (id and serial number of its handle) a message is meant for -/
def Msg.recipient : Msg P M → Option (Nat × Nat)
  | .register .. => none
  | .connect src stag _ _ => some (src, stag)
  | .disconnect src stag _ => some (src, stag)
  | .dropped id tag => some (id, tag)
  | .breaker id tag => some (id, tag)
  | .post id tag _ => some (id, tag)
  | .setCfg id tag _ => some (id, tag)

/-- C09. Whatever the history, the engine does not crash, and the next message in the channel
finds the very node whose handle sent it (the message of a failed construction, which has no node, finds no node or
one whose handle is dropped already); the target of a connect message exists as well, and a
registration finds a free slot to which no connection points. Scope as in C07. -/
theorem C09_messages_find_their_node_partial (sem : Sem P S M) (hp : NoPanic sem) (dest : P)
    (cfg : Cfg) (ops : List (Op P M)) (hop : ∀ op ∈ ops, ∀ id, op = .failCreate id → id < 64) :
    ∃ s, (Sys.init sem dest cfg).run sem ops = some s ∧
      ∀ m ms, s.chan = m :: ms →
        (∀ id tag, m.recipient = some (id, tag) → (∃ n, s.g.slot id = some n ∧ n.tag = tag) ∨
          (m = .dropped id tag ∧ ∀ n, s.g.slot id = some n → n.dropped = true)) ∧
        (∀ src stag e dtag, m = .connect src stag e dtag → ∃ n, s.g.slot e.dst = some n ∧ n.tag = dtag) ∧
        (∀ id tag proc nin nout c, m = .register id tag proc nin nout c → s.g.slot id = none ∧
          ∀ i n, s.g.slot i = some n → ∀ e ∈ n.edges, e.dst ≠ id) := by
  obtain ⟨s, h1, h2⟩ := inv_run sem hp (inv_init sem dest cfg) ops hop
  refine ⟨s, h1, ?_⟩
  intro m ms hc
  obtain ⟨L, hw, _⟩ := h2.walk
  rw [hc] at hw
  have hok := hw.1
  have habs : ∀ {id tag ni no}, absG s.g id = some (tag, ni, no) →
      ∃ n, s.g.slot id = some n ∧ n.tag = tag := by
    intro id tag ni no h
    cases hs : s.g.slot id with
    | none => simp [absG, hs] at h
    | some n =>
      simp only [absG, hs] at h
      split at h
      · simp at h
      · simp only [Option.some.injEq, Prod.mk.injEq] at h
        exact ⟨n, rfl, h.1⟩
  refine ⟨?_, ?_, ?_⟩
  · intro id tag hr
    cases m <;> simp only [Msg.recipient, reduceCtorEq, Option.some.injEq, Prod.mk.injEq] at hr <;>
      obtain ⟨rfl, rfl⟩ := hr
    · obtain ⟨⟨ni, no, h, _⟩, _⟩ := hok; exact Or.inl (habs h)
    · obtain ⟨ni, no, h⟩ := hok; exact Or.inl (habs h)
    · rcases hok with ⟨ni, no, h⟩ | ⟨h, _⟩
      · exact Or.inl (habs h)
      · refine Or.inr ⟨rfl, fun n hn => ?_⟩
        cases hd : n.dropped with
        | true => rfl
        | false => simp [absG, hn, hd] at h
    all_goals (obtain ⟨ni, no, h⟩ := hok; exact Or.inl (habs h))
  · rintro src stag e dtag rfl
    obtain ⟨_, ni, no, h, _⟩ := hok
    exact habs h
  · rintro id tag proc nin nout c rfl
    have hu := h2.uniq id
    have hnone : s.g.slot id = none := by
      cases hs : s.g.slot id with
      | none => rfl
      | some n => simp [uses, hs, hc, regIds] at hu
    refine ⟨hnone, ?_⟩
    intro i n hn e he hd
    obtain ⟨_, t, ht, _⟩ := h2.wf.edges i n hn e he
    rw [hd, hnone] at ht; simp at ht

/-- C09 fails when a processor has panicked: its handle is alive, the next message sent with it makes
the render thread panic (index of a removed node), i.e. the whole context dies. -/
theorem C09_negated : ∃ (pre : List (Op Nat Nat)) (s : Sys Nat Nat Nat) (h : Handle),
    (Sys.init toySem 0 cfg0).run toySem pre = some s ∧ h ∈ s.live ∧
    (∀ op ∈ pre, ∀ id, op ≠ .failCreate id) ∧
    (s.run toySem [.post h 5, .recv]).isNone := by
  refine ⟨[.acquire, .register 11 99 1 1 cfg0, .recv, .quantum], _, ⟨11, 1, 1, 1⟩, rfl, by decide,
    by simp, by rfl⟩

/-- C09 fails when a processor has panicked, second form: after the id has been recycled, a message
sent with the old handle reaches the new, unrelated node. -/
theorem C09_negated_misdelivery : ∃ (ops : List (Op Nat Nat)) (s : Sys Nat Nat Nat) (old new : Handle),
    (Sys.init toySem 0 cfg0).run toySem ops = some s ∧ old ≠ new ∧ old ∈ s.live ∧ new ∈ s.live ∧
    (s.g.slot new.id).map (fun n => (n.tag, n.proc)) = some (new.tag, 7) ∧
    ((s.run toySem [.post old 5, .recv]).bind fun s' => s'.g.slot new.id).map (·.proc) = some 5 := by
  refine ⟨[.acquire, .register 11 99 1 1 cfg0, .recv, .quantum, .acquire, .register 11 7 1 1 cfg0,
    .recv], _, ⟨11, 1, 1, 1⟩, ⟨11, 2, 1, 1⟩, rfl, by decide, by decide, by decide, rfl, rfl⟩

/-! ## C54: failing constructors -/

/-- C54 (constructing a node with invalid options does not harm the engine) is violated: 53 nodes
exist or have existed, the constructor of the 54th panics on the control thread (its id is 64), and
the render thread dies on the message announcing the dropped handle. No processor misbehaves. -/
theorem C54_negated : ∃ ops : List (Op Nat Nat),
    ((Sys.init calmSem 0 cfg0).run calmSem ops).isSome ∧
    ((Sys.init calmSem 0 cfg0).run calmSem (ops ++ [.acquire, .failCreate 64, .recv])).isNone := by
  refine ⟨(List.range 53).flatMap fun k => [.acquire, .register (11 + k) 7 1 1 cfg0, .recv], ?_, ?_⟩
  · decide +kernel
  · decide +kernel

/-- C54, the part that holds: the message announcing a failed construction is harmless as long as
the id lies within the node store of the render thread. (Missing: ids beyond it.) -/
theorem C54_failed_construction_partial (g : RGraph P S) (sem : Sem P S M) (id tag : Nat)
    (hid : g.slot id = none) (hcap : id < g.cap) : g.handle sem (.dropped id tag : Msg P M) = some g := by
  simp [RGraph.handle, RGraph.markDropped, hid, hcap]

/-! ## C05: every live node is processed -/

/-- C05 is violated: a playing source connected to the destination is not heard as soon as any other
node without params is created after the connection and before the next quantum; it stays silent
(four quanta shown). Without that registration it is heard. -/
theorem C05_negated :
    let connected : List (Op Nat Nat) := [.acquire, .register 11 5 0 1 cfg0,
      .connect ⟨11, 1, 0, 1⟩ destH 0 0, .recv, .recv]
    let unrelated : List (Op Nat Nat) := [.acquire, .register 12 0 1 1 cfg0, .recv]
    heard ((Sys.init calmSem 0 cfg0).run calmSem (connected ++ [.quantum])) = some [5] ∧
    heard ((Sys.init calmSem 0 cfg0).run calmSem (connected ++ unrelated ++ [.quantum])) = some [0] ∧
    heard ((Sys.init calmSem 0 cfg0).run calmSem
      (connected ++ unrelated ++ [.quantum, .quantum, .quantum, .quantum])) = some [0] := by
  decide +kernel

/-- Same defect, audible form: after the source has been disconnected and an unrelated node has been
created, the destination keeps emitting its last buffer in every following quantum. -/
theorem C05_negated_stuck_output :
    let ops : List (Op Nat Nat) := [.acquire, .register 11 5 0 1 cfg0,
      .connect ⟨11, 1, 0, 1⟩ destH 0 0, .recv, .recv, .quantum,
      .disconnect ⟨11, 1, 0, 1⟩ none none none, .recv]
    let unrelated : List (Op Nat Nat) := [.acquire, .register 12 0 1 1 cfg0, .recv]
    heard ((Sys.init calmSem 0 cfg0).run calmSem (ops ++ [.quantum])) = some [0] ∧
    heard ((Sys.init calmSem 0 cfg0).run calmSem
      (ops ++ unrelated ++ [.quantum, .quantum, .quantum])) = some [5] := by
  decide +kernel

/-- a graph without cycles -/
def Acyclic (g : RGraph P S) : Prop :=
  ∀ i, ¬ TransGen (fun u v => ∃ n, g.slot u = some n ∧ ∃ e ∈ n.edges, e.dst = v) i i

/-- edge operations clear the order -/
def Msg.isEdgeOp : Msg P M → Bool
  | .connect .. => true
  | .disconnect .. => true
  | _ => false

def Msg.isRegister : Msg P M → Bool
  | .register .. => true
  | _ => false

/-- the render thread will process every node in the next quantum -/
def Complete (g : RGraph P S) : Prop := g.ordered = [] ∨ ∀ i, (g.slot i).isSome → i ∈ g.ordered

theorem handle_complete (sem : Sem P S M) {g g' : RGraph P S} {m : Msg P M}
    (h : g.handle sem m = some g') :
    (m.isEdgeOp = true → g'.ordered = []) ∧
    (m.isRegister = false → Complete g → Complete g') ∧
    (m.isRegister = true → g.ordered ≠ [] → Complete g → Complete g') ∧
    (m.isRegister = true → (∀ i, (g.slot i).isSome = false) → Complete g') ∧
    (m.isEdgeOp = false → m.isRegister = false → g'.ordered = g.ordered) ∧
    (m.isRegister = true → g'.ordered ≠ []) := by
  have hput : ∀ (i : Nat) (n n' : Node P S), g.get i = some n →
      (Complete g → Complete (g.put i (some n'))) := by
    intro i n n' hn hc
    rcases hc with hc | hc
    · exact Or.inl hc
    · right
      intro j hj
      simp only [RGraph.put] at hj
      split at hj
      · rename_i hij; subst hij
        apply hc
        unfold RGraph.get at hn
        split at hn
        · simp [hn]
        · simp at hn
      · exact hc j hj
  cases m with
  | register id tag proc nin nout cfg =>
    simp only [RGraph.handle, Option.some.injEq] at h
    subst h
    refine ⟨by simp [Msg.isEdgeOp], by simp [Msg.isRegister], ?_, ?_, by simp [Msg.isRegister],
      by simp [RGraph.addNode]⟩
    · intro _ hne hc
      rcases hc with hc | hc
      · exact absurd hc hne
      · right
        intro i hi
        simp only [RGraph.addNode, List.mem_append, List.mem_singleton] at hi ⊢
        by_cases hid : i = id
        · exact Or.inr hid
        · rw [if_neg hid] at hi; exact Or.inl (hc i hi)
    · intro _ hno
      right
      intro i hi
      simp only [RGraph.addNode, List.mem_append, List.mem_singleton] at hi ⊢
      by_cases hid : i = id
      · exact Or.inr hid
      · rw [if_neg hid, hno] at hi; simp at hi
  | connect src stag e dtag =>
    simp only [RGraph.handle, RGraph.addEdge] at h
    split at h
    · cases h
      exact ⟨fun _ => rfl, fun _ _ => Or.inl rfl, by simp [Msg.isRegister], by simp [Msg.isRegister],
        by simp [Msg.isEdgeOp], by simp [Msg.isRegister]⟩
    · simp at h
  | disconnect src stag e =>
    simp only [RGraph.handle, RGraph.removeEdge] at h
    split at h
    · cases h
      exact ⟨fun _ => rfl, fun _ _ => Or.inl rfl, by simp [Msg.isRegister], by simp [Msg.isRegister],
        by simp [Msg.isEdgeOp], by simp [Msg.isRegister]⟩
    · simp at h
  | dropped id tag =>
    simp only [RGraph.handle, RGraph.markDropped] at h
    split at h
    · rename_i hcap
      split at h
      · rename_i n hn
        cases h
        exact ⟨by simp [Msg.isEdgeOp], fun _ => hput id n _ (by simp [RGraph.get, hcap, hn]),
          by simp [Msg.isRegister], by simp [Msg.isRegister], fun _ _ => rfl, by simp [Msg.isRegister]⟩
      · cases h
        exact ⟨by simp [Msg.isEdgeOp], fun _ h => h, by simp [Msg.isRegister],
          by simp [Msg.isRegister], fun _ _ => rfl, by simp [Msg.isRegister]⟩
    · simp at h
  | breaker id tag =>
    simp only [RGraph.handle, RGraph.markBreaker, Option.map_eq_some_iff] at h
    obtain ⟨n, hn, rfl⟩ := h
    exact ⟨by simp [Msg.isEdgeOp], fun _ => hput id n _ hn, by simp [Msg.isRegister],
      by simp [Msg.isRegister], fun _ _ => rfl, by simp [Msg.isRegister]⟩
  | post id tag x =>
    simp only [RGraph.handle, RGraph.routeMessage, Option.bind_eq_some_iff, Option.map_eq_some_iff] at h
    obtain ⟨n, hn, q, hq, rfl⟩ := h
    exact ⟨by simp [Msg.isEdgeOp], fun _ => hput id n _ hn, by simp [Msg.isRegister],
      by simp [Msg.isRegister], fun _ _ => rfl, by simp [Msg.isRegister]⟩
  | setCfg id tag c =>
    simp only [RGraph.handle, RGraph.setCfg, Option.map_eq_some_iff] at h
    obtain ⟨n, hn, rfl⟩ := h
    exact ⟨by simp [Msg.isEdgeOp], fun _ => hput id n _ hn, by simp [Msg.isRegister],
      by simp [Msg.isRegister], fun _ _ => rfl, by simp [Msg.isRegister]⟩

/-- C05, the part that holds (1): suppose the order is complete, and a batch of messages is handled
before the next quantum in which either no (dis)connection happens, or no node is registered after
the last (dis)connection (`pre` may contain anything). Then the order is complete again (or will be
recomputed). Missing for the full claim: registrations after the last (dis)connection of a batch. -/
theorem C05_batch_partial (sem : Sem P S M) {g g' : RGraph P S} (ms : List (Msg P M))
    (hg : g.ordered ≠ [] ∧ Complete g)
    (hrun : RGraph.foldOpt (RGraph.handle sem) ms g = some g')
    (hms : (∀ m ∈ ms, m.isEdgeOp = false) ∨
      ∃ pre m post, ms = pre ++ m :: post ∧ m.isEdgeOp = true ∧ ∀ x ∈ post, x.isRegister = false) :
    Complete g' := by
  have hno : ∀ (l : List (Msg P M)) (a b : RGraph P S), Complete a →
      (∀ x ∈ l, x.isRegister = false) → RGraph.foldOpt (RGraph.handle sem) l a = some b →
      Complete b := by
    intro l
    induction l with
    | nil => intro a b ha _ h; simp only [RGraph.foldOpt, Option.some.injEq] at h; exact h ▸ ha
    | cons x l ih =>
      intro a b ha hx h
      simp only [RGraph.foldOpt] at h
      cases hh : a.handle sem x with
      | none => rw [hh] at h; simp at h
      | some c =>
        rw [hh] at h
        exact ih c b ((handle_complete sem hh).2.1 (hx x (by simp)) ha)
          (fun y hy => hx y (by simp [hy])) h
  rcases hms with hms | ⟨pre, m, post, rfl, hm, hpost⟩
  · obtain ⟨hne, hc⟩ := hg
    clear hno
    induction ms generalizing g with
    | nil => simp only [RGraph.foldOpt, Option.some.injEq] at hrun; exact hrun ▸ hc
    | cons x l ih =>
      simp only [RGraph.foldOpt] at hrun
      cases hh : g.handle sem x with
      | none => rw [hh] at hrun; simp at hrun
      | some c =>
        rw [hh] at hrun
        have hx := hms x (by simp)
        obtain ⟨_, k2, k3, _, k5, k6⟩ := handle_complete sem hh
        cases hr : x.isRegister with
        | true => exact ih hrun (fun y hy => hms y (by simp [hy])) (k6 hr) (k3 hr hne hc)
        | false =>
          exact ih hrun (fun y hy => hms y (by simp [hy])) (by rw [k5 hx hr]; exact hne) (k2 hr hc)
  · rw [RGraph.foldOpt_append] at hrun
    cases h1 : RGraph.foldOpt (RGraph.handle sem) pre g with
    | none => rw [h1] at hrun; simp at hrun
    | some a =>
      rw [h1] at hrun
      simp only [Option.bind_some, RGraph.foldOpt] at hrun
      cases h2 : a.handle sem m with
      | none => rw [h2] at hrun; simp at hrun
      | some b =>
        rw [h2] at hrun
        exact hno post b g' (Or.inl ((handle_complete sem h2).1 hm)) hpost hrun

/-- C05, the part that holds (2): if the order is complete and the graph is free of cycles, the
quantum processes every node of the graph exactly once and leaves a complete order. -/
theorem C05_every_node_processed_partial (sem : Sem P S M) {g : RGraph P S} (w : WF g)
    (hc : Complete g) (hac : Acyclic g) :
    ∃ g1 g2, (if g.ordered = [] then g.order else some g) = some g1 ∧
      g1.ordered.Nodup ∧ (∀ i, i ∈ g1.ordered ↔ (g.slot i).isSome) ∧
      RGraph.foldOpt (RGraph.renderNode sem) g1.ordered g1 = some g2 ∧
      ∀ g' o, g.render sem = some (g', o) → g'.ordered ≠ [] ∧ Complete g' := by
  obtain ⟨g1, g2, h1, w1, h2, h3, h4, h5⟩ := RGraph.render_spec sem w
  have hmem : ∀ i, i ∈ g1.ordered ↔ (g.slot i).isSome := by
    intro i
    unfold RGraph.orderedGraph at h1
    split at h1
    · rename_i ho
      obtain ⟨t, o, g1', hok, ho', _, _, hord, _, hnone, _, _, hs⟩ := RGraph.order_spec w.toWFe
      rw [h1] at ho'; cases ho'
      obtain ⟨t', o', hok', hcut, hnd, hkeys, hm, _⟩ := orderNodes_spec g.topo (RGraph.topo_closed w.toWFe)
      rw [hok] at hok'; cases hok'
      rw [hord]
      constructor
      · intro hi
        obtain ⟨n, hn⟩ := (RGraph.mem_keys w.toWFe i).1 (hkeys i hi)
        simp [hn]
      · intro hi
        obtain ⟨n, hn⟩ := Option.isSome_iff_exists.1 hi
        by_contra hno
        have hcy := hcut.onCycle (hm i ((RGraph.mem_keys w.toWFe i).2 ⟨n, hn⟩) hno)
        refine hac i (TransGen.mono (r := g.topo.Edge) ?_ i i hcy)
        rintro u v ⟨hu, hv⟩
        obtain ⟨m, hm⟩ := (RGraph.mem_keys w.toWFe u).1 hu
        simp only [RGraph.topo, hm, List.mem_map] at hv
        exact ⟨m, hm, hv⟩
    · rename_i ho
      cases h1
      constructor
      · intro hi
        obtain ⟨n, hn⟩ := w.mem i hi
        simp [hn]
      · intro hi
        rcases hc with hc | hc
        · exact absurd hc ho
        · exact hc i hi
  refine ⟨g1, g2, h1, w1.nodup, hmem, h2, ?_⟩
  intro g' o hr
  rw [h5] at hr
  obtain ⟨r1, r2, r3⟩ := RGraph.loop_reclaimed sem w1.nodup g1.ordered g1 g2 (fun _ h => h) w1.nodup
    (RGraph.wf_loopInv w1) h2
  obtain ⟨f1, _, _⟩ := RGraph.loop_fate sem w1.nodup g1.ordered g1 g2 (fun _ h => h) w1.nodup
    (RGraph.wf_loopInv w1) h2
  obtain ⟨g1', e1, _, _, _, _, e6, _⟩ := RGraph.orderedGraph_spec w
  rw [h1] at e1; cases e1
  have hin2 : ∀ i, (g2.slot i).isSome → i ∈ g2.ordered := by
    intro i hi
    rw [r3, hmem]
    cases hs : g.slot i with
    | some n => rfl
    | none => rw [f1 i (e6 i hs)] at hi; simp at hi
  cases hd : g2.slot 0 with
  | none => rw [hd] at hr; simp at hr
  | some d =>
    rw [hd] at hr
    simp only [Option.bind_some, Option.map_eq_some_iff, Prod.mk.injEq] at hr
    obtain ⟨o', _, rfl, _⟩ := hr
    have hcomp : ∀ i, (g2.slot i).isSome → i ∈ g2.ordered.filter fun i => (g2.slot i).isSome :=
      fun i hi => List.mem_filter.2 ⟨hin2 i hi, hi⟩
    refine ⟨?_, Or.inr hcomp⟩
    exact List.ne_nil_of_mem (hcomp 0 (by simp [hd]))

/-- A graph meeting the hypotheses: source 11 feeds the destination. -/
example : ∃ s, (Sys.init calmSem 0 cfg0).run calmSem [.acquire, .register 11 5 0 1 cfg0,
      .connect ⟨11, 1, 0, 1⟩ destH 0 0, .recv, .recv] = some s ∧ Complete s.g ∧ Acyclic s.g ∧
      s.g.keys = [0, 11] := by
  refine ⟨_, rfl, Or.inl rfl, ?_, by decide +kernel⟩
  have hstep : ∀ u v, (∃ n, ((Sys.init calmSem 0 cfg0).run calmSem [.acquire, .register 11 5 0 1 cfg0,
      .connect ⟨11, 1, 0, 1⟩ destH 0 0, .recv, .recv]).bind (fun s => s.g.slot u) = some n ∧
      ∃ e ∈ n.edges, e.dst = v) → u = 11 ∧ v = 0 := by
    rintro u v ⟨n, hn, e, he, hd⟩
    by_cases hu : u = 11
    · subst hu
      cases hn
      have : e = ⟨0, 0, some 0⟩ := by simpa [destH] using he
      subst this
      exact ⟨rfl, hd.symm⟩
    · by_cases hu0 : u = 0
      · subst hu0
        cases hn
        simp at he
      · exfalso
        have hx : ((Sys.init calmSem 0 cfg0).run calmSem [.acquire, .register 11 5 0 1 cfg0,
          .connect ⟨11, 1, 0, 1⟩ destH 0 0, .recv, .recv]).bind (fun s => s.g.slot u) = none := by
          simp [Sys.run, RGraph.foldOpt, Sys.step, Sys.init, Sys.acquire, RGraph.handle, RGraph.addNode,
            RGraph.new, RGraph.addEdge, RGraph.get, RGraph.put, destH, hu, hu0]
        rw [hx] at hn; simp at hn
  intro i hi
  have h1 : i = 11 := by
    rcases TransGen.head'_iff.1 hi with ⟨b, hb, _⟩
    exact (hstep i b hb).1
  have h0 : i = 0 := by
    rcases TransGen.tail'_iff.1 hi with ⟨b, _, hb⟩
    exact (hstep b i hb).2
  omega

end Verif.Render
