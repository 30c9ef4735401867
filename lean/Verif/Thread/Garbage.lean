import Mathlib.Data.List.Perm.Basic
import Mathlib.Tactic.Common

/-!
# C86: who destroys the objects that the user hands to the engine

Models the way of the objects that are sent to processors (audio buffers, curves of wave shapers, wave tables,
convolvers, HRTF data, value curves of parameters): `NodeMessage` (`/repo/src/render/thread.rs` l.199-204), the
`onmessage` methods of the processors, the removal of nodes (`/repo/src/render/graph.rs` l.553-560), the queue of the
garbage collector thread (`/repo/src/render/thread.rs` l.114-120, 543-581) and the end of the render thread
(l.543-550). Objects are numbered. Left out: processors as objects of their own and the hand-over of the graph to
another render thread.
-/

namespace Verif.Garbage

/-- what a processor does with an object it receives -/
inductive Kind where
  /-- exchanges it with the one it has: `/repo/src/node/audio_buffer_source.rs` l.853-866, `convolver.rs` l.492-505,
  `waveshaper.rs` l.495-496, `oscillator.rs` l.487-494 -/
  | swap
  /-- replaces the one it has: `/repo/src/node/panner.rs` l.916 -/
  | panner
  /-- collects them in its timeline: `/repo/src/param.rs` l.710-724 -/
  | param
  /-- leaves it in the message -/
  | plain
deriving DecidableEq, Repr

inductive Thr where
  | render
  | collector
  /-- a thread of the user, or the one that drops the stream -/
  | owner
deriving DecidableEq, Repr

structure Node where
  id : Nat
  kind : Kind
  held : List Nat
deriving DecidableEq, Repr

/-- `onmessage`: the node, what is left in the message, what is destroyed on the spot -/
def Node.onmessage (n : Node) (p : Option Nat) : Node × List Nat × List Nat :=
  match n.kind with
  | .swap => ({ n with held := p.toList }, n.held, [])
  | .panner => ({ n with held := p.toList }, [], n.held)
  | .param => ({ n with held := n.held ++ p.toList }, [], [])
  | .plain => (n, p.toList, [])

/-- what is in the queue of the garbage collector -/
inductive Item where
  | payload (l : List Nat)
  /-- `TerminateGarbageCollectorThread` -/
  | pill
deriving DecidableEq, Repr

def Item.objs : Item → List Nat
  | .payload l => l
  | .pill => []

structure St where
  nodes : List Node := []
  chan : List (Nat × Option Nat) := []
  /-- `garbage_collector` and its queue -/
  gc : Option (List Item) := none
  /-- the garbage collector thread has ended -/
  gcDone : Bool := false
  /-- the render thread is gone -/
  closed : Bool := false
  dead : List (Nat × Thr) := []
deriving DecidableEq, Repr

def kill (t : Thr) (l : List Nat) : List (Nat × Thr) := l.map fun o => (o, t)

inductive Op where
  | add (id : Nat) (k : Kind)
  /-- a message with or without object (`set_curve(None)`) to an existing node -/
  | send (id : Nat) (p : Option Nat)
  /-- `spawn_garbage_collector_thread` -/
  | spawn
  /-- the render thread handles a `NodeMessage` -/
  | recv
  /-- the render thread removes a node -/
  | free (id : Nat)
  /-- a parameter is done with (or cancels) its `k`th value curve, `/repo/src/param.rs` l.865, 934-944, 1495 -/
  | expire (id k : Nat)
  /-- one turn of the loop of the garbage collector thread -/
  | collect
  /-- drop of the render thread -/
  | shutdown
deriving DecidableEq, Repr

/-- one message: `thread.rs` l.199-204; without node the thread panics and the message is destroyed -/
def recv (s : St) (id : Nat) (p : Option Nat) (ms : List (Nat × Option Nat)) : St :=
  match s.nodes.find? (·.id = id) with
  | none => { s with chan := ms, dead := s.dead ++ kill .render p.toList }
  | some n =>
    let r := n.onmessage p
    let s' := { s with
      chan := ms
      nodes := r.1 :: s.nodes.erase n
      dead := s.dead ++ kill .render r.2.2 }
    match s.gc with
    | some q => { s' with gc := some (q ++ [.payload r.2.1]) }
    | none => { s' with dead := s'.dead ++ kill .render r.2.1 }

def step (s : St) : Op → St
  | .add id k => if s.closed then s else { s with nodes := s.nodes ++ [⟨id, k, []⟩] }
  | .send id p =>
    if s.closed then { s with dead := s.dead ++ kill .owner p.toList }
    else { s with chan := s.chan ++ [(id, p)] }
  | .spawn => if s.closed then s else { s with gc := some (s.gc.getD []) }
  | .recv =>
    match s.chan with
    | (id, p) :: ms => recv s id p ms
    | [] => s
  | .free id =>
    match s.nodes.find? (·.id = id) with
    | some n => { s with nodes := s.nodes.erase n, dead := s.dead ++ kill .render n.held }
    | none => s
  | .expire id k =>
    match s.nodes.find? (·.id = id) with
    | some n =>
      if n.kind = .param then
        { s with
          nodes := { n with held := n.held.eraseIdx k } :: s.nodes.erase n
          dead := s.dead ++ kill .render (n.held[k]?).toList }
      else s
    | none => s
  | .collect =>
    if s.gcDone then s else
    match s.gc with
    | some (.payload l :: q) => { s with gc := some q, dead := s.dead ++ kill .collector l }
    | some (.pill :: q) =>
      { s with gc := some [], gcDone := true, dead := s.dead ++ kill .collector (q.flatMap Item.objs) }
    | _ => s
  | .shutdown =>
    if s.closed then s else
    { s with
      closed := true
      gc := s.gc.map (· ++ [.pill])
      nodes := []
      chan := []
      dead := s.dead ++ kill .owner (s.nodes.flatMap Node.held ++ s.chan.flatMap fun m => m.2.toList) }

def run (s : St) (ops : List Op) : St := ops.foldl step s

/-! ## Specification -/

/-- the objects handed over -/
def sent (ops : List Op) : List Nat := ops.flatMap fun
  | .send _ p => p.toList
  | _ => []

/-- the objects destroyed -/
def St.gone (s : St) : List Nat := s.dead.map Prod.fst

/-! ## Proofs -/

/-- where the objects are -/
def St.objs (s : St) : List Nat :=
  s.chan.flatMap (fun m => m.2.toList) ++ s.nodes.flatMap Node.held ++ (s.gc.getD []).flatMap Item.objs ++ s.gone

theorem gone_kill (d : List (Nat × Thr)) (t : Thr) (l : List Nat) : (d ++ kill t l).map Prod.fst = d.map Prod.fst ++ l := by
  simp [kill, Function.comp_def]

theorem count_objs (s : St) (a : Nat) : s.objs.count a = (s.chan.flatMap fun m => m.2.toList).count a +
    (s.nodes.flatMap Node.held).count a + ((s.gc.getD []).flatMap Item.objs).count a + s.gone.count a := by
  simp only [St.objs, List.count_append]

theorem count_erase {l : List Node} {n : Node} (h : n ∈ l) (a : Nat) :
    (l.flatMap Node.held).count a = n.held.count a + ((l.erase n).flatMap Node.held).count a := by
  have := (List.perm_cons_erase h).flatMap_right Node.held
  rw [this.count_eq a, List.flatMap_cons, List.count_append]

theorem count_onmessage (n : Node) (p : Option Nat) (a : Nat) :
    (n.onmessage p).1.held.count a + (n.onmessage p).2.1.count a + (n.onmessage p).2.2.count a =
      n.held.count a + p.toList.count a := by
  unfold Node.onmessage
  split <;> simp [List.count_append] <;> omega

theorem count_eraseIdx (l : List Nat) (k a : Nat) : (l.eraseIdx k).count a + (l[k]?).toList.count a = l.count a := by
  induction l generalizing k with
  | nil => simp
  | cons x xs ih =>
    cases k with
    | zero => simp [List.count_cons]
    | succ k =>
      have := ih k
      simp only [List.eraseIdx_cons_succ, List.getElem?_cons_succ, List.count_cons]
      omega

theorem count_kill (d : List (Nat × Thr)) (t : Thr) (l : List Nat) (a : Nat) :
    ((d ++ kill t l).map Prod.fst).count a = (d.map Prod.fst).count a + l.count a := by
  rw [gone_kill, List.count_append]

theorem count_step (s : St) (op : Op) (a : Nat) :
    (step s op).objs.count a = s.objs.count a + (sent [op]).count a := by
  rw [count_objs, count_objs]
  cases op with
  | add id k => simp only [step]; split <;> simp [sent, St.gone]
  | send id p =>
    simp only [step]
    split
    · simp only [St.gone, count_kill, sent, List.flatMap_cons, List.flatMap_nil, List.append_nil]; omega
    · simp only [St.gone, sent, List.flatMap_append, List.flatMap_cons, List.flatMap_nil, List.append_nil,
        List.count_append]; omega
  | spawn => simp only [step]; split <;> simp [sent, St.gone]
  | recv =>
    simp only [step]
    split
    · next id p ms he =>
      simp only [he, List.flatMap_cons, List.count_append, sent, List.flatMap_nil, List.append_nil, List.count_nil,
        Nat.add_zero]
      unfold recv
      split
      · simp only [St.gone, count_kill]; omega
      · next n hn =>
        have h1 := count_erase (List.mem_of_find?_eq_some hn) a
        have h2 := count_onmessage n p a
        simp only
        split
        · next q hq =>
          simp only [St.gone, count_kill, List.flatMap_cons, List.count_append, Option.getD_some, List.flatMap_append,
            List.flatMap_nil, List.append_nil, hq, Item.objs]
          omega
        · next hq =>
          simp only [St.gone, count_kill, List.flatMap_cons, List.count_append, Option.getD_none, List.flatMap_nil,
            List.count_nil, hq]
          omega
    · simp [sent]
  | free id =>
    simp only [step]
    split
    · next n hn =>
      have h1 := count_erase (List.mem_of_find?_eq_some hn) a
      simp only [St.gone, count_kill, sent, List.flatMap_cons, List.flatMap_nil, List.append_nil, List.count_nil]
      omega
    · simp [sent]
  | expire id k =>
    simp only [step]
    split
    · next n hn =>
      split
      · have h1 := count_erase (List.mem_of_find?_eq_some hn) a
        have h2 := count_eraseIdx n.held k a
        simp only [St.gone, count_kill, sent, List.flatMap_cons, List.flatMap_nil, List.append_nil, List.count_nil,
          List.count_append]
        omega
      · simp [sent]
    · simp [sent]
  | collect =>
    simp only [step]
    split
    · simp [sent]
    · split
      · next l q hq =>
        simp only [St.gone, count_kill, sent, List.flatMap_cons, List.flatMap_nil, List.append_nil, List.count_nil,
          List.count_append, hq, Option.getD_some, Item.objs]
        omega
      · next q hq =>
        simp only [St.gone, count_kill, sent, List.flatMap_cons, List.flatMap_nil, List.append_nil, List.count_nil,
          List.count_append, hq, Option.getD_some, Item.objs]
        omega
      · simp [sent]
  | shutdown =>
    simp only [step]
    split
    · simp [sent]
    · have h3 : ((s.gc.map (· ++ [Item.pill])).getD []).flatMap Item.objs = (s.gc.getD []).flatMap Item.objs := by
        cases s.gc <;> simp [Item.objs]
      simp only [St.gone, count_kill, sent, List.flatMap_cons, List.flatMap_nil, List.append_nil, List.count_nil,
        List.count_append, h3]
      omega

theorem count_run (s : St) (ops : List Op) (a : Nat) :
    (run s ops).objs.count a = s.objs.count a + (sent ops).count a := by
  induction ops generalizing s with
  | nil => simp [run, sent]
  | cons op ops ih =>
    have h1 := ih (step s op)
    have h2 := count_step s op a
    have h3 : (sent (op :: ops)).count a = (sent [op]).count a + (sent ops).count a := by
      simp [sent, List.count_append]
    simp only [run, List.foldl_cons] at h1 ⊢
    omega

/-- C86: no object is destroyed more often than it was handed over, in all histories. -/
theorem C86_at_most_once (ops : List Op) (a : Nat) : (run {} ops).gone.count a ≤ (sent ops).count a := by
  have h := count_run {} ops a
  rw [count_objs] at h
  have : (St.objs {}).count a = 0 := by simp [St.objs, St.gone]
  omega

/-- the queue is closed by the pill, and only then -/
structure Inv (s : St) : Prop where
  empty : s.closed = true → s.nodes = [] ∧ s.chan = []
  noPill : s.closed = false → ∀ q, s.gc = some q → Item.pill ∉ q
  pill : s.closed = true → ∀ q, s.gc = some q → s.gcDone = false → ∃ q', q = q' ++ [.pill] ∧ Item.pill ∉ q'
  done : s.gcDone = true → s.closed = true ∧ s.gc = some []

theorem inv_step {s : St} (h : Inv s) (op : Op) : Inv (step s op) := by
  cases op with
  | add id k =>
    simp only [step]
    split
    · exact h
    · next hc => exact ⟨fun q => absurd q hc, h.noPill, h.pill, h.done⟩
  | send id p =>
    simp only [step]
    split
    · exact ⟨h.empty, h.noPill, h.pill, h.done⟩
    · next hc => exact ⟨fun q => absurd q hc, h.noPill, h.pill, h.done⟩
  | spawn =>
    simp only [step]
    split
    · exact h
    · next hc =>
      refine ⟨fun q => absurd q hc, fun e q hq => ?_, fun q => absurd q hc, fun q => absurd (h.done q).1 hc⟩
      cases hg : s.gc with
      | none => simp only [hg, Option.getD_none, Option.some.injEq] at hq; rw [← hq]; exact List.not_mem_nil
      | some g => simp [hg] at hq; rw [← hq]; exact h.noPill e g hg
  | recv =>
    simp only [step]
    split
    · next id p ms he =>
      have hc : ¬ s.closed = true := fun q => by rw [(h.empty q).2] at he; cases he
      unfold recv
      split
      · exact ⟨fun q => absurd q hc, h.noPill, h.pill, h.done⟩
      · simp only
        split
        · next q hq =>
          refine ⟨fun q => absurd q hc, fun e q' hq' => ?_, fun q => absurd q hc, fun q => absurd (h.done q).1 hc⟩
          simp only [Option.some.injEq] at hq'
          rw [← hq']
          have := h.noPill e q hq
          simp [this]
        · exact ⟨fun q => absurd q hc, h.noPill, h.pill, h.done⟩
    · exact h
  | free id =>
    simp only [step]
    split
    · next n hn =>
      have hc : ¬ s.closed = true := fun q => by
        have := List.mem_of_find?_eq_some hn
        rw [(h.empty q).1] at this; cases this
      exact ⟨fun q => absurd q hc, h.noPill, h.pill, h.done⟩
    · exact h
  | expire id k =>
    simp only [step]
    split
    · next n hn =>
      have hc : ¬ s.closed = true := fun q => by
        have := List.mem_of_find?_eq_some hn
        rw [(h.empty q).1] at this; cases this
      split
      · exact ⟨fun q => absurd q hc, h.noPill, h.pill, h.done⟩
      · exact h
    · exact h
  | collect =>
    simp only [step]
    split
    · exact h
    · next hd =>
      split
      · next l q hq =>
        refine ⟨h.empty, ?_, ?_, fun e => absurd e hd⟩
        · intro e q' hq'
          simp only [Option.some.injEq] at hq'
          have := h.noPill e _ hq
          simp only [List.mem_cons, not_or] at this
          rw [← hq']; exact this.2
        · intro e q' hq' _
          simp only [Option.some.injEq] at hq'
          obtain ⟨r, hr, hp⟩ := h.pill e _ hq (by simpa using hd)
          cases r with
          | nil => simp at hr
          | cons x xs =>
            simp only [List.cons_append, List.cons.injEq] at hr
            simp only [List.mem_cons, not_or] at hp
            exact ⟨xs, by rw [← hq']; exact hr.2, hp.2⟩
      · next q hq =>
        have hc : s.closed = true := by
          by_contra e
          exact h.noPill (by simpa using e) _ hq (by simp)
        exact ⟨h.empty, by simp [hc], by simp, fun _ => ⟨hc, rfl⟩⟩
      · exact h
  | shutdown =>
    simp only [step]
    split
    · exact h
    · next hc =>
      refine ⟨fun _ => ⟨rfl, rfl⟩, by simp, ?_, fun q => absurd (h.done q).1 hc⟩
      intro _ q hq _
      simp only [Option.map_eq_some_iff] at hq
      obtain ⟨g, hg, rfl⟩ := hq
      exact ⟨g, rfl, h.noPill (by simpa using hc) g hg⟩

theorem inv_run (ops : List Op) : Inv (run {} ops) := by
  have : ∀ (ops : List Op) (s : St), Inv s → Inv (run s ops) := by
    intro ops
    induction ops with
    | nil => exact fun s h => h
    | cons op ops ih => exact fun s h => ih _ (inv_step h op)
  exact this ops {} ⟨by simp, by simp, by simp, by simp⟩

/-- C86: when the garbage collector thread has ended, everything that was handed over is destroyed, each object exactly
as often as it was handed over; nothing is leaked and nothing waits in a queue for ever. -/
theorem C86_exactly_once (ops : List Op) (h : (run {} ops).gcDone = true) : ((run {} ops).gone).Perm (sent ops) := by
  rw [List.perm_iff_count]
  intro a
  have h1 := count_run {} ops a
  have h0 : (St.objs {}).count a = 0 := by simp [St.objs, St.gone]
  rw [h0, count_objs] at h1
  have hi := inv_run ops
  obtain ⟨hc, hg⟩ := hi.done h
  obtain ⟨e1, e2⟩ := hi.empty hc
  rw [e1, e2, hg] at h1
  simpa using h1

theorem collect_all : ∀ (q : List Item) (s : St), s.gc = some (q ++ [.pill]) → Item.pill ∉ q → s.gcDone = false →
    (run s (List.replicate (q.length + 1) .collect)).gcDone = true := by
  intro q
  induction q with
  | nil =>
    intro s hg _ hd
    simp [run, step, hg, hd]
  | cons x xs ih =>
    intro s hg hp hd
    simp only [List.mem_cons, not_or] at hp
    cases x with
    | pill => exact absurd rfl hp.1
    | payload l =>
      rw [List.length_cons, List.replicate_succ]
      simp only [run, List.foldl_cons]
      refine ih _ ?_ hp.2 ?_
      · simp [step, hg, hd]
      · simp [step, hg, hd]

/-- C86: after the end of the render thread the garbage collector thread ends by itself after as many turns as there
are things in its queue. -/
theorem C86_collector_ends (ops : List Op) (hc : (run {} ops).closed = true) (q : List Item)
    (hq : (run {} ops).gc = some q) :
    (run {} (ops ++ List.replicate q.length .collect)).gcDone = true := by
  have hi := inv_run ops
  have hsplit : ∀ xs ys : List Op, run {} (xs ++ ys) = run (run {} xs) ys := by
    intro xs ys; simp [run]
  rw [hsplit]
  by_cases hd : (run {} ops).gcDone = true
  · have : ∀ (n : Nat) (s : St), s.gcDone = true → (run s (List.replicate n .collect)).gcDone = true := by
      intro n
      induction n with
      | zero => exact fun s h => h
      | succ n ih =>
        intro s h
        rw [List.replicate_succ]
        exact ih _ (by simp [step, h])
    exact this _ _ hd
  · obtain ⟨r, hr, hp⟩ := hi.pill hc q hq (by simpa using hd)
    subst hr
    have := collect_all r _ hq hp (by simpa using hd)
    simpa using this

/-- C86: the render thread itself destroys nothing if the garbage collector thread was started first, no node is
removed, and only those nodes are used that exchange their object (buffer source, convolver, wave shaper, oscillator)
or receive none. Missing for the full claim: panners, value curves and removed nodes, see the negations. -/
theorem C86_render_partial (ops : List Op)
    (hk : ∀ id k, Op.add id k ∈ ops → k = .swap ∨ k = .plain) (hf : ∀ id, Op.free id ∉ ops)
    (hs : ∀ pre id p post, ops = pre ++ .send id p :: post → ∃ k, Op.add id k ∈ pre) :
    ∀ o t, (o, t) ∈ (run {} (.spawn :: ops)).dead → t ≠ .render := by
  have key : ∀ (done ops : List Op) (s : St),
      (∀ id k, Op.add id k ∈ ops → k = .swap ∨ k = .plain) → (∀ id, Op.free id ∉ ops) →
      (∀ pre id p post, done ++ ops = pre ++ .send id p :: post → ∃ k, Op.add id k ∈ pre) →
      s.gc.isSome →
      (∀ n ∈ s.nodes, n.kind = .swap ∨ n.kind = .plain) →
      (s.closed = false → ∀ id k, Op.add id k ∈ done → ∃ n ∈ s.nodes, n.id = id) →
      (∀ m ∈ s.chan, ∃ n ∈ s.nodes, n.id = m.1) →
      (∀ o t, (o, t) ∈ s.dead → t ≠ .render) →
      ∀ o t, (o, t) ∈ (run s ops).dead → t ≠ .render := by
    intro done ops
    induction ops generalizing done with
    | nil => intro s _ _ _ _ _ _ _ h; exact h
    | cons op ops ih =>
      intro s hk hf hs hg hn hd hc h
      have hk' : ∀ id k, Op.add id k ∈ ops → k = .swap ∨ k = .plain := fun id k q => hk id k (List.mem_cons_of_mem _ q)
      have hf' : ∀ id, Op.free id ∉ ops := fun id q => hf id (List.mem_cons_of_mem _ q)
      have hs' : ∀ pre id p post, (done ++ [op]) ++ ops = pre ++ .send id p :: post → ∃ k, Op.add id k ∈ pre := by
        intro pre id p post e
        exact hs pre id p post (by simpa using e)
      have hd0 : (∀ id k, op ≠ Op.add id k) → s.closed = false →
          ∀ id k, Op.add id k ∈ done ++ [op] → ∃ n ∈ s.nodes, n.id = id := by
        intro hne e id k q
        simp only [List.mem_append, List.mem_singleton] at q
        rcases q with q | q
        · exact hd e id k q
        · exact absurd q.symm (hne id k)
      have happ : ∀ t l, t ≠ Thr.render → ∀ o t', (o, t') ∈ s.dead ++ kill t l → t' ≠ .render := by
        intro t l ht o t' q
        rw [List.mem_append] at q
        rcases q with q | q
        · exact h o t' q
        · simp only [kill, List.mem_map, Prod.mk.injEq] at q
          obtain ⟨_, _, _, rfl⟩ := q
          exact ht
      simp only [run, List.foldl_cons]
      cases op with
      | add id k =>
        simp only [step]
        split
        · next e =>
          refine ih (done ++ [_]) s hk' hf' hs' hg hn (fun e' => by rw [e'] at e; cases e) hc h
        · refine ih (done ++ [_]) _ hk' hf' hs' hg ?_ ?_ ?_ h
          · intro n q
            simp only [List.mem_append, List.mem_singleton] at q
            rcases q with q | rfl
            · exact hn n q
            · exact hk id k (List.mem_cons_self ..)
          · intro e id' k' q
            simp only [List.mem_append, List.mem_singleton, Op.add.injEq] at q
            rcases q with q | ⟨rfl, rfl⟩
            · obtain ⟨n, q1, q2⟩ := hd e id' k' q
              exact ⟨n, by simp [q1], q2⟩
            · exact ⟨⟨id', k', []⟩, by simp, rfl⟩
          · intro m q
            obtain ⟨n, q1, q2⟩ := hc m q
            exact ⟨n, by simp [q1], q2⟩
      | send id p =>
        simp only [step]
        split
        · next e =>
          exact ih (done ++ [_]) _ hk' hf' hs' hg hn (fun e' => by simp only at e'; rw [e'] at e; cases e) hc
            (happ .owner _ (by decide))
        · next e =>
          refine ih (done ++ [_]) _ hk' hf' hs' hg hn (hd0 (by simp)) ?_ h
          intro m q
          simp only [List.mem_append, List.mem_singleton] at q
          rcases q with q | rfl
          · exact hc m q
          · obtain ⟨k, hk0⟩ := hs done id p ops rfl
            exact hd (by simpa using e) id k hk0
      | spawn =>
        simp only [step]
        split
        · exact ih (done ++ [_]) _ hk' hf' hs' hg hn (hd0 (by simp)) hc h
        · exact ih (done ++ [_]) _ hk' hf' hs' (by simp) hn (hd0 (by simp)) hc h
      | recv =>
        simp only [step]
        split
        · next id p ms he =>
          have hc' : ∀ m ∈ ms, ∃ n ∈ s.nodes, n.id = m.1 := fun m q => hc m (by rw [he]; exact List.mem_cons_of_mem _ q)
          obtain ⟨n0, m1, m2⟩ := hc (id, p) (by rw [he]; exact List.mem_cons_self ..)
          unfold recv
          split
          · next hnone =>
            rw [List.find?_eq_none] at hnone
            exact absurd (by simpa using m2) (hnone n0 m1)
          · next n hfind =>
            have hmem := List.mem_of_find?_eq_some hfind
            obtain ⟨q, hq⟩ := Option.isSome_iff_exists.1 hg
            simp only [hq]
            have hspot : (n.onmessage p).2.2 = [] := by
              unfold Node.onmessage
              rcases hn n hmem with e | e <;> rw [e]
            have hid : (n.onmessage p).1.id = n.id ∧ (n.onmessage p).1.kind = n.kind := by
              unfold Node.onmessage
              split <;> exact ⟨rfl, rfl⟩
            have hstay : ∀ x, (∃ m ∈ s.nodes, m.id = x) → ∃ m ∈ (n.onmessage p).1 :: s.nodes.erase n, m.id = x := by
              rintro x ⟨m, q1, q2⟩
              by_cases e : m = n
              · exact ⟨_, List.mem_cons_self .., by rw [hid.1, ← e, q2]⟩
              · exact ⟨m, List.mem_cons_of_mem _ ((List.mem_erase_of_ne e).2 q1), q2⟩
            refine ih (done ++ [_]) _ hk' hf' hs' (by simp) ?_ ?_ ?_ ?_
            · intro m q
              simp only [List.mem_cons] at q
              rcases q with rfl | q
              · rw [hid.2]; exact hn n hmem
              · exact hn m (List.mem_of_mem_erase q)
            · intro e id' k' q
              exact hstay _ (hd0 (by simp) e id' k' q)
            · intro m q
              exact hstay _ (hc' m q)
            · simp only [hspot, kill, List.map_nil, List.append_nil]
              exact h
        · exact ih (done ++ [_]) _ hk' hf' hs' hg hn (hd0 (by simp)) hc h
      | free id => exact absurd (List.mem_cons_self ..) (hf id)
      | expire id k =>
        simp only [step]
        split
        · next n hfind =>
          split
          · next e =>
            have := hn n (List.mem_of_find?_eq_some hfind)
            rw [e] at this
            rcases this with q | q <;> cases q
          · exact ih (done ++ [_]) _ hk' hf' hs' hg hn (hd0 (by simp)) hc h
        · exact ih (done ++ [_]) _ hk' hf' hs' hg hn (hd0 (by simp)) hc h
      | collect =>
        simp only [step]
        split
        · exact ih (done ++ [_]) _ hk' hf' hs' hg hn (hd0 (by simp)) hc h
        · split
          · exact ih (done ++ [_]) _ hk' hf' hs' (by simp) hn (hd0 (by simp)) hc (happ .collector _ (by decide))
          · exact ih (done ++ [_]) _ hk' hf' hs' (by simp) hn (hd0 (by simp)) hc (happ .collector _ (by decide))
          · exact ih (done ++ [_]) _ hk' hf' hs' hg hn (hd0 (by simp)) hc h
      | shutdown =>
        simp only [step]
        split
        · exact ih (done ++ [_]) _ hk' hf' hs' hg hn (hd0 (by simp)) hc h
        · exact ih (done ++ [_]) _ hk' hf' hs' (by simpa using hg) (by simp) (by simp) (by simp)
            (happ .owner _ (by decide))
  refine key [] ops _ hk hf (by simpa using hs) ?_ ?_ ?_ ?_ ?_ <;> simp [step]

/-- Hypotheses met: a curve is exchanged. -/
example : let ops : List Op := [.add 11 .swap, .send 11 (some 1), .recv, .send 11 (some 2), .recv, .collect, .collect]
    (∀ id k, Op.add id k ∈ ops → k = .swap ∨ k = .plain) ∧ (∀ id, Op.free id ∉ ops) ∧
    (∀ pre id p post, ops = pre ++ .send id p :: post → ∃ k, Op.add id k ∈ pre) ∧
    (run {} (.spawn :: ops)).dead = [(1, .collector)] := by
  refine ⟨?_, by simp, ?_, by decide⟩
  · intro id k h
    simp only [List.mem_cons, Op.add.injEq, reduceCtorEq, List.not_mem_nil, or_false] at h
    exact Or.inl h.2
  · intro pre id p post e
    rcases pre with _ | ⟨a, pre⟩
    · simp at e
    · simp only [List.cons_append, List.cons.injEq] at e
      obtain ⟨rfl, e⟩ := e
      refine ⟨.swap, ?_⟩
      have : Op.send id p ∈ [Op.send 11 (some 1), .recv, .send 11 (some 2), .recv, .collect, .collect] := by
        rw [e]; simp
      simp only [List.mem_cons, Op.send.injEq, reduceCtorEq, List.not_mem_nil, or_false, false_or] at this
      have : id = 11 := by rcases this with h | h <;> exact h.1
      subst this
      exact List.mem_cons_self ..

/-- C86 is false: the HRTF data of a panner are destroyed by the render thread when the panning model changes. -/
theorem C86_negated_panner :
    (run {} [.spawn, .add 11 .panner, .send 11 (some 7), .recv, .send 11 none, .recv]).dead = [(7, .render)] := by decide

/-- C86 is false: a buffer is destroyed by the render thread when the source that has it is removed, if the user keeps
no clone of it. -/
theorem C86_negated_free :
    (run {} [.spawn, .add 11 .swap, .send 11 (some 7), .recv, .free 11]).dead = [(7, .render)] := by decide

/-- C86 is false: value curves are destroyed by the render thread when they have been played. -/
theorem C86_negated_curve :
    (run {} [.spawn, .add 11 .param, .send 11 (some 7), .recv, .expire 11 0]).dead = [(7, .render)] := by decide

/-- Non-trivial case: a curve is exchanged twice and the stream is dropped with one message under way. -/
example : (run {} [.spawn, .add 11 .swap, .send 11 (some 1), .recv, .send 11 (some 2), .recv, .collect, .collect,
      .send 11 none, .recv, .send 11 (some 3), .shutdown, .collect, .collect, .collect]) =
    { closed := true, gc := some [], gcDone := true, dead := [(1, .collector), (3, .owner), (2, .collector)] } := by
  decide

end Verif.Garbage
