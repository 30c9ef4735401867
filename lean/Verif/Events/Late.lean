import Mathlib.Tactic.Common

/-!
# C85: events and answers that come late

Models the way of an event from the processor of a node to the handler that is registered under the id of the node,
and of the answer to an `audioprocess` event back to the processor, together with the reuse of ids: `register`
(`/repo/src/context/concrete_base.rs` l.232-270), `AudioNodeIdProvider::get` (l.40-46), `mark_node_dropped` (l.330-347),
the removal of nodes (`/repo/src/render/graph.rs` l.552-575), `route_message` (l.322-324), the events
(`/repo/src/render/processor.rs` l.53-75), `EventLoop::handle_event` (`/repo/src/events.rs` l.188-224),
`AudioProcessingEvent::drop` (l.62-72) and `ScriptProcessorNode::set_onaudioprocess`
(`/repo/src/node/script_processor.rs` l.146-167).

One `Op` is one atomic step of a control thread, the render thread or the event thread. Ghost data: `tag` is the serial
number of a node, which is never reused. Saturated channels are the subject of C80 and left out here.
-/

namespace Verif.Events.Late

/-- the kinds of events of a node: `EventType::Ended` (and others), `EventType::AudioProcessing` -/
inductive Kind where
  | ended
  | audio
deriving DecidableEq, Repr

/-- `EventDispatch`; `tag` is ghost -/
structure Ev where
  id : Nat
  kind : Kind
  tag : Nat
deriving DecidableEq, Repr

/-- `EventHandler`: `Once` or `Multiple`; `owner` is ghost: the node on which it was set -/
structure Handler where
  owner : Nat
  once : Bool
deriving DecidableEq, Repr

/-- `ControlMessage`; tags are ghost -/
inductive Msg where
  | register (id tag : Nat)
  | dropped (id tag : Nat)
  /-- `NodeMessage` with the output buffer of an answer -/
  | answer (id tag : Nat)
deriving DecidableEq, Repr

structure St where
  nextId : Nat := 11
  nextTag : Nat := 0
  /-- the queue of ids to be reused -/
  free : List Nat := []
  /-- handles of the user: tag and id -/
  live : List (Nat × Nat) := []
  chan : List Msg := []
  /-- nodes of the graph: tag and `control_handle_dropped` -/
  slot : Nat → Option (Nat × Bool) := fun _ => none
  /-- the node in `before_drop`: id and tag -/
  dying : Option (Nat × Nat) := none
  queue : List Ev := []
  handlers : Nat → Kind → Option Handler := fun _ _ => none
  /-- the event thread is in a callback -/
  busy : Option (Ev × Handler) := none
  /-- events with `registration` that the user has not dropped: id and tag -/
  held : List (Nat × Nat) := []
  /-- ghost: the last node that got an id -/
  owner : Nat → Option Nat := fun _ => none
  /-- ghost: for each callback that ran: the node on which it was set, the node of the event -/
  runs : List (Nat × Nat) := []
  /-- ghost: for each answer that arrived: the node of the event, the node that got the answer -/
  got : List (Nat × Nat) := []
  /-- the render thread has panicked -/
  crashed : Bool := false

inductive Op where
  /-- a constructor -/
  | create
  | set (tag : Nat) (k : Kind) (once : Bool)
  | clear (tag : Nat) (k : Kind)
  | drop (tag : Nat)
  /-- render thread: one message -/
  | recv
  /-- render thread: the processor of a node raises an event -/
  | emit (id : Nat) (k : Kind)
  /-- render thread: a node without handle is removed and its id is pushed to the queue -/
  | reclaim (id : Nat)
  /-- render thread: `before_drop` of the removed node, with or without `ended` event -/
  | beforeDrop (ended : Bool)
  /-- event thread: takes an event and calls the handler -/
  | take
  /-- event thread: the callback returns -/
  | done
  /-- the user drops the `n`th event held -/
  | release (n : Nat)
deriving DecidableEq, Repr

/-- `AudioNodeIdProvider::get` -/
def St.newId (s : St) : Nat := s.free.headD s.nextId

/-- One step; a step that cannot be taken leaves the state. -/
def step (s : St) : Op → St
  | .create =>
    { s with
      nextId := if s.free = [] then s.nextId + 1 else s.nextId
      free := s.free.tail
      nextTag := s.nextTag + 1
      live := s.live ++ [(s.nextTag, s.newId)]
      chan := s.chan ++ [.register s.newId s.nextTag]
      owner := fun i => if i = s.newId then some s.nextTag else s.owner i }
  | .set tag k once =>
    match s.live.find? (·.1 = tag) with
    | some (_, id) =>
      { s with handlers := fun i l => if i = id ∧ l = k then some ⟨tag, once⟩ else s.handlers i l }
    | none => s
  | .clear tag k =>
    match s.live.find? (·.1 = tag) with
    | some (_, id) => { s with handlers := fun i l => if i = id ∧ l = k then none else s.handlers i l }
    | none => s
  | .drop tag =>
    match s.live.find? (·.1 = tag) with
    | some (_, id) =>
      { s with
        live := s.live.filter (·.1 ≠ tag)
        chan := s.chan ++ [.dropped id tag] }
    | none => s
  | .recv =>
    if s.crashed then s else
    match s.chan with
    | [] => s
    | .register id tag :: ms => { s with chan := ms, slot := fun i => if i = id then some (tag, false) else s.slot i }
    | .dropped id _ :: ms =>
      { s with chan := ms, slot := fun i => if i = id then (s.slot i).map fun n => (n.1, true) else s.slot i }
    | .answer id tag :: ms =>
      match s.slot id with
      | some n => { s with chan := ms, got := s.got ++ [(tag, n.1)] }
      | none => { s with chan := ms, crashed := true }
  | .emit id k =>
    if s.crashed ∨ s.dying.isSome then s else
    match s.slot id with
    | some n => { s with queue := s.queue ++ [⟨id, k, n.1⟩] }
    | none => s
  | .reclaim id =>
    if s.crashed ∨ s.dying.isSome then s else
    match s.slot id with
    | some (tag, true) =>
      { s with
        slot := fun i => if i = id then none else s.slot i
        free := s.free ++ [id]
        dying := some (id, tag) }
    | _ => s
  | .beforeDrop ended =>
    match s.dying with
    | some (id, tag) =>
      { s with
        dying := none
        queue := if ended then s.queue ++ [⟨id, .ended, tag⟩] else s.queue }
    | none => s
  | .take =>
    match s.busy, s.queue with
    | none, e :: q =>
      match s.handlers e.id e.kind with
      | none => { s with queue := q }
      | some h =>
        { s with
          queue := q
          handlers := fun i l => if i = e.id ∧ l = e.kind then none else s.handlers i l
          busy := some (e, h)
          runs := s.runs ++ [(h.owner, e.tag)]
          held := if e.kind = .audio then s.held ++ [(e.id, e.tag)] else s.held }
    | _, _ => s
  | .done =>
    match s.busy with
    | some (e, h) =>
      { s with
        busy := none
        handlers := fun i l => if i = e.id ∧ l = e.kind ∧ h.once = false then some h else s.handlers i l }
    | none => s
  | .release n =>
    match s.held[n]? with
    | some (id, tag) => { s with held := s.held.eraseIdx n, chan := s.chan ++ [.answer id tag] }
    | none => s

def run (s : St) (ops : List Op) : St := ops.foldl step s

/-! ## Specification -/

/-- Callbacks ran only for events of the node they were set on, answers reached only the node of the event, and the
render thread is alive. -/
structure Own (s : St) : Prop where
  runs : ∀ p ∈ s.runs, p.1 = p.2
  got : ∀ p ∈ s.got, p.1 = p.2
  alive : s.crashed = false

/-- What the user has to take care of: when a handle is dropped, its handlers are cleared (or have run, `once`), none
of them is running and no `AudioProcessingEvent` of the node is held; and no new node is created while an event of the
former owner of its id is under way. -/
def careful (s : St) : Op → Prop
  | .drop tag => ∀ id, (tag, id) ∈ s.live → (∀ k, s.handlers id k = none) ∧ (∀ b, s.busy = some b → b.1.id ≠ id) ∧
      ∀ p ∈ s.held, p.1 ≠ id
  | .create => s.free ≠ [] → (∀ e ∈ s.queue, e.id ≠ s.newId) ∧ ∀ p, s.dying = some p → p.1 ≠ s.newId
  | _ => True

def Careful : St → List Op → Prop
  | _, [] => True
  | s, op :: ops => careful s op ∧ Careful (step s op) ops

/-! ## Proofs -/

/-- what a node is for the messages under way -/
def eff (m : Nat → Option (Nat × Bool)) : Msg → Nat → Option (Nat × Bool)
  | .register id tag => fun i => if i = id then some (tag, false) else m i
  | .dropped id tag => fun i => if i = id then some (tag, true) else m i
  | .answer _ _ => m

/-- the messages find their nodes -/
def Ok (m : Nat → Option (Nat × Bool)) : List Msg → Prop
  | [] => True
  | x :: xs => (match x with
      | .register id _ => m id = none
      | .dropped id tag => m id = some (tag, false)
      | .answer id tag => m id = some (tag, false)) ∧ Ok (eff m x) xs

def fin (m : Nat → Option (Nat × Bool)) (xs : List Msg) : Nat → Option (Nat × Bool) := xs.foldl eff m

theorem ok_append (m : Nat → Option (Nat × Bool)) (xs : List Msg) (x : Msg) :
    Ok m (xs ++ [x]) ↔ Ok m xs ∧ Ok (fin m xs) [x] := by
  induction xs generalizing m with
  | nil => simp [Ok, fin]
  | cons y ys ih => simp only [List.cons_append, Ok, ih, fin, List.foldl_cons, and_assoc]

theorem fin_append (m : Nat → Option (Nat × Bool)) (xs : List Msg) (x : Msg) : fin m (xs ++ [x]) = eff (fin m xs) x := by
  simp [fin]

/-- a node does not vanish by messages -/
theorem fin_none {m : Nat → Option (Nat × Bool)} {xs : List Msg} {i : Nat} (h : fin m xs i = none) : m i = none := by
  induction xs generalizing m with
  | nil => exact h
  | cons x xs ih =>
    have := ih h
    cases x with
    | register id tag => simp only [eff] at this; split at this; cases this; exact this
    | dropped id tag => simp only [eff] at this; split at this; cases this; exact this
    | answer id tag => exact this

/-- no message for a node whose handle is dropped -/
theorem ok_dropped {m : Nat → Option (Nat × Bool)} {xs : List Msg} {i t : Nat} (h : Ok m xs) (hi : m i = some (t, true)) :
    Ok (fun j => if j = i then none else m j) xs ∧
      fin (fun j => if j = i then none else m j) xs = fun j => if j = i then none else fin m xs j := by
  induction xs generalizing m with
  | nil => exact ⟨trivial, rfl⟩
  | cons x xs ih =>
    obtain ⟨h1, h2⟩ := h
    have key : eff (fun j => if j = i then none else m j) x = fun j => if j = i then none else eff m x j := by
      cases x with
      | register id tag =>
        simp only at h1
        funext j
        simp only [eff]
        by_cases e : j = id
        · subst e
          have : j ≠ i := by rintro rfl; rw [hi] at h1; cases h1
          simp [this]
        · simp [e]
      | dropped id tag =>
        simp only at h1
        funext j
        simp only [eff]
        by_cases e : j = id
        · subst e
          have : j ≠ i := by rintro rfl; rw [hi] at h1; cases h1
          simp [this]
        · simp [e]
      | answer id tag => rfl
    have hi' : eff m x i = some (t, true) := by
      cases x with
      | register id tag =>
        simp only at h1
        simp only [eff]
        rw [if_neg]; exact hi
        rintro rfl; rw [hi] at h1; cases h1
      | dropped id tag =>
        simp only at h1
        simp only [eff]
        rw [if_neg]; exact hi
        rintro rfl; rw [hi] at h1; cases h1
      | answer id tag => exact hi
    obtain ⟨k1, k2⟩ := ih h2 hi'
    refine ⟨⟨?_, by rw [key]; exact k1⟩, ?_⟩
    · cases x with
      | register id tag => simp only at h1 ⊢; split; rfl; exact h1
      | dropped id tag =>
        simp only at h1 ⊢
        rw [if_neg]; exact h1
        rintro rfl; rw [hi] at h1; cases h1
      | answer id tag =>
        simp only at h1 ⊢
        rw [if_neg]; exact h1
        rintro rfl; rw [hi] at h1; cases h1
    · simp only [fin, List.foldl_cons] at k2 ⊢
      rw [key]; exact k2

structure Inv (s : St) : Prop extends Own s where
  ok : Ok s.slot s.chan
  live : ∀ t i, (t, i) ∈ s.live → fin s.slot s.chan i = some (t, false) ∧ s.owner i = some t
  freeNone : ∀ i ∈ s.free, fin s.slot s.chan i = none ∧ i < s.nextId
  freeNodup : s.free.Nodup
  fresh : ∀ i, s.nextId ≤ i → fin s.slot s.chan i = none
  owns : ∀ i t b, fin s.slot s.chan i = some (t, b) → s.owner i = some t
  tags : ∀ i t, s.owner i = some t → t < s.nextTag
  queue : ∀ e ∈ s.queue, s.owner e.id = some e.tag ∧ e.id < s.nextId
  dying : ∀ i t, s.dying = some (i, t) → s.owner i = some t ∧ i < s.nextId
  handlers : ∀ i k h, s.handlers i k = some h → (h.owner, i) ∈ s.live
  busy : ∀ e h, s.busy = some (e, h) → (h.owner, e.id) ∈ s.live
  held : ∀ i t, (i, t) ∈ s.held → (t, i) ∈ s.live

theorem fin_some {m : Nat → Option (Nat × Bool)} {xs : List Msg} (h : Ok m xs) {i t : Nat} {b : Bool}
    (hi : m i = some (t, b)) : ∃ b', fin m xs i = some (t, b') := by
  induction xs generalizing m b with
  | nil => exact ⟨b, hi⟩
  | cons x xs ih =>
    obtain ⟨h1, h2⟩ := h
    cases x with
    | register id tag =>
      simp only at h1
      refine ih h2 (b := b) ?_
      simp only [eff]
      rw [if_neg]; exact hi
      rintro rfl; rw [hi] at h1; cases h1
    | dropped id tag =>
      simp only at h1
      by_cases e : i = id
      · subst e
        rw [hi] at h1; cases h1
        exact ih h2 (b := true) (by simp [eff])
      · exact ih h2 (b := b) (by simp [eff, e, hi])
    | answer id tag => exact ih h2 hi

theorem find_live {s : St} {tag : Nat} {p : Nat × Nat} (h : s.live.find? (·.1 = tag) = some p) :
    p.1 = tag ∧ p ∈ s.live := by
  have h1 := List.find?_some h
  exact ⟨by simpa using h1, List.mem_of_find?_eq_some h⟩

theorem newId_none {s : St} (h : Inv s) : fin s.slot s.chan s.newId = none := by
  unfold St.newId
  cases hf : s.free with
  | nil => exact h.fresh _ (by simp)
  | cons i is => exact (h.freeNone i (by simp [hf])).1

/-- what is additionally true: distinct nodes have distinct tags -/
structure Inv2 (s : St) : Prop extends Inv s where
  inj : ∀ i i' t, s.owner i = some t → s.owner i' = some t → i = i'

theorem inv_init : Inv2 {} := by
  refine ⟨⟨⟨?_, ?_, rfl⟩, trivial, ?_, ?_, ?_, ?_, ?_, ?_, ?_, ?_, ?_, ?_, ?_⟩, ?_⟩ <;> simp [fin]

theorem inv_step {s : St} (h : Inv2 s) (op : Op) (hc : careful s op) : Inv2 (step s op) := by
  cases op with
  | create =>
    have hn := newId_none h.toInv
    have hown : ∀ t, s.owner s.newId = some t → ∀ i', (t, i') ∈ s.live → False := by
      intro t ht i' hl
      have h1 := (h.live t i' hl)
      have := h.inj _ _ _ ht h1.2
      rw [← this, hn] at h1
      cases h1.1
    have hne : ∀ t i, (t, i) ∈ s.live → i ≠ s.newId := by
      rintro t i hl rfl
      have := (h.live t _ hl).1
      rw [hn] at this; cases this
    have hlt : s.free = [] → s.newId = s.nextId := by
      intro e; simp [St.newId, e]
    have hmem : s.free ≠ [] → s.newId ∈ s.free := by
      intro e
      unfold St.newId
      cases hf : s.free with
      | nil => exact absurd hf e
      | cons i is => simp
    have htail : ∀ i ∈ s.free.tail, i ∈ s.free ∧ i ≠ s.newId := by
      intro i hi
      refine ⟨List.mem_of_mem_tail hi, ?_⟩
      have hd := h.freeNodup
      unfold St.newId
      cases hf : s.free with
      | nil => rw [hf] at hi; cases hi
      | cons j js =>
        rw [hf] at hi hd
        rintro rfl
        exact (List.nodup_cons.1 hd).1 hi
    have hle : s.nextId ≤ (if s.free = [] then s.nextId + 1 else s.nextId) := by split <;> omega
    have hnlt : s.newId < (if s.free = [] then s.nextId + 1 else s.nextId) := by
      split
      · next e => rw [hlt e]; omega
      · next e => exact (h.freeNone _ (hmem e)).2
    have hqueue : ∀ e ∈ s.queue, e.id ≠ s.newId := by
      intro e he
      by_cases hf : s.free = []
      · rw [hlt hf]; exact Nat.ne_of_lt (h.queue e he).2
      · exact (hc hf).1 e he
    have hdying : ∀ i t, s.dying = some (i, t) → i ≠ s.newId := by
      intro i t he
      by_cases hf : s.free = []
      · rw [hlt hf]; exact Nat.ne_of_lt (h.dying i t he).2
      · exact (hc hf).2 _ he
    have hfin : ∀ i, fin s.slot (s.chan ++ [.register s.newId s.nextTag]) i =
        if i = s.newId then some (s.nextTag, false) else fin s.slot s.chan i := by
      intro i; rw [fin_append]; rfl
    refine ⟨⟨⟨h.runs, h.got, h.alive⟩, ?_, ?_, ?_, ?_, ?_, ?_, ?_, ?_, ?_, ?_, ?_, ?_⟩, ?_⟩
    · exact (ok_append _ _ _).2 ⟨h.ok, hn, trivial⟩
    · intro t i hl
      simp only [step] at hl ⊢
      rw [hfin]
      rw [List.mem_append, List.mem_singleton] at hl
      rcases hl with hl | hl
      · rw [if_neg (hne t i hl), if_neg (hne t i hl)]
        exact h.live t i hl
      · cases hl; simp
    · intro i hi
      simp only [step] at hi ⊢
      rw [hfin]
      rw [if_neg (htail i hi).2]
      exact ⟨(h.freeNone i (htail i hi).1).1, Nat.lt_of_lt_of_le (h.freeNone i (htail i hi).1).2 hle⟩
    · exact h.freeNodup.tail
    · intro i hi
      simp only [step] at hi ⊢
      rw [hfin, if_neg (by omega)]
      exact h.fresh i (by omega)
    · intro i t b hi
      simp only [step] at hi ⊢
      rw [hfin] at hi
      split at hi
      · next e => cases hi; rw [if_pos e]
      · next e => rw [if_neg e]; exact h.owns i t b hi
    · intro i t hi
      simp only [step] at hi ⊢
      split at hi
      · cases hi; omega
      · have := h.tags i t hi; omega
    · intro e he
      simp only [step]
      rw [if_neg (hqueue e he)]
      exact ⟨(h.queue e he).1, Nat.lt_of_lt_of_le (h.queue e he).2 hle⟩
    · intro i t he
      simp only [step] at he ⊢
      rw [if_neg (hdying i t he)]
      exact ⟨(h.dying i t he).1, Nat.lt_of_lt_of_le (h.dying i t he).2 hle⟩
    · intro i k x hx
      exact List.mem_append_left _ (h.handlers i k x hx)
    · intro e x hx
      exact List.mem_append_left _ (h.busy e x hx)
    · intro i t hx
      exact List.mem_append_left _ (h.held i t hx)
    · intro i i' t h1 h2
      simp only [step] at h1 h2
      split at h1 <;> split at h2
      · next e1 e2 => rw [e1, e2]
      · cases h1; exact absurd (h.tags _ _ h2) (by omega)
      · cases h2; exact absurd (h.tags _ _ h1) (by omega)
      · exact h.inj i i' t h1 h2
  | set tag k once =>
    simp only [step]
    split
    · next a id he =>
      obtain ⟨h1, h2⟩ := find_live he
      simp only at h1
      subst h1
      refine ⟨⟨⟨h.runs, h.got, h.alive⟩, h.ok, h.live, h.freeNone, h.freeNodup, h.fresh, h.owns, h.tags, h.queue, h.dying,
        ?_, h.busy, h.held⟩, h.inj⟩
      intro i l x hx
      simp only at hx
      split at hx
      · next e => cases hx; rw [e.1]; exact h2
      · exact h.handlers i l x hx
    · exact h
  | clear tag k =>
    simp only [step]
    split
    · refine ⟨⟨⟨h.runs, h.got, h.alive⟩, h.ok, h.live, h.freeNone, h.freeNodup, h.fresh, h.owns, h.tags, h.queue, h.dying,
        ?_, h.busy, h.held⟩, h.inj⟩
      intro i l x hx
      simp only at hx
      split at hx
      · cases hx
      · exact h.handlers i l x hx
    · exact h
  | drop tag =>
    simp only [step]
    split
    · next a id he =>
      obtain ⟨h1, h2⟩ := find_live he
      simp only at h1
      subst h1
      obtain ⟨c1, c2, c3⟩ := hc id h2
      have hid := h.live _ _ h2
      have keep : ∀ t i, (t, i) ∈ s.live → i ≠ id → (t, i) ∈ s.live.filter (·.1 ≠ a) := by
        intro t i hl hne
        rw [List.mem_filter]
        refine ⟨hl, ?_⟩
        simp only [ne_eq, decide_not, Bool.not_eq_true', decide_eq_false_iff_not]
        rintro rfl
        exact hne (h.inj _ _ _ (h.live _ _ hl).2 hid.2)
      have hfin : ∀ i, fin s.slot (s.chan ++ [.dropped id a]) i =
          if i = id then some (a, true) else fin s.slot s.chan i := by
        intro i; rw [fin_append]; rfl
      refine ⟨⟨⟨h.runs, h.got, h.alive⟩, ?_, ?_, ?_, h.freeNodup, ?_, ?_, h.tags, h.queue, h.dying, ?_, ?_, ?_⟩, h.inj⟩
      · exact (ok_append _ _ _).2 ⟨h.ok, hid.1, trivial⟩
      · intro t i hl
        simp only [List.mem_filter, ne_eq, decide_not, Bool.not_eq_true', decide_eq_false_iff_not] at hl
        have : i ≠ id := by
          rintro rfl
          have := (h.live _ _ hl.1).2
          rw [hid.2] at this
          exact hl.2 (Option.some.inj this).symm
        simp only
        rw [hfin, if_neg this]
        exact h.live t i hl.1
      · intro i hi
        have : i ≠ id := by
          rintro rfl
          have := (h.freeNone _ hi).1
          rw [hid.1] at this; cases this
        simp only
        rw [hfin, if_neg this]
        exact h.freeNone i hi
      · intro i hi
        have : i ≠ id := by
          rintro rfl
          have := h.fresh _ hi
          rw [hid.1] at this; cases this
        simp only
        rw [hfin, if_neg this]
        exact h.fresh i hi
      · intro i t b hi
        simp only at hi ⊢
        rw [hfin] at hi
        split at hi
        · next e => cases hi; rw [e]; exact hid.2
        · exact h.owns i t b hi
      · intro i k x hx
        refine keep _ _ (h.handlers i k x hx) ?_
        rintro rfl
        rw [c1 k] at hx; cases hx
      · intro e x hx
        exact keep _ _ (h.busy e x hx) (c2 _ hx)
      · intro i t hx
        exact keep _ _ (h.held i t hx) (c3 _ hx)
    · exact h
  | recv =>
    simp only [step]
    rw [if_neg (by simp [h.alive])]
    split
    · exact h
    · next id tag ms he =>
      have hok := h.ok
      rw [he] at hok
      have hfin : fin s.slot s.chan = fin (fun i => if i = id then some (tag, false) else s.slot i) ms := by
        rw [he]; rfl
      have hl := h.live; have hf := h.freeNone; have hg := h.fresh; have ho := h.owns
      rw [hfin] at hl hf hg ho
      exact ⟨⟨⟨h.runs, h.got, h.alive⟩, hok.2, hl, hf, h.freeNodup, hg, ho, h.tags, h.queue, h.dying, h.handlers, h.busy,
        h.held⟩, h.inj⟩
    · next id tag ms he =>
      have hok := h.ok
      rw [he] at hok
      obtain ⟨k1, k2⟩ := hok
      simp only at k1
      have heq : (fun i => if i = id then (s.slot i).map fun n => (n.1, true) else s.slot i) =
          eff s.slot (.dropped id tag) := by
        funext i
        simp only [eff]
        split
        · next e => rw [e, k1]; rfl
        · rfl
      have hfin : fin s.slot s.chan = fin (eff s.slot (.dropped id tag)) ms := by
        rw [he]; rfl
      have hl := h.live; have hf := h.freeNone; have hg := h.fresh; have ho := h.owns
      rw [hfin] at hl hf hg ho
      rw [heq]
      exact ⟨⟨⟨h.runs, h.got, h.alive⟩, k2, hl, hf, h.freeNodup, hg, ho, h.tags, h.queue, h.dying, h.handlers, h.busy,
        h.held⟩, h.inj⟩
    · next id tag ms he =>
      have hok := h.ok
      rw [he] at hok
      obtain ⟨k1, k2⟩ := hok
      simp only at k1
      have hfin : fin s.slot s.chan = fin s.slot ms := by
        rw [he]; rfl
      have hl := h.live; have hf := h.freeNone; have hg := h.fresh; have ho := h.owns
      rw [hfin] at hl hf hg ho
      rw [k1]
      refine ⟨⟨⟨h.runs, ?_, h.alive⟩, k2, hl, hf, h.freeNodup, hg, ho, h.tags, h.queue, h.dying, h.handlers, h.busy,
        h.held⟩, h.inj⟩
      intro p hp
      simp only [List.mem_append, List.mem_singleton] at hp
      rcases hp with hp | rfl
      · exact h.got p hp
      · rfl
  | emit id k =>
    simp only [step]
    split
    · exact h
    · split
      · next n hn =>
        refine ⟨⟨⟨h.runs, h.got, h.alive⟩, h.ok, h.live, h.freeNone, h.freeNodup, h.fresh, h.owns, h.tags, ?_, h.dying,
          h.handlers, h.busy, h.held⟩, h.inj⟩
        intro e he
        simp only [List.mem_append, List.mem_singleton] at he
        rcases he with he | rfl
        · exact h.queue e he
        · obtain ⟨b', hb⟩ := fin_some h.ok (i := id) (t := n.1) (b := n.2) hn
          refine ⟨h.owns _ _ _ hb, ?_⟩
          by_contra hlt
          have := h.fresh id (by simpa using hlt)
          rw [hb] at this; cases this
      · exact h
  | reclaim id =>
    simp only [step]
    split
    · exact h
    · split
      · next tag hn =>
        obtain ⟨k1, k2⟩ := ok_dropped h.ok hn
        obtain ⟨b', hb⟩ := fin_some h.ok hn
        have hown := h.owns _ _ _ hb
        have hlt : id < s.nextId := by
          by_contra hlt
          have := h.fresh id (by omega)
          rw [hb] at this; cases this
        have hnl : ∀ t, (t, id) ∉ s.live := by
          intro t hl
          have e1 := (h.live t id hl).1
          have : Ok s.slot s.chan := h.ok
          -- a live handle is not marked
          have e2 : fin s.slot s.chan id = some (tag, true) := by
            have hgen : ∀ (m : Nat → Option (Nat × Bool)) (xs : List Msg), Ok m xs → m id = some (tag, true) →
                fin m xs id = some (tag, true) := by
              intro m xs hm hi
              induction xs generalizing m with
              | nil => exact hi
              | cons x xs ih =>
                obtain ⟨q1, q2⟩ := hm
                refine ih _ q2 ?_
                cases x with
                | register id' tag' =>
                  simp only at q1
                  simp only [eff]
                  rw [if_neg]; exact hi
                  rintro rfl; rw [hi] at q1; cases q1
                | dropped id' tag' =>
                  simp only at q1
                  simp only [eff]
                  rw [if_neg]; exact hi
                  rintro rfl; rw [hi] at q1; cases q1
                | answer id' tag' => exact hi
            exact hgen _ _ this hn
          rw [e1] at e2; cases e2
        refine ⟨⟨⟨h.runs, h.got, h.alive⟩, k1, ?_, ?_, ?_, ?_, ?_, h.tags, h.queue, ?_, h.handlers, h.busy, h.held⟩, h.inj⟩
        · intro t i hl
          have : i ≠ id := by rintro rfl; exact hnl t hl
          simp only
          rw [k2]
          simp only [if_neg this]
          exact h.live t i hl
        · intro i hi
          simp only [List.mem_append, List.mem_singleton] at hi ⊢
          rw [k2]
          rcases hi with hi | rfl
          · simp only
            exact ⟨by split; rfl; exact (h.freeNone i hi).1, (h.freeNone i hi).2⟩
          · simp [hlt]
        · simp only
          rw [List.nodup_append]
          refine ⟨h.freeNodup, by simp, ?_⟩
          rintro i hi j hj rfl
          simp only [List.mem_singleton] at hj
          subst hj
          have := (h.freeNone _ hi).1
          rw [hb] at this; cases this
        · intro i hi
          simp only
          rw [k2]
          simp only
          split
          · rfl
          · exact h.fresh i hi
        · intro i t b hi
          simp only at hi ⊢
          rw [k2] at hi
          simp only at hi
          split at hi
          · cases hi
          · exact h.owns i t b hi
        · intro i t hi
          simp only [Option.some.injEq, Prod.mk.injEq] at hi
          rw [← hi.1, ← hi.2]
          exact ⟨hown, hlt⟩
      · exact h
  | beforeDrop ended =>
    simp only [step]
    split
    · next id tag hd =>
      refine ⟨⟨⟨h.runs, h.got, h.alive⟩, h.ok, h.live, h.freeNone, h.freeNodup, h.fresh, h.owns, h.tags, ?_, by simp,
        h.handlers, h.busy, h.held⟩, h.inj⟩
      intro e he
      simp only at he
      split at he
      · simp only [List.mem_append, List.mem_singleton] at he
        rcases he with he | rfl
        · exact h.queue e he
        · exact h.dying _ _ hd
      · exact h.queue e he
    · exact h
  | take =>
    simp only [step]
    split
    · next e q hb hq =>
      have hqe := h.queue e (by simp [hq])
      have hq' : ∀ e' ∈ q, s.owner e'.id = some e'.tag ∧ e'.id < s.nextId := fun e' he' => h.queue e' (by simp [hq, he'])
      split
      · exact ⟨⟨⟨h.runs, h.got, h.alive⟩, h.ok, h.live, h.freeNone, h.freeNodup, h.fresh, h.owns, h.tags, hq', h.dying,
          h.handlers, h.busy, h.held⟩, h.inj⟩
      · next x hx =>
        have hl := h.handlers _ _ _ hx
        have ht : x.owner = e.tag := by
          have := (h.live _ _ hl).2
          rw [hqe.1] at this
          exact (Option.some.inj this).symm
        refine ⟨⟨⟨?_, h.got, h.alive⟩, h.ok, h.live, h.freeNone, h.freeNodup, h.fresh, h.owns, h.tags, hq', h.dying,
          ?_, ?_, ?_⟩, h.inj⟩
        · intro p hp
          simp only [List.mem_append, List.mem_singleton] at hp
          rcases hp with hp | rfl
          · exact h.runs p hp
          · exact ht
        · intro i k y hy
          simp only at hy
          split at hy
          · cases hy
          · exact h.handlers i k y hy
        · intro e' y hy
          simp only [Option.some.injEq, Prod.mk.injEq] at hy
          rw [← hy.1, ← hy.2]; exact hl
        · intro i t hit
          simp only at hit
          split at hit
          · simp only [List.mem_append, List.mem_singleton, Prod.mk.injEq] at hit
            rcases hit with hit | ⟨rfl, rfl⟩
            · exact h.held i t hit
            · rw [← ht]; exact hl
          · exact h.held i t hit
    · exact h
  | done =>
    simp only [step]
    split
    · next e x hb =>
      refine ⟨⟨⟨h.runs, h.got, h.alive⟩, h.ok, h.live, h.freeNone, h.freeNodup, h.fresh, h.owns, h.tags, h.queue, h.dying,
        ?_, by simp, h.held⟩, h.inj⟩
      intro i k y hy
      simp only at hy
      split at hy
      · next q => cases hy; rw [q.1]; exact h.busy e x hb
      · exact h.handlers i k y hy
    · exact h
  | release n =>
    simp only [step]
    split
    · next id tag hn =>
      have hm : (id, tag) ∈ s.held := List.mem_of_getElem? hn
      have hl := h.live _ _ (h.held _ _ hm)
      have hfin : fin s.slot (s.chan ++ [.answer id tag]) = fin s.slot s.chan := by rw [fin_append]; rfl
      have k1 := h.live; have k2 := h.freeNone; have k3 := h.fresh; have k4 := h.owns
      rw [← hfin] at k1 k2 k3 k4
      refine ⟨⟨⟨h.runs, h.got, h.alive⟩, (ok_append _ _ _).2 ⟨h.ok, hl.1, trivial⟩, k1, k2, h.freeNodup, k3, k4, h.tags,
        h.queue, h.dying, h.handlers, h.busy, ?_⟩, h.inj⟩
      intro i t hit
      exact h.held i t (List.mem_of_mem_eraseIdx hit)
    · exact h

theorem inv_run {s : St} (h : Inv2 s) (ops : List Op) (hc : Careful s ops) : Inv2 (run s ops) := by
  induction ops generalizing s with
  | nil => exact h
  | cons op ops ih => exact ih (inv_step h op hc.1) hc.2

/-- C85: for all interleavings of control threads, render thread and event thread in which the user takes the care
described by `careful`: callbacks run only for events of the node they were set on, answers reach only the node of the
event, and they never find the node gone. Missing for the full claim: the care should not be necessary, see the
negations. -/
theorem C85_own_partial (ops : List Op) (hc : Careful {} ops) : Own (run {} ops) := (inv_run inv_init ops hc).toOwn

/-- C85: without dropped handles no care is necessary. -/
theorem C85_no_drop_partial (ops : List Op) (hd : ∀ tag, Op.drop tag ∉ ops) : Own (run {} ops) := by
  refine C85_own_partial ops ?_
  have key : ∀ (ops : List Op) (s : St), (∀ tag, Op.drop tag ∉ ops) → s.free = [] → (∀ i t, s.slot i ≠ some (t, true)) →
      (∀ i t, Msg.dropped i t ∉ s.chan) → Careful s ops := by
    intro ops
    induction ops with
    | nil => intros; trivial
    | cons op ops ih =>
      intro s hd hf hs hm
      refine ⟨?_, ?_⟩
      · cases op with
        | drop tag => exact absurd (List.mem_cons_self ..) (hd tag)
        | create => exact fun q => absurd hf q
        | _ => trivial
      · have hd' : ∀ tag, Op.drop tag ∉ ops := fun tag q => hd tag (List.mem_cons_of_mem _ q)
        cases op with
        | drop tag => exact absurd (List.mem_cons_self ..) (hd tag)
        | create => exact ih _ hd' (by simp [step, hf]) hs (by simpa [step] using hm)
        | set tag k once =>
          simp only [step]
          split
          · exact ih _ hd' hf hs hm
          · exact ih _ hd' hf hs hm
        | clear tag k =>
          simp only [step]
          split
          · exact ih _ hd' hf hs hm
          · exact ih _ hd' hf hs hm
        | recv =>
          simp only [step]
          split
          · exact ih _ hd' hf hs hm
          · split
            · exact ih _ hd' hf hs hm
            · next id tag ms he =>
              refine ih _ hd' hf ?_ (fun i t q => hm i t (by rw [he]; exact List.mem_cons_of_mem _ q))
              intro i t q
              simp only at q
              split at q
              · cases q
              · exact hs i t q
            · next id tag ms he => exact absurd (by rw [he]; exact List.mem_cons_self ..) (hm id tag)
            · next id tag ms he =>
              have hm' : ∀ i t, Msg.dropped i t ∉ ms := fun i t q => hm i t (by rw [he]; exact List.mem_cons_of_mem _ q)
              split
              · exact ih _ hd' hf hs hm'
              · exact ih _ hd' hf hs hm'
        | emit id k =>
          simp only [step]
          split
          · exact ih _ hd' hf hs hm
          · split
            · exact ih _ hd' hf hs hm
            · exact ih _ hd' hf hs hm
        | reclaim id =>
          simp only [step]
          split
          · exact ih _ hd' hf hs hm
          · split
            · next tag q => exact absurd q (hs id tag)
            · exact ih _ hd' hf hs hm
        | beforeDrop ended =>
          simp only [step]
          split
          · exact ih _ hd' hf hs hm
          · exact ih _ hd' hf hs hm
        | take =>
          simp only [step]
          split
          · split
            · exact ih _ hd' hf hs hm
            · exact ih _ hd' hf hs hm
          · exact ih _ hd' hf hs hm
        | done =>
          simp only [step]
          split
          · exact ih _ hd' hf hs hm
          · exact ih _ hd' hf hs hm
        | release n =>
          simp only [step]
          split
          · exact ih _ hd' hf hs (by simpa using hm)
          · exact ih _ hd' hf hs hm
  exact key ops {} hd rfl (by simp) (by simp)

/-- C85 is false: the `ended` event of a source whose handle was dropped (a sound that is fired and forgotten) is in
the queue when its id is given to a new source. The handler of the new source runs although it has not ended, and as
it runs only once, its own end is not noticed. -/
theorem C85_negated_stolen :
    let s := run {} [.create, .recv, .drop 0, .recv, .emit 11 .ended, .reclaim 11, .beforeDrop false,
      .create, .set 1 .ended true, .take, .done, .recv, .emit 11 .ended, .take]
    s.runs = [(1, 0)] ∧ s.queue = [] := by decide

/-- C85 is false: the id is given away before the last event of the removed node is raised. -/
theorem C85_negated_before_drop :
    (run {} [.create, .recv, .drop 0, .recv, .reclaim 11, .create, .set 1 .ended true, .beforeDrop true, .take]).runs =
      [(1, 0)] := by decide

/-- C85 is false: the handle of a script processor is dropped while its callback runs; the answer finds the node gone
and the render thread panics. -/
theorem C85_negated_crash :
    (run {} [.create, .set 0 .audio false, .recv, .emit 11 .audio, .take, .drop 0, .recv, .reclaim 11, .beforeDrop false,
      .release 0, .recv]).crashed = true := by decide

/-- C85 is false: the same with a new node under the id, which gets the buffer of the answer. An
`AudioBufferSourceNode` takes it as the buffer to play (`/repo/src/node/audio_buffer_source.rs` l.847-870). -/
theorem C85_negated_wrong_node :
    (run {} [.create, .set 0 .audio false, .recv, .emit 11 .audio, .take, .drop 0, .recv, .reclaim 11, .beforeDrop false,
      .create, .recv, .release 0, .recv]).got = [(0, 1)] := by decide

/-- Hypotheses met: a script processor answers, is cleared and dropped, and its id is used again. -/
example : let ops : List Op := [.create, .set 0 .audio false, .recv, .emit 11 .audio, .take, .release 0, .done, .recv,
      .clear 0 .audio, .drop 0, .recv, .reclaim 11, .beforeDrop false, .create, .set 1 .ended true, .recv, .emit 11 .ended,
      .take, .done]
    Careful {} ops ∧ (run {} ops).runs = [(0, 0), (1, 1)] ∧ (run {} ops).got = [(0, 0)] := by
  refine ⟨?_, by decide, by decide⟩
  simp [Careful, careful, step, St.newId]
  rintro (_ | _) <;> simp

end Verif.Events.Late
