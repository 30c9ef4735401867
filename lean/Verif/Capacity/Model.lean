import Mathlib.Data.List.Basic
import Mathlib.Order.Basic

/-!
# C74: collection of the render capacity

Models `AudioRenderCapacity::start` and `stop`, `/repo/src/capacity.rs` l.95-138, as a transition system: threads that call
`start` and `stop` (number 0 is the event thread, whose handlers may call them), collector threads, the event queue with its
event thread, the render callbacks and the clock. Of the statistics only the number of callbacks is kept here, the values of
an event are in `Stats` (C47). Simplifications: in `start`, storing the sender, taking the snapshot and spawning the thread are
one step; the event queue holds capacity events only.
-/

namespace Verif.Capacity

/-- where a collector thread is, l.108-128 -/
inductive Pc
  /-- in `recv_timeout`, until this time, l.109 -/
  | wait (deadline : Nat)
  /-- after the timeout, l.113 -/
  | check
  /-- in `send_event` with the snapshot `next`, l.121-124 -/
  | send (next : Nat)
  | done
  deriving DecidableEq, Repr

/-- a collector: its program counter, whether the other end of its stop channel exists, and the previous snapshot -/
structure Coll where
  pc : Pc
  live : Bool
  prev : Nat
  deriving DecidableEq

/-- where a thread is that calls `start` or `stop` -/
inductive Caller
  | idle
  /-- in `stop`, l.136, sending to collector `k`, with the lock of the slot; `restart`: called by `start` -/
  | rendezvous (k : Nat) (restart : Bool)
  /-- in `start`, after `stop`, l.99-108 -/
  | storing
  deriving DecidableEq

/-- an event of collector `coll` for the callbacks after number `lo` up to number `hi` -/
structure Ev where
  coll : Nat
  lo : Nat
  hi : Nat
  deriving DecidableEq

structure St where
  now : Nat
  callbacks : Nat
  /-- the sender in `stop_send`, l.68 -/
  slot : Option Nat
  /-- the lock of `stop_send` is held by a thread in `stop` -/
  locked : Bool
  n : Nat
  colls : Nat → Coll
  callers : Nat → Caller
  queue : List Ev
  /-- all events sent, the newest first -/
  log : List Ev

def St.new : St := ⟨0, 0, none, false, 0, fun _ => ⟨.done, false, 0⟩, fun _ => .idle, [], []⟩

inductive Act
  | tick
  /-- a render callback -/
  | render
  /-- a thread calls `stop` or `start` -/
  | call (j : Nat) (restart : Bool)
  /-- the rendezvous of `stop`, l.136 -/
  | meet (j : Nat)
  /-- l.99-108 -/
  | store (j : Nat)
  /-- l.109 returns an error -/
  | timeout (k : Nat)
  /-- l.113-116 -/
  | check (k : Nat)
  /-- l.118-127 -/
  | send (k : Nat)
  /-- the event thread takes an event from the queue -/
  | handle
  /-- the context and all other owners of the slot are dropped -/
  | release
  deriving DecidableEq

def upd {γ : Type} (f : Nat → γ) (k : Nat) (v : γ) : Nat → γ := fun i => if i = k then v else f i

/-- what the caller does after `stop` -/
def after (restart : Bool) : Caller := if restart then .storing else .idle

/-- a caller of `stop` waits for collector `k` -/
def pending (s : St) (k : Nat) : Prop := ∃ j r, s.callers j = .rendezvous k r

/-- drops the sender in the slot -/
def dropSender (s : St) : Nat → Coll :=
  match s.slot with
  | none => s.colls
  | some k => upd s.colls k { s.colls k with live := false }

/-- The steps. `iv` is the update interval, `cap` the capacity of the event queue. -/
inductive Step (iv cap : Nat) : St → Act → St → Prop
  | tick (s : St) : Step iv cap s .tick { s with now := s.now + 1 }
  | render (s : St) : Step iv cap s .render { s with callbacks := s.callbacks + 1 }
  /-- `stop`, l.135: the slot is empty -/
  | callNone (s : St) (j : Nat) (r : Bool) (h1 : s.callers j = .idle) (h2 : s.locked = false) (h3 : s.slot = none) :
      Step iv cap s (.call j r) { s with callers := upd s.callers j (after r) }
  /-- `stop`, l.135: the sender is taken; the guard lives until the end of the statement -/
  | callSome (s : St) (j k : Nat) (r : Bool) (h1 : s.callers j = .idle) (h2 : s.locked = false) (h3 : s.slot = some k) :
      Step iv cap s (.call j r)
        { s with callers := upd s.callers j (.rendezvous k r), slot := none, locked := true }
  /-- the collector receives and returns, l.109-111 -/
  | meet (s : St) (j k d : Nat) (r : Bool) (h1 : s.callers j = .rendezvous k r) (h2 : (s.colls k).pc = .wait d) :
      Step iv cap s (.meet j)
        { s with callers := upd s.callers j (after r), locked := false, colls := upd s.colls k { s.colls k with pc := .done } }
  /-- the receiver is gone, `send` returns an error that is ignored -/
  | meetDone (s : St) (j k : Nat) (r : Bool) (h1 : s.callers j = .rendezvous k r) (h2 : (s.colls k).pc = .done) :
      Step iv cap s (.meet j) { s with callers := upd s.callers j (after r), locked := false }
  /-- an old sender in the slot is dropped -/
  | store (s : St) (j : Nat) (h1 : s.callers j = .storing) (h2 : s.locked = false) :
      Step iv cap s (.store j)
        { s with callers := upd s.callers j .idle, slot := some s.n, n := s.n + 1,
                 colls := upd (dropSender s) s.n ⟨.wait (s.now + iv), true, s.callbacks⟩ }
  /-- the time is up or the sender has been dropped; a waiting sender is served first -/
  | timeout (s : St) (k d : Nat) (h1 : (s.colls k).pc = .wait d) (h2 : d ≤ s.now ∨ (s.colls k).live = false)
      (h3 : ¬ pending s k) :
      Step iv cap s (.timeout k) { s with colls := upd s.colls k { s.colls k with pc := .check } }
  | same (s : St) (k : Nat) (h1 : (s.colls k).pc = .check) (h2 : s.callbacks = (s.colls k).prev) :
      Step iv cap s (.check k) { s with colls := upd s.colls k { s.colls k with pc := .wait (s.now + iv) } }
  | news (s : St) (k : Nat) (h1 : (s.colls k).pc = .check) (h2 : s.callbacks ≠ (s.colls k).prev) :
      Step iv cap s (.check k) { s with colls := upd s.colls k { s.colls k with pc := .send s.callbacks } }
  /-- `send_event` waits while the queue is full; it does not fail, since the context owns a receiver
  (`/repo/src/context/concrete_base.rs` l.112) -/
  | send (s : St) (k m : Nat) (h1 : (s.colls k).pc = .send m) (h2 : s.queue.length < cap) :
      Step iv cap s (.send k)
        { s with queue := s.queue ++ [⟨k, (s.colls k).prev, m⟩], log := ⟨k, (s.colls k).prev, m⟩ :: s.log,
                 colls := upd s.colls k { s.colls k with pc := .wait (s.now + iv), prev := m } }
  /-- the event thread, when it is not in a handler -/
  | handle (s : St) (e : Ev) (q : List Ev) (h1 : s.callers 0 = .idle) (h2 : s.queue = e :: q) :
      Step iv cap s .handle { s with queue := q }
  | release (s : St) (h1 : ∀ j, s.callers j = .idle) :
      Step iv cap s .release { s with slot := none, colls := dropSender s }

/-- runs -/
inductive Run (iv cap : Nat) : St → List Act → St → Prop
  | nil (s : St) : Run iv cap s [] s
  | cons {s t u : St} {a : Act} {as : List Act} (h : Step iv cap s a t) (hr : Run iv cap t as u) :
      Run iv cap s (a :: as) u

end Verif.Capacity
