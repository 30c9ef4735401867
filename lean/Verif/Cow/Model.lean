import Mathlib.Algebra.Group.Defs
import Mathlib.Data.List.Basic

/-!
# Model of the copy-on-write channel buffers and their pool

Models `/repo/src/render/quantum.rs` l.11-160: `Alloc`, `AllocInner`, `AudioRenderQuantumChannel`.

Memory is a function from addresses to buffer contents `V` (all 128 samples). `Rc::strong_count` is the
number of owners of an address: channel handles, entries of the pool and, for the buffer of zeroes
(address 0), the allocator. Handles are named by numbers. `Rc::new` yields an address that was never
used before (buffers are freed only together with the allocator, so that no address is used twice).
-/

namespace Verif.Cow

/-- `handles`: (name, address) of every live `AudioRenderQuantumChannel`; `pool`: `AllocInner::pool`,
top of the stack first; `next`: addresses from `next` on are unused. -/
structure St (V : Type) where
  mem : Nat → V
  handles : List (Nat × Nat)
  pool : List Nat
  next : Nat

inductive Op (V : Type) where
  /-- `Alloc::silence` / `AudioRenderQuantumChannel::silence`, new handle `h` -/
  | silence (h : Nat)
  /-- `clone` of handle `h` as handle `k` -/
  | clone (h k : Nat)
  /-- drop of handle `h` -/
  | drop (h : Nat)
  /-- mutation of the samples through handle `h` (`deref_mut`) -/
  | write (h : Nat) (f : V → V)
  /-- `h.add(&k)` -/
  | add (h k : Nat)

variable {V : Type} [Zero V] [Add V]

/-- address of a handle -/
def St.ptr (s : St V) (h : Nat) : Option Nat := (s.handles.find? fun x => x.1 == h).map (·.2)

/-- `Rc::strong_count` -/
def St.owners (s : St V) (p : Nat) : Nat :=
  s.handles.countP (fun x => x.2 == p) + s.pool.count p + (if p = 0 then 1 else 0)

/-- `Rc::new`: a new buffer with contents `v` -/
def St.new (s : St V) (v : V) : Nat × St V :=
  (s.next, { s with mem := fun p => if p = s.next then v else s.mem p, next := s.next + 1 })

/-- `AllocInner::allocate`, l.59-67; the result is owned by the caller only -/
def St.allocate (s : St V) : Nat × St V :=
  match s.pool with
  | p :: ps => (p, { s with pool := ps })
  | [] => s.new 0

def St.store (s : St V) (p : Nat) (v : V) : St V :=
  { s with mem := fun q => if q = p then v else s.mem q }

/-- let handle `h` point to `q` -/
def St.redirect (s : St V) (h q : Nat) : St V :=
  { s with handles := s.handles.map fun x => if x.1 = h then (x.1, q) else x }

/-- `Rc::make_mut` on a local variable that holds address `q`: owners other than the variable make it
allocate a copy. -/
def St.makeMutLocal (s : St V) (q : Nat) : Nat × St V :=
  if s.owners q = 0 then (q, s) else s.new (s.mem q)

/-- `AudioRenderQuantumChannel::make_mut`, l.96-104: makes the buffer of handle `h` (address `p`)
unique and returns its address. -/
def St.makeMut (s : St V) (h p : Nat) : Nat × St V :=
  let (p1, s1) :=
    if s.owners p ≠ 1 then
      let (q, s1) := s.allocate
      let (q, s2) := s1.makeMutLocal q
      (q, (s2.store q (s2.mem p)).redirect h q)
    else (p, s)
  -- Rc::make_mut(&mut self.data)
  if s1.owners p1 = 1 then (p1, s1)
  else
    let (q, s2) := s1.new (s1.mem p1)
    (q, s2.redirect h q)

/-- Mutation through a handle, l.140-144 -/
def St.write (s : St V) (h : Nat) (f : V → V) : St V :=
  match s.ptr h with
  | none => s
  | some p =>
    let (q, s1) := s.makeMut h p
    s1.store q (f (s1.mem q))

/-- `Drop`, l.152-160: the last owner gives the buffer to the pool. -/
def St.drop (s : St V) (h : Nat) : St V :=
  match s.ptr h with
  | none => s
  | some p =>
    { s with
      handles := s.handles.filter fun x => x.1 ≠ h
      pool := if s.owners p = 1 then p :: s.pool else s.pool }

/-- One operation. Names that do not exist (or exist already, for new handles) leave the state
unchanged; `h.add(&h)` is ruled out by the borrow checker. -/
def St.step (s : St V) : Op V → St V
  | .silence h => if (s.ptr h).isSome then s else { s with handles := (h, 0) :: s.handles }
  | .clone h k =>
    match s.ptr h with
    | some p => if (s.ptr k).isSome then s else { s with handles := (k, p) :: s.handles }
    | none => s
  | .drop h => s.drop h
  | .write h f => s.write h f
  | .add h k =>
    -- l.114-120
    match s.ptr h, s.ptr k with
    | some p, some q =>
      if h = k then s
      else if p = 0 then
        -- `*self = other.clone()`: drops the old value of the handle
        { s with handles := s.handles.map (fun x => if x.1 = h then (x.1, q) else x)
                 pool := if s.owners p = 1 then p :: s.pool else s.pool }
      else if q ≠ 0 then s.write h fun v => v + s.mem q
      else s
    | _, _ => s

/-- `Alloc::with_capacity`, l.23-35 -/
def St.init (n : Nat) : St V where
  mem := fun _ => 0
  handles := []
  pool := (List.range n).map (· + 1)
  next := n + 1

def St.run (s : St V) (ops : List (Op V)) : St V := ops.foldl St.step s

/-- samples seen through a handle, l.132-138 -/
def St.read (s : St V) (h : Nat) : Option V := (s.ptr h).map s.mem

/-- `is_silent`, l.109-111 -/
def St.isSilent (s : St V) (h : Nat) : Bool := s.ptr h == some 0

end Verif.Cow
