import Verif.Mix.Proofs
import Mathlib.Algebra.Order.Floor.Ring
import Mathlib.Algebra.Order.Field.Basic

/-!
# Model of the delay node

Models `DelayWriter` and `DelayReader` (`/repo/src/node/delay.rs` l.283-743): the two processors that share a ring
of quanta.

A quantum is a function from frame numbers to frames, a frame has one sample per channel. Samples and times are
elements of an ordered field, computed with exactly; `is_normal` is "not zero". `N` is `RENDER_QUANTUM_SIZE`. The
ring has any capacity (`Vec::with_capacity(n)` gives at least `n`). It is filled with silence when it is used first
(l.386-398); the model starts with the filled ring. The channel mixing is the one of `Verif.Mix`. Index out of
bounds: `none`.
-/

namespace Verif.Delay

abbrev Quantum (K : Type) := Nat → List K

section
variable {K : Type} [Field K] [LinearOrder K] [FloorRing K]

def silence (c : Nat) : Quantum K := fun _ => List.replicate c 0

/-- `number_of_channels` -/
def chansOf (q : Quantum K) : Nat := (q 0).length

/-- sample rate, size of quanta, `√½` of the mixing rules -/
structure Env (K : Type) where
  sr : K
  N : Nat
  r : K

/-- Both processors, l.376-381 and l.491-500, and the current quantum of the scope. -/
structure St (K : Type) where
  ring : List (Quantum K)
  writeIndex : Nat := 0
  readIndex : Nat := 0
  /-- `latest_frame_written`, counted in quanta -/
  latest : Option Nat := none
  inCycle : Bool := false
  lastWritten : Option Nat := none
  lastChecked : Option Nat := none
  now : Nat := 0

/-- l.283-368; the capacity is that of the ring -/
def St.new (cap : Nat) : St K := { ring := List.replicate cap (silence 1) }

/-- `num_quanta + 1`, l.300-302 -/
def ringSize (e : Env K) (maxDelay : K) : Nat := ⌈maxDelay * e.sr / e.N⌉.toNat + 1

/-- `check_ring_buffer_up_down_mix`, l.470-488 -/
def remix (e : Env K) (ring : List (Quantum K)) (c : Nat) : List (Quantum K) :=
  if chansOf (ring.headD (silence 1)) = c then ring
  else ring.map fun q i => Mix.mixF e.r .speakers c (q i)

/-- `DelayWriter::process`, l.428-461 -/
def St.write (e : Env K) (s : St K) (input : Quantum K) : Option (St K) :=
  let ring := remix e s.ring (chansOf input)
  if s.writeIndex < ring.length then
    some { s with
      ring := ring.set s.writeIndex input
      writeIndex := (s.writeIndex + 1) % ring.length
      latest := some s.now }
  else none

/-- `Drop for DelayWriter`, l.409-419 -/
def St.drop (s : St K) : St K :=
  { s with lastWritten := some (if s.writeIndex = 0 then s.ring.length - 1 else s.writeIndex - 1) }

/-- `PlaybackInfo`: block, frame, fraction -/
structure Info (K : Type) where
  block : Nat
  frame : Nat
  k : K

/-- `get_playback_infos`, l.688-743; `none` stands for a negative index. The quotient of whole numbers rounded down
is the integer division of Lean, the remainder with the sign of the dividend is `Int.tmod`. -/
def playInfo (e : Env K) (inCycle : Bool) (size index : Nat) (i : Nat) (delay : K) : Option (Info K) :=
  let clamped := if inCycle then max delay (e.N * (1 / e.sr)) else delay
  let position := (i : K) - clamped * e.sr
  let floored := ⌊position⌋
  let block := (index : Int) + floored / (e.N : Int)
  let block := if block < 0 then block + size else block
  let off := Int.tmod floored e.N
  let off := if off = 0 then -(e.N : Int) else off
  let frame := if off ≤ 0 then (e.N : Int) + off else off
  if block < 0 ∨ frame < 0 then none else some ⟨block.toNat, frame.toNat, position - floored⟩

/-- The next frame in the ring, l.571-577 and l.626-632. -/
def nextFrame (e : Env K) (size block frame : Nat) : Nat × Nat :=
  if e.N ≤ frame + 1 then ((block + 1) % size, 0) else (block, frame + 1)

/-- l.553-584: the first info computed, the others by counting -/
def count (e : Env K) (size : Nat) : Nat → Info K → List (Info K)
  | 0, _ => []
  | n + 1, p =>
    let f := nextFrame e size p.block p.frame
    p :: count e size n ⟨f.1, f.2, p.k⟩

/-- l.551-601: all infos of a quantum. A parameter has one value or one for every frame. -/
def infos (e : Env K) (inCycle : Bool) (size index : Nat) (delays : List K) : Option (List (Info K)) :=
  match delays with
  | [d] => (playInfo e inCycle size index 0 d).map fun p => count e size e.N p
  | _ => delays.zipIdx.mapM fun p => playInfo e inCycle size index p.2 p.1

/-- the frame of a block of the ring; all channels of the output are read: fewer channels are out of bounds -/
def frameAt (e : Env K) (ring : List (Quantum K)) (channels block frame : Nat) : Option (List K) :=
  (ring[block]?).bind fun q => if frame < e.N ∧ channels ≤ chansOf q then some (q frame) else none

/-- One frame of the output, l.610-660. -/
def outFrame (e : Env K) (ring : List (Quantum K)) (channels : Nat) (p : Info K) : Option (List K) :=
  let f := nextFrame e ring.length p.block p.frame
  (frameAt e ring channels p.block p.frame).bind fun a =>
    (frameAt e ring channels f.1 f.2).map fun b =>
      (List.range channels).map fun c => (1 - p.k) * a.getD c 0 + p.k * b.getD c 0

/-- `DelayReader::process`, l.515-683: the output (a list of frames), the return value, the state. -/
def St.read (e : Env K) (s : St K) (delays : List K) : Option (List (List K) × Bool × St K) :=
  let inCycle := s.inCycle || decide (s.latest ≠ some s.now)
  let channels := chansOf (s.ring.headD (silence 1))
  (infos e inCycle s.ring.length s.readIndex delays).bind fun ps =>
    (ps.mapM (outFrame e s.ring channels)).map fun out =>
      let out := if out.all (fun f => f.all fun x => x = 0) then List.replicate e.N [0] else out
      if s.lastChecked = some s.readIndex then (out, false, { s with inCycle := inCycle })
      else
        (out, true, { s with
          inCycle := inCycle
          lastChecked := if s.lastWritten.isSome ∧ s.lastChecked = none then s.lastWritten else s.lastChecked
          readIndex := (s.readIndex + 1) % s.ring.length })

/-! ## Histories -/

/-- One quantum: with both processors, in one of the two orders, or with the reader only. -/
inductive Turn (K : Type) where
  /-- the writer is processed before the reader -/
  | forward (input : Quantum K) (delays : List K)
  /-- the node is in a cycle, its edge is cut, the reader is processed before the writer -/
  | cycle (input : Quantum K) (delays : List K)
  /-- the writer is gone -/
  | alone (delays : List K)

def St.tick (s : St K) : St K := { s with now := s.now + 1 }

/-- A quantum: output and return value of the reader. -/
def St.turn (e : Env K) (s : St K) : Turn K → Option (List (List K) × Bool × St K)
  | .forward q d => (s.write e q).bind fun s => (s.read e d).map fun r => (r.1, r.2.1, r.2.2.tick)
  | .cycle q d => (s.read e d).bind fun r => (r.2.2.write e q).map fun s => (r.1, r.2.1, s.tick)
  | .alone d => (s.read e d).map fun r => (r.1, r.2.1, r.2.2.tick)

/-- the outputs of a number of quanta -/
def St.run (e : Env K) : St K → List (Turn K) → Option (List (List (List K) × Bool) × St K)
  | s, [] => some ([], s)
  | s, t :: ts =>
    (s.turn e t).bind fun r => (St.run e r.2.2 ts).map fun q => ((r.1, r.2.1) :: q.1, q.2)

end

end Verif.Delay
