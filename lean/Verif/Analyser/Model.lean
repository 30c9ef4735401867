import Verif.Mix.Proofs

/-!
# Model of the ring of the analyser

Models `AnalyserRingBuffer::write` and `read` (`/repo/src/analysis.rs` l.75-127) and the renderer of the analyser
(`/repo/src/node/analyser.rs` l.265-291) running on two threads.

Memory: every slot of the ring is an `AtomicF32` accessed with `Relaxed`: it has a modification order, a load may
return any value in it that is not older than the newest value that happens before the load. The index is accessed
with `SeqCst`: a load returns the last stored value, and everything stored before that index happens before what
follows the load. `view` remembers how much of every slot happens before the published index.
-/

namespace Verif.Analyser

section
variable {K : Type}

/-- The ring. `size` is `RING_BUFFER_SIZE`. -/
structure Ring (K : Type) where
  /-- modification order of every slot, oldest first -/
  mem : Nat → List K
  /-- `write_index` -/
  index : Nat
  /-- samples stored since the index was published (the loop variable of `write`) -/
  k : Nat
  /-- per slot, how many values happen before the published index -/
  view : Nat → Nat

/-- `new`, l.85-93 -/
def Ring.new [Zero K] : Ring K := ⟨fun _ => [0], 0, 0, fun _ => 1⟩

/-- one iteration of the loop of `write`, l.100-103 -/
def Ring.store (size : Nat) (s : Ring K) (v : K) : Ring K :=
  { s with
    mem := fun p => if p = (s.index + s.k) % size then s.mem p ++ [v] else s.mem p
    k := s.k + 1 }

/-- the end of `write`, l.105-111 -/
def Ring.publish (size : Nat) (s : Ring K) : Ring K :=
  { s with
    index := let w := s.index + s.k; if size ≤ w then w - size else w
    k := 0
    view := fun p => (s.mem p).length }

/-- `write`, l.96-112, in one piece -/
def Ring.write (size : Nat) (s : Ring K) (src : List K) : Ring K := (src.foldl (Ring.store size) s).publish size

/-- Loads from the slot of sample number `i` in `read`, l.114-127: the index was loaded in the state `s`, the slot
is loaded in the later state `s'`. `v` is a possible result. -/
def CanLoad (size : Nat) (s s' : Ring K) (len i : Nat) (v : K) : Prop :=
  ∃ j, s.view ((size + s.index - len + i) % size) ≤ j + 1 ∧
    (s'.mem ((size + s.index - len + i) % size))[j]? = some v

/-- The down-mix of the renderer, `/repo/src/node/analyser.rs` l.279-286: a quantum is a list of frames. -/
def toMono [Field K] (r : K) (q : List (List K)) : List K := q.map fun f => (Mix.mixF r .speakers 1 f).getD 0 0

end

end Verif.Analyser
