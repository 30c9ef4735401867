import Verif.Node.Quantum
import Mathlib.Algebra.Field.Basic
import Mathlib.Algebra.Order.Field.Basic
import Mathlib.Algebra.Order.Floor.Ring

/-!
# Dynamics compressor: delay line

Models the delay line of `DynamicsCompressorRenderer::process` (`/repo/src/node/dynamics_compressor.rs` l.331-478). The
computation of the gains is a parameter `G`: from the state of the detector and the input, the next state and the 128
gains (see `Verif.Compressor.Gain` for the one of the code). `R` is `ring_buffer.capacity()`; std only promises that it
is at least the requested size, here it is that size.
-/

namespace Verif.Compressor

open Verif.Node

/-- size of the ring, l.251-255; `N` is 128. Exact arithmetic. -/
def ringSize {K : Type} [Field K] [LinearOrder K] [FloorRing K] (sr : K) (N : Nat) : Nat :=
  ⌈sr * (6 / 1000) / N⌉.toNat + 1

section
variable {K D : Type} [Zero K] [Mul K]

/-- state of the renderer, l.309-319: `ring_buffer`, `ring_index`, `prev_detector_value` -/
structure Comp (K D : Type) where
  ring : List (Quantum K)
  idx : Nat
  det : D

/-- l.257-267 -/
def Comp.new (d : D) : Comp K D := ⟨[], 0, d⟩

/-- the ring is filled with silence before its first use, l.343-349 -/
def fill (R : Nat) (ring : List (Quantum K)) : List (Quantum K) :=
  ring ++ List.replicate (R - ring.length) silence

/-- a quantum times the gains, l.470-475 -/
def scale (N : Nat) (q : Quantum K) (g : List K) : Quantum K :=
  q.map fun c => some (List.zipWith (· * ·) (c.data N) g)

/-- `process`, l.331-478: state, output, and whether there is more to come. The panic of the indexing is not modelled,
the proofs show that the index is in range. -/
def Comp.step (R N : Nat) (G : D → Quantum K → D × List K) (s : Comp K D) (input : Quantum K) :
    Comp K D × Quantum K × Bool :=
  let g := G s.det input
  let ring := (fill R s.ring).set s.idx input
  let read := (s.idx + 1) % R
  let delayed := ring.getD read silence
  if isSilent delayed then (⟨ring, read, g.1⟩, silence, false)
  else (⟨ring, read, g.1⟩, scale N delayed g.2, true)

/-- quanta one after the other -/
def Comp.run (R N : Nat) (G : D → Quantum K → D × List K) (s : Comp K D) :
    List (Quantum K) → Comp K D × List (Quantum K × Bool)
  | [] => (s, [])
  | q :: qs =>
    let r := s.step R N G q
    ((Comp.run R N G r.1 qs).1, r.2 :: (Comp.run R N G r.1 qs).2)

/-- The end of a compressor whose handles are all dropped, from the first quantum without connected inputs: the graph
renders it with silent input until it returns `false`, then removes it (`can_free`, `/repo/src/render/graph.rs`
l.87-115, with an outgoing connection). The outputs, in at most `fuel` quanta. -/
def Comp.tail (R N : Nat) (G : D → Quantum K → D × List K) (s : Comp K D) : Nat → List (Quantum K)
  | 0 => []
  | fuel + 1 =>
    let r := s.step R N G silence
    if r.2.2 then r.2.1 :: Comp.tail R N G r.1 fuel else [r.2.1]

end

end Verif.Compressor
