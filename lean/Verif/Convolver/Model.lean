import Verif.Node.Quantum
import Mathlib.Algebra.BigOperators.Group.List.Basic
import Mathlib.Algebra.Ring.Defs

/-!
# Convolver

Models `ConvolverRenderer` (`/repo/src/node/convolver.rs` l.330-509) and `ConvolverNode::set_buffer` (l.259-317). The crate
`fft_convolver` is not part of the repository: `Engine` is what its documentation promises, a causal convolution of all the
samples that it was fed, computed exactly. `N` is the number of frames of a quantum.
-/

namespace Verif.Convolver

open Verif.Node

section
variable {K : Type} [Semiring K]

/-- `FFTConvolver`: the impulse response, and the samples so far, the newest first -/
structure Engine (K : Type) where
  ir : List K
  past : List K

/-- one sample -/
def Engine.feed1 (e : Engine K) (x : K) : Engine K × K :=
  (⟨e.ir, x :: e.past⟩, (List.zipWith (· * ·) e.ir (x :: e.past)).sum)

/-- `FFTConvolver::process` -/
def Engine.feed (e : Engine K) : List K → Engine K × List K
  | [] => (e, [])
  | x :: xs => (((e.feed1 x).1.feed xs).1, (e.feed1 x).2 :: ((e.feed1 x).1.feed xs).2)

/-- `ConvolverRenderer`, l.336-341 -/
structure Conv (K : Type) where
  engines : Option (List (Engine K))
  len : Nat
  chans : Nat
  tail : Nat

/-- l.223-228 -/
def Conv.new : Conv K := ⟨none, 0, 0, 0⟩

/-- The engines that `set_buffer` makes, l.284-307, of the channels of the buffer; `scale` is the result of
`normalize_buffer`, or one, l.277-282. The checks of the rate and the number of channels are in `Verif.Valid`. -/
def makeEngines (buffer : List (List K)) (scale : K) : List (Engine K) :=
  (List.range (max buffer.length 2)).map fun i =>
    ⟨(buffer.getD (min i (buffer.length - 1)) []).map (· * scale), []⟩

/-- `onmessage`, l.492-509, with the message of `set_buffer`, l.309-315 -/
def Conv.setBuffer (s : Conv K) (buffer : List (List K)) (scale : K) : Conv K :=
  ⟨some (makeEngines buffer scale), (buffer.headD []).length, buffer.length, s.tail⟩

/-- Which channel of the input goes to which engine, l.378-487: the `i`-th engine gets the `i`-th of these. `none` is
`unreachable!`. -/
def plan (inputs chans : Nat) : Option (List Nat) :=
  if inputs = 1 ∧ chans = 1 then some [0]
  else if inputs = 1 ∧ chans = 2 then some [0, 0]
  else if inputs = 2 ∧ chans = 1 then some [0, 1]
  else if inputs = 2 ∧ chans = 2 then some [0, 1]
  else if inputs = 2 ∧ chans = 4 then some [0, 0, 1, 1]
  else if inputs = 1 ∧ chans = 4 then some [0, 0, 0, 0]
  else none

/-- the outputs of the engines to the output, l.436-452, l.468-484 -/
def mixDown (chans : Nat) (outs : List (List K)) : Quantum K :=
  if chans = 4 then
    [some (List.zipWith (· + ·) (outs.getD 0 []) (outs.getD 2 [])),
     some (List.zipWith (· + ·) (outs.getD 1 []) (outs.getD 3 []))]
  else outs.map some

/-- samples of channel `c` of the input -/
def chan (N : Nat) (q : Quantum K) (c : Nat) : List K := (q.getD c none : Chan K).data N

/-- `process`, l.344-490; `none` is a panic -/
def Conv.step (N : Nat) (s : Conv K) (q : Quantum K) : Option (Conv K × Quantum K × Bool) :=
  if isSilent q ∧ s.len ≤ s.tail then some (s, silence, false)
  else
    let tail := if isSilent q then s.tail + N else 0
    match s.engines with
    | none => some ({ s with tail := tail }, q, !isSilent q)
    | some es =>
      match plan q.length s.chans with
      | none => none
      | some pl =>
        if es.length < pl.length then none
        else
          let es' := List.zipWith (fun e c => (e.feed (chan N q c)).1) es pl ++ es.drop pl.length
          let outs := List.zipWith (fun e c => (e.feed (chan N q c)).2) es pl
          some ({ s with engines := some es', tail := tail }, mixDown s.chans outs, true)

/-- quanta one after the other -/
def Conv.run (N : Nat) (s : Conv K) : List (Quantum K) → Option (Conv K × List (Quantum K × Bool))
  | [] => some (s, [])
  | q :: qs =>
    match s.step N q with
    | none => none
    | some (s', o) =>
      match Conv.run N s' qs with
      | none => none
      | some (s'', os) => some (s'', o :: os)

end

end Verif.Convolver
