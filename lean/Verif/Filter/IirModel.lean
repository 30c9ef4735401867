import Verif.Node.Quantum
import Mathlib.Algebra.Order.Ring.Rat
import Mathlib.Algebra.Field.Rat
import Mathlib.Algebra.BigOperators.Group.Finset.Basic
import Mathlib.Algebra.BigOperators.Ring.Finset
import Mathlib.Algebra.BigOperators.Intervals
import Mathlib.Tactic.Ring
import Mathlib.Tactic.FieldSimp

/-!
# Model of the IIR filter

Models `IirFilterRenderer::new` and `process` (`/repo/src/node/iir_filter.rs` l.282-413) in exact arithmetic: `f64`
rounding, the conversion to `f32` and the flushing of subnormal, infinite and undefined values to zero (l.393-395) are
not modelled here (see `Verif.Nan`), `is_normal` of l.343 is "not zero". `N` is the number of frames.
-/

namespace Verif.Filter

open Verif.Node

section
variable {K : Type} [Field K] [DecidableEq K]

/-- State of the renderer, l.268-273: normalised coefficients, per channel the state. Of the states only the active
entries are kept, one per coefficient. -/
structure Iir (K : Type) where
  coeffs : List (K × K)
  states : List (List K)

/-- `new`, l.282-320: both lists get the same length, all coefficients are divided by `a[0]`, two channels. -/
def Iir.new (b a : List K) : Iir K :=
  let b' := if b.length < a.length then (b ++ List.replicate (a.length - b.length) 0) else b
  let a' := if a.length < b.length then (a ++ List.replicate (b.length - a.length) 0) else a
  let a0 := a'.headD 0
  let cs := (b'.zip a').map fun p => (p.1 / a0, p.2 / a0)
  ⟨cs, [List.replicate cs.length 0, List.replicate cs.length 0]⟩

/-- the update of the states, l.398-401: entry `i` becomes `b[i+1] * x - a[i+1] * y + state[i+1]`, the last entry is
not written -/
def shift (x y : K) : List (K × K) → List K → List K
  | p :: cs, s0 :: s1 :: ss => (p.1 * x - p.2 * y + s1) :: shift x y cs (s1 :: ss)
  | _, ss => ss

/-- one sample of a channel, l.388-408 -/
def iirStep (cs : List (K × K)) (st : List K) (x : K) : List K × K :=
  let y := (cs.headD (0, 0)).1 * x + st.headD 0
  (shift x y cs.tail st, y)

/-- a channel, l.387-409 -/
def iirRun (cs : List (K × K)) : List K → List K → List K × List K
  | st, [] => (st, [])
  | st, x :: xs =>
    let r := iirStep cs st x
    let q := iirRun cs r.1 xs
    (q.1, r.2 :: q.2)

/-- `ended`, l.337-349 -/
def Iir.ended (f : Iir K) : Bool := f.states.all fun st => st.all fun v => decide (v = 0)

/-- change of the number of channels, l.363-370 -/
def Iir.resize (f : Iir K) (n : Nat) : List (List K) :=
  f.states.take n ++ List.replicate (n - f.states.length) (List.replicate f.coeffs.length 0)

/-- `process`, l.324-413. The third component is the return value. -/
def Iir.process (N : Nat) (f : Iir K) (input : Quantum K) : Iir K × Quantum K × Bool :=
  if isSilent input && f.ended then (f, silence, false)
  else
    let states := if isSilent input then f.states else f.resize input.length
    let rs := (List.range states.length).map fun c =>
      let ch := if isSilent input then input.headD none else input.getD c none
      iirRun f.coeffs (states.getD c []) (ch.data N)
    (⟨f.coeffs, rs.map (·.1)⟩, rs.map (fun r => some r.2), true)

/-- quantum after quantum -/
def Iir.run (N : Nat) : Iir K → List (Quantum K) → Iir K × List (Quantum K × Bool)
  | f, [] => (f, [])
  | f, q :: qs =>
    let r := f.process N q
    let s := Iir.run N r.1 qs
    (s.1, r.2 :: s.2)

end

end Verif.Filter
