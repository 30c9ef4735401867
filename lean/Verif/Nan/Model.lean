import Verif.Node.Quantum
import Verif.Filter.IirModel
import Mathlib.Algebra.Order.Field.Basic
import Mathlib.Algebra.Order.Ring.Rat

/-!
# Filters and samples that are not finite

Models the recursions of the IIR filter and the biquad filter (`/repo/src/node/iir_filter.rs` l.323-413,
`/repo/src/node/biquad_filter.rs` l.766-900) on floating point numbers with NaN and infinities, including the flushing of
values that are not normal. Finite numbers are exact (no rounding, no overflow, one zero); `t` is the smallest normal
number. Coefficients are finite.
-/

namespace Verif.Nan

open Verif.Node

/-- Floating point numbers with exact finite values. -/
inductive X (K : Type) where
  | nan
  | inf (neg : Bool)
  | fin (v : K)
deriving DecidableEq

instance {K : Type} [Zero K] : Zero (X K) := ⟨.fin 0⟩

section
variable {K : Type} [Field K] [LinearOrder K]

/-- `+` of IEEE 754 -/
def X.add : X K → X K → X K
  | .fin a, .fin b => .fin (a + b)
  | .nan, _ => .nan
  | _, .nan => .nan
  | .inf s, .inf t => if s = t then .inf s else .nan
  | .inf s, .fin _ => .inf s
  | .fin _, .inf s => .inf s

/-- negation -/
def X.neg : X K → X K
  | .nan => .nan
  | .inf s => .inf !s
  | .fin a => .fin (-a)

/-- `-` of IEEE 754 -/
def X.sub (a b : X K) : X K := a.add b.neg

/-- `*` of IEEE 754 -/
def X.mul : X K → X K → X K
  | .fin a, .fin b => .fin (a * b)
  | .nan, _ => .nan
  | _, .nan => .nan
  | .inf s, .inf t => .inf (xor s t)
  | .inf s, .fin b => if b = 0 then .nan else .inf (xor s (decide (b < 0)))
  | .fin a, .inf t => if a = 0 then .nan else .inf (xor (decide (a < 0)) t)

/-- `is_normal` -/
def X.isNormal (t : K) : X K → Bool
  | .fin v => decide (v ≠ 0 ∧ t ≤ |v|)
  | _ => false

/-- values that are not normal become zero: `iir_filter.rs` l.393-395, `biquad_filter.rs` l.881-883 -/
def X.flush (t : K) (x : X K) : X K := if x.isNormal t then x else .fin 0

/-- `as f32` as far as large numbers are concerned; `M` is `f32::MAX` (what rounds to it is not taken into account) -/
def X.narrow (M : K) : X K → X K
  | .fin v => if M < |v| then .inf (decide (v < 0)) else .fin v
  | x => x

/-! ### IIR filter -/

/-- the update of the states, `iir_filter.rs` l.398-401 -/
def shiftX (x y : X K) : List (K × K) → List (X K) → List (X K)
  | p :: cs, _ :: s1 :: ss => ((X.fin p.1).mul x |>.sub ((X.fin p.2).mul y) |>.add s1) :: shiftX x y cs (s1 :: ss)
  | _, ss => ss

/-- one sample, l.386-409 -/
def iirStepX (t : K) (cs : List (K × K)) (st : List (X K)) (x : X K) : List (X K) × X K :=
  let y := (((X.fin (cs.headD (0, 0)).1).mul x).add (st.headD 0)).flush t
  (shiftX x y cs.tail st, y)

/-- one channel, l.386-409 -/
def iirRunX (t : K) (cs : List (K × K)) : List (X K) → List (X K) → List (X K) × List (X K)
  | st, [] => (st, [])
  | st, x :: xs =>
    let r := iirStepX t cs st x
    let q := iirRunX t cs r.1 xs
    (q.1, r.2 :: q.2)

/-! ### biquad filter -/

/-- `Coefficients`, `biquad_filter.rs` l.18-26 -/
structure Coef (K : Type) where
  b0 : K
  b1 : K
  b2 : K
  a1 : K
  a2 : K

/-- the state of a channel, `[x1, x2, y1, y2]` -/
structure BQ (K : Type) where
  x1 : X K
  x2 : X K
  y1 : X K
  y2 : X K
deriving DecidableEq

/-- one sample, `biquad_filter.rs` l.871-891 -/
def bqStep (t : K) (c : Coef K) (s : BQ K) (x : X K) : BQ K × X K :=
  let y := ((X.fin c.b0).mul x |>.add ((X.fin c.b1).mul s.x1) |>.add ((X.fin c.b2).mul s.x2)
    |>.sub ((X.fin c.a1).mul s.y1) |>.sub ((X.fin c.a2).mul s.y2)).flush t
  (⟨x, s.x1, y, s.y1⟩, y)

/-- one channel, `biquad_filter.rs` l.857-896 -/
def bqRun (t : K) : List (Coef K) → BQ K → List (X K) → BQ K × List (X K)
  | c :: cs, s, x :: xs =>
    let r := bqStep t c s x
    let q := bqRun t cs r.1 xs
    (q.1, r.2 :: q.2)
  | _, s, _ => (s, [])

/-! ### the nodes -/

/-- What the two nodes have in common: states of the channels at rest and otherwise, a run over the samples of a quantum
(`κ` are the coefficients of the quantum), whether a state has something left (a normal value). -/
structure Filt (K κ σ : Type) where
  zero : σ
  run : κ → σ → List (X K) → σ × List (X K)
  live : σ → Bool

/-- the IIR filter, `iir_filter.rs` l.283-318 and l.336-351 -/
def iirFilt (t : K) (cs : List (K × K)) : Filt K Unit (List (X K)) where
  zero := List.replicate cs.length 0
  run _ := iirRunX t cs
  live st := st.any (·.isNormal t)

/-- the biquad filter, `biquad_filter.rs` l.778-787 -/
def bqFilt (t : K) : Filt K (List (Coef K)) (BQ K) where
  zero := ⟨0, 0, 0, 0⟩
  run := bqRun t
  live s := s.x1.isNormal t || s.x2.isNormal t || s.y1.isNormal t || s.y2.isNormal t

/-- `process`, `iir_filter.rs` l.323-413, `biquad_filter.rs` l.766-900: states, output, return value -/
def Filt.process {κ σ : Type} (f : Filt K κ σ) (N : Nat) (states : List σ) (k : κ) (input : Quantum (X K)) :
    List σ × Quantum (X K) × Bool :=
  if isSilent input && !(states.any f.live) then (states, silence, false)
  else
    let states := if isSilent input then states
      else states.take input.length ++ List.replicate (input.length - states.length) f.zero
    let rs := (List.range states.length).map fun c =>
      let ch := if isSilent input then input.headD none else input.getD c none
      f.run k (states.getD c f.zero) (Chan.data N ch)
    (rs.map (·.1), rs.map (fun r => some r.2), true)

/-- quantum after quantum -/
def Filt.runs {κ σ : Type} (f : Filt K κ σ) (N : Nat) : List σ → List (κ × Quantum (X K)) →
    List σ × List (Quantum (X K))
  | states, [] => (states, [])
  | states, q :: qs =>
    let r := f.process N states q.1 q.2
    let s := Filt.runs f N r.1 qs
    (s.1, r.2.1 :: s.2)

end

end Verif.Nan
