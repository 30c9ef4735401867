import Verif.Compressor.Props
import Mathlib.Analysis.SpecialFunctions.Log.Base
import Mathlib.Analysis.SpecialFunctions.Pow.Real
import Mathlib.Tactic.FieldSimp
import Mathlib.Tactic.Ring
import Mathlib.Tactic.NormNum
import Mathlib.Tactic.Linarith
import Mathlib.Tactic.Positivity

/-!
# Dynamics compressor: gains

The gains of `DynamicsCompressorRenderer::process` (`/repo/src/node/dynamics_compressor.rs` l.351-450) over the reals;
no rounding, no NaN.
-/

namespace Verif.Compressor

open Verif.Node

noncomputable section

/-- `db_to_lin`, l.13-16 -/
def dbToLin (v : ℝ) : ℝ := (10 : ℝ) ^ (v / 20)

/-- `lin_to_db`, l.18-27 -/
def linToDb (v : ℝ) : ℝ := if v = 0 then -1000 else 20 * Real.logb 10 v

/-- the parameters of a quantum, l.353-355, l.376-377 -/
structure Params where
  threshold : ℝ
  knee : ℝ
  ratio : ℝ
  attack : ℝ
  release : ℝ

/-- the ranges to which the params are clamped, l.189-247 -/
structure Params.Valid (p : Params) : Prop where
  threshold : -100 ≤ p.threshold ∧ p.threshold ≤ 0
  knee : 0 ≤ p.knee ∧ p.knee ≤ 40
  ratio : 1 ≤ p.ratio ∧ p.ratio ≤ 20
  attack : 0 ≤ p.attack ∧ p.attack ≤ 1
  release : 0 ≤ p.release ∧ p.release ≤ 1

/-- the shifted threshold, l.366-370 -/
def Params.center (p : Params) : ℝ := if 0 < p.knee then p.threshold + p.knee / 2 else p.threshold

/-- the compression curve in dB, l.371-373 and l.417-423 -/
def Params.curve (p : Params) (x : ℝ) : ℝ :=
  if x ≤ p.center - p.knee / 2 then x
  else if x ≤ p.center + p.knee / 2 then
    x + (x - p.center + p.knee / 2) ^ 2 * ((1 / p.ratio - 1) / (2 * p.knee))
  else p.center + (x - p.center) / p.ratio

/-- a time constant, l.378-379: `exp (-1 / 0)` is `exp (-∞) = 0` -/
def tau (time sr : ℝ) : ℝ := if time * sr = 0 then 0 else Real.exp (-1 / (time * sr))

/-- the makeup gain in dB, l.387-389 -/
def Params.makeup (p : Params) : ℝ :=
  linToDb ((1 / dbToLin (p.center + -p.center / p.ratio)) ^ (0.6 : ℝ))

/-- the level of a frame: the largest absolute value over the channels, l.400-407; `f32::MIN` to begin with -/
def level (l : List ℝ) : ℝ :=
  l.foldl (fun m s => if m < |s| then |s| else m) (-((2 - 1 / 2 ^ 23) * 2 ^ 127))

/-- the attenuation that the curve asks for, in dB, l.411-425 -/
def Params.attenuation (p : Params) (l : List ℝ) : ℝ :=
  linToDb (level l) - p.curve (linToDb (level l))

/-- the level detector, l.431-436 -/
def Params.detect (p : Params) (sr d a : ℝ) : ℝ :=
  if d < a then tau p.attack sr * d + (1 - tau p.attack sr) * a
  else tau p.release sr * d + (1 - tau p.release sr) * a

/-- the frames of a quantum, l.397-445: the detector, and the gains in dB -/
def Params.frames (p : Params) (sr d : ℝ) : List (List ℝ) → ℝ × List ℝ
  | [] => (d, [])
  | l :: ls =>
    let d' := p.detect sr d (p.attenuation l)
    ((Params.frames p sr d' ls).1, (-d' + p.makeup) :: (Params.frames p sr d' ls).2)

/-- frame `i` of a quantum, l.402-403 -/
def frameOf (N : Nat) (q : Quantum ℝ) (i : Nat) : List ℝ := q.map fun c => (c.data N).getD i 0

/-- The gain stage, l.351-450; `p` are the params, which are k-rate, by quantum. -/
def gainStage (p : Nat → Params) (sr : ℝ) (N : Nat) : Nat × ℝ → Quantum ℝ → (Nat × ℝ) × List ℝ := fun s q =>
  let r := (p s.1).frames sr s.2 ((List.range N).map (frameOf N q))
  ((s.1 + 1, r.1), r.2.map dbToLin)

/-- the value of `reduction` after a quantum, l.393, l.440, l.450 -/
def reductionOf (p : Params) (sr d : ℝ) (ls : List (List ℝ)) : ℝ := (p.frames sr d ls).2.getLastD 0

end

end Verif.Compressor
