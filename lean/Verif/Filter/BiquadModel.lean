import Verif.Node.Quantum
import Mathlib.Analysis.SpecialFunctions.Trigonometric.Basic
import Mathlib.Analysis.SpecialFunctions.Pow.Real
import Mathlib.Analysis.SpecialFunctions.Sqrt
import Mathlib.Analysis.SpecialFunctions.Complex.Circle

/-!
# Model of the biquad filter

Models the coefficients, the frequency response and the recursion of `/repo/src/node/biquad_filter.rs` (l.18-373,
l.670-742, l.765-899) over the reals: rounding, and the flushing of subnormal, infinite and undefined values to zero
(l.881-883), are not modelled here (see `Verif.Nan`), `is_normal` of l.784 is "not zero".
-/

namespace Verif.Filter

open Real

/-- `Coefficients`, l.18-25; `a0` is 1 -/
structure Coefs where
  b0 : ℝ
  b1 : ℝ
  b2 : ℝ
  a1 : ℝ
  a2 : ℝ

/-- `normalize_coefs`, l.28-38 -/
noncomputable def normalize (b0 b1 b2 a0 a1 a2 : ℝ) : Coefs :=
  let scale := 1 / a0
  ⟨b0 * scale, b1 * scale, b2 * scale, a1 * scale, a2 * scale⟩

/-- `get_lowpass_coefs`, l.40-66 -/
noncomputable def lowpass (freq q : ℝ) : Coefs :=
  if freq = 1 then ⟨1, 0, 0, 0, 0⟩
  else
    let w0 := π * freq
    let alpha := sin w0 / (2 * (10 : ℝ) ^ (q / 20))
    let c := cos w0
    let beta := (1 - c) / 2
    normalize beta (2 * beta) beta (1 + alpha) (-2 * c) (1 - alpha)

/-- `get_highpass_coefs`, l.68-104 -/
noncomputable def highpass (freq q : ℝ) : Coefs :=
  if freq = 1 then ⟨0, 0, 0, 0, 0⟩
  else if freq = 0 then ⟨1, 0, 0, 0, 0⟩
  else
    let w0 := π * freq
    let alpha := sin w0 / (2 * (10 : ℝ) ^ (q / 20))
    let c := cos w0
    let beta := (1 + c) / 2
    normalize beta (-2 * beta) beta (1 + alpha) (-2 * c) (1 - alpha)

/-- `get_bandpass_coefs`, l.106-143 -/
noncomputable def bandpass (freq q : ℝ) : Coefs :=
  if 0 < freq ∧ freq < 1 then
    if 0 < q then
      let w0 := π * freq
      let alpha := sin w0 / (2 * q)
      let c := cos w0
      normalize alpha 0 (-alpha) (1 + alpha) (-2 * c) (1 - alpha)
    else ⟨1, 0, 0, 0, 0⟩
  else ⟨0, 0, 0, 0, 0⟩

/-- `get_notch_coefs`, l.145-181 -/
noncomputable def notch (freq q : ℝ) : Coefs :=
  if 0 < freq ∧ freq < 1 then
    if 0 < q then
      let w0 := π * freq
      let alpha := sin w0 / (2 * q)
      let c := cos w0
      normalize 1 (-2 * c) 1 (1 + alpha) (-2 * c) (1 - alpha)
    else ⟨0, 0, 0, 0, 0⟩
  else ⟨1, 0, 0, 0, 0⟩

/-- `get_allpass_coefs`, l.183-217 -/
noncomputable def allpass (freq q : ℝ) : Coefs :=
  if 0 < freq ∧ freq < 1 then
    if 0 < q then
      let w0 := π * freq
      let alpha := sin w0 / (2 * q)
      let c := cos w0
      normalize (1 - alpha) (-2 * c) (1 + alpha) (1 + alpha) (-2 * c) (1 - alpha)
    else ⟨-1, 0, 0, 0, 0⟩
  else ⟨1, 0, 0, 0, 0⟩

/-- `get_peaking_coefs`, l.219-259 -/
noncomputable def peaking (freq q gain : ℝ) : Coefs :=
  let A := (10 : ℝ) ^ (gain / 40)
  if 0 < freq ∧ freq < 1 then
    if 0 < q then
      let w0 := π * freq
      let alpha := sin w0 / (2 * q)
      let c := cos w0
      normalize (1 + alpha * A) (-2 * c) (1 - alpha * A) (1 + alpha / A) (-2 * c) (1 - alpha / A)
    else ⟨A * A, 0, 0, 0, 0⟩
  else ⟨1, 0, 0, 0, 0⟩

/-- `get_lowshelf_coefs`, l.261-300 -/
noncomputable def lowshelf (freq gain : ℝ) : Coefs :=
  let A := (10 : ℝ) ^ (gain / 40)
  if freq = 1 then ⟨A * A, 0, 0, 0, 0⟩
  else if freq = 0 then ⟨1, 0, 0, 0, 0⟩
  else
    let w0 := π * freq
    let c := cos w0
    let alphaS := sin w0 / 2 * √2
    let t := 2 * alphaS * √A
    let p := A + 1
    let m := A - 1
    normalize (A * (p - m * c + t)) (2 * A * (m - p * c)) (A * (p - m * c - t)) (p + m * c + t) (-2 * (m + p * c))
      (p + m * c - t)

/-- `get_highshelf_coefs`, l.302-341 -/
noncomputable def highshelf (freq gain : ℝ) : Coefs :=
  let A := (10 : ℝ) ^ (gain / 40)
  if freq = 1 then ⟨1, 0, 0, 0, 0⟩
  else if 0 < freq then
    let w0 := π * freq
    let c := cos w0
    let alphaS := sin w0 / 2 * √2
    let t := 2 * alphaS * √A
    let p := A + 1
    let m := A - 1
    normalize (A * (p + m * c + t)) (-2 * A * (m + p * c)) (A * (p + m * c - t)) (p - m * c + t) (2 * (m - p * c))
      (p - m * c - t)
  else ⟨A * A, 0, 0, 0, 0⟩

/-- `BiquadFilterType` -/
inductive FilterType
  | lowpass | highpass | bandpass | notch | allpass | peaking | lowshelf | highshelf
  deriving DecidableEq

/-- `calculate_coefs`, l.343-364 -/
noncomputable def calculateCoefs (ty : FilterType) (sampleRate f0 gain q : ℝ) : Coefs :=
  let nyquist := sampleRate / 2
  let f := max 0 (min 1 (f0 / nyquist))
  match ty with
  | .lowpass => lowpass f q
  | .highpass => highpass f q
  | .bandpass => bandpass f q
  | .notch => notch f q
  | .allpass => allpass f q
  | .peaking => peaking f q gain
  | .lowshelf => lowshelf f gain
  | .highshelf => highshelf f gain

/-- `get_computed_freq`, l.367-373 -/
noncomputable def computedFreq (freq detune : ℝ) : ℝ := if detune ≠ 0 then freq * 2 ^ (detune / 1200) else freq

/-- The response of `get_frequency_response` at the angle `w` (`-PI * f` in l.730), l.728-734. -/
noncomputable def response (k : Coefs) (w : ℝ) : ℂ :=
  let z : ℂ := Complex.exp (-(w : ℂ) * Complex.I)
  (k.b0 + (k.b1 + k.b2 * z) * z) / (1 + (k.a1 + k.a2 * z) * z)

/-! ### the recursion -/

open Verif.Node

/-- the state of a channel, `[x1, x2, y1, y2]` -/
structure XY where
  x1 : ℝ
  x2 : ℝ
  y1 : ℝ
  y2 : ℝ

/-- a channel at rest -/
def XY.zero : XY := ⟨0, 0, 0, 0⟩

/-- one sample, l.872-891 -/
def XY.step (s : XY) (k : Coefs) (x : ℝ) : XY × ℝ :=
  let y := k.b0 * x + k.b1 * s.x1 + k.b2 * s.x2 - k.a1 * s.y1 - k.a2 * s.y2
  (⟨x, s.x1, y, s.y1⟩, y)

/-- a channel, l.857-895: samples zipped with coefficients -/
def XY.run : XY → List Coefs → List ℝ → XY × List ℝ
  | s, k :: ks, x :: xs =>
    let r := s.step k x
    let q := XY.run r.1 ks xs
    (q.1, r.2 :: q.2)
  | s, _, _ => (s, [])

open Classical in
/-- `process`, l.765-899: states, output, and whether the node wants to be kept. `coefs` is the list of coefficients
of the frames of this quantum (l.818-855). -/
noncomputable def biquad (N : Nat) (xy : List XY) (coefs : List Coefs) (input : Quantum ℝ) :
    List XY × Quantum ℝ × Bool :=
  if isSilent input = true ∧ (∀ s ∈ xy, s = XY.zero) then (xy, silence, false)
  else
    let states := if isSilent input then xy
      else xy.take input.length ++ List.replicate (input.length - xy.length) XY.zero
    let rs := (List.range states.length).map fun c =>
      let ch := if isSilent input then input.headD none else input.getD c none
      (states.getD c XY.zero).run coefs (ch.data N)
    (rs.map (·.1), rs.map (fun r => some r.2), true)

end Verif.Filter
