import Mathlib.Algebra.Order.Field.Basic
import Mathlib.Algebra.Order.Floor.Ring
import Mathlib.Order.WithBot

/-!
# Model of the oscillator

Models `OscillatorNode` (`new`, `start_at`, `stop_at`, `set_type`, `set_periodic_wave`,
`/repo/src/node/oscillator.rs` l.179-200, l.210-274, l.314-337) and `OscillatorRenderer` (l.365-676).

Times are computed exactly. The arithmetic of the phase (increment, first phase, sum, unrolling, position in the table) takes
the rounding function `rd`: the identity for exact arithmetic, rounding to 53 bits for `f64`. `⊤` stands for `f64::MAX`. The computed frequency (l.30-32) is the function
`comp` of frequency and detune. Panics are `none`. Not modelled: the rounding of the samples, which are
computed from the phase exactly, and their conversion to `f32`.
-/

namespace Verif.Source

/-- `OscillatorType`, l.71-83 -/
inductive OscType
  | sine | square | sawtooth | triangle | custom
  deriving DecidableEq

section
variable {K : Type} [Field K] [LinearOrder K] [FloorRing K]

/-- `hasStart` and `ctrlType` of the control side, the renderer (l.341-362), the frame counter of the context. Ghost:
`events`, the number of ended events sent. -/
structure Osc (K : Type) where
  hasStart : Bool := false
  ctrlType : OscType
  ty : OscType
  wave : Option (List K) := none
  phase : K
  start : WithTop K := ⊤
  stop : WithTop K := ⊤
  started : Bool := false
  ended : Bool := false
  frame : Nat := 0
  events : Nat := 0

/-- `new`, l.210-274: the renderer is created with the type of the options; the wave of the options is then set. -/
def Osc.new (ty : OscType) (wave : Option (List K)) : Osc K :=
  match wave with
  | none => { ctrlType := ty, ty := ty, phase := 0 }
  | some w => { ctrlType := .custom, ty := .custom, wave := some w, phase := 0 }

/-- `unroll_phase`, l.662-670 -/
def unroll (rd : K → K) (p : K) : K := if 1 ≤ p then rd (p - 1) else if p < 0 then rd (p + 1) else p

/-- `unroll_phase_unbounded`, l.673-675: `rem_euclid(1.)` -/
def unrollUnbounded (rd : K → K) (p : K) : K := rd (Int.fract p)

/-- the choice of l.532-536 and l.550-554 -/
def advance (rd : K → K) (outside : Bool) (p : K) : K := if outside then unrollUnbounded rd p else unroll rd p

/-- the table lookups of `generate_sine` (l.572-585) and `generate_custom` (l.622-637) -/
def lookup (rd : K → K) (table : List K) (phase : K) : Option K :=
  let position := rd (phase * table.length)
  let prev := ⌊position⌋.toNat
  let next := if prev + 1 = table.length then 0 else prev + 1
  let k := position - (⌊position⌋ : K)
  table[prev]?.bind fun a => table[next]?.map fun b => a * (1 - k) + b * k

/-- `poly_blep`, l.647-659 -/
def polyBlep (t dt : K) : K :=
  if t < dt then t / dt + t / dt - t / dt * (t / dt) - 1
  else if 1 - dt < t then (t - 1) / dt * ((t - 1) / dt) + (t - 1) / dt + (t - 1) / dt + 1
  else 0

/-- `generate_sawtooth`, l.588-595 -/
def sawtooth (rd : K → K) (phase incr : K) : K :=
  let p := unroll rd (phase + 1 / 2)
  2 * p - 1 - polyBlep p incr

/-- `generate_square`, l.598-606 -/
def square (rd : K → K) (phase incr : K) : K :=
  (if phase < 1 / 2 then 1 else -1) + polyBlep phase incr - polyBlep (unroll rd (phase + 1 / 2)) incr

/-- `generate_triangle`, l.609-619 -/
def triangle (phase : K) : K :=
  let s := -4 * phase + 2
  if 1 < s then 2 - s else if s < -1 then -2 - s else s

/-- `generate_waveform_sample`, l.561-569 -/
def waveform (rd : K → K) (sine : List K) (ty : OscType) (wave : Option (List K)) (phase incr : K) : Option K :=
  match ty with
  | .sine => lookup rd sine phase
  | .sawtooth => some (sawtooth rd phase incr)
  | .square => some (square rd phase incr)
  | .triangle => some (triangle phase)
  | .custom => wave.bind fun w => lookup rd w phase

/-- the first sample, l.526-539 -/
def Osc.first (rd : K → K) (dt : K) (s : Osc K) (t incr : K) (outside : Bool) : Osc K :=
  if s.started then s
  else
    { s with
      started := true
      phase := if s.start < (t : WithTop K) then advance rd outside (rd (incr * rd (rd (t - s.start.untopD t) / dt))) else s.phase }

/-- `generate_sample`, l.513-558, at time `t` with computed frequency `f` -/
def Osc.sample (rd : K → K) (sine : List K) (dt : K) (s : Osc K) (t f : K) : Option (K × Osc K) :=
  let incr := rd (f * dt)
  let outside := decide (1 / dt / 2 ≤ |f|)
  if (t : WithTop K) < s.start ∨ s.stop ≤ (t : WithTop K) then some (0, s)
  else
    let s := s.first rd dt t incr outside
    (if outside then some 0 else waveform rd sine s.ty s.wave s.phase incr).map fun v =>
      (v, { s with phase := advance rd outside (rd (s.phase + incr)) })

/-- the frames of a block one by one, l.441-459: frame `i` is at time `t + i * dt` -/
def Osc.slow (rd : K → K) (sine : List K) (dt : K) : Osc K → K → List K → Option (List K × Osc K)
  | s, _, [] => some ([], s)
  | s, t, f :: fs =>
    (s.sample rd sine dt t f).bind fun r =>
      (Osc.slow rd sine dt r.2 (t + dt) fs).map fun q => (r.1 :: q.1, q.2)

/-- the fast path, l.436-440 -/
def Osc.fast (rd : K → K) (sine : List K) (incr : K) : Osc K → Nat → Option (List K × Osc K)
  | s, 0 => some ([], s)
  | s, n + 1 =>
    (waveform rd sine s.ty s.wave s.phase incr).bind fun v =>
      (Osc.fast rd sine incr { s with phase := unroll rd (rd (s.phase + incr)) } n).map fun q => (v :: q.1, q.2)

/-- `send_ended_event` if it was not sent before -/
def Osc.sendEnded (s : Osc K) : Osc K :=
  if s.ended then s else { s with ended := true, events := s.events + 1 }

/-- no scheduling in the past, l.419-421 -/
def Osc.adjust (dt : K) (s : Osc K) : Osc K :=
  let now : WithTop K := ((s.frame * dt : K) : WithTop K)
  if s.started = false ∧ s.start < now then { s with start := now } else s

/-- the computed frequencies of a block: the values of frequency and detune, each taken cyclically -/
def freqs (comp : K → K → K) (count : Nat) (freq detune : List K) : List K :=
  (List.range count).map fun i => comp (freq.getD (i % freq.length) 0) (detune.getD (i % detune.length) 0)

/-- the samples of a block, l.423-459 -/
def Osc.play (rd : K → K) (sine : List K) (comp : K → K → K) (dt : K) (count : Nat) (s : Osc K)
    (freq detune : List K) : Option (List K × Osc K) :=
  let now : K := s.frame * dt
  if freq.length = 1 ∧ detune.length = 1 then
    let f := comp (freq.getD 0 0) (detune.getD 0 0)
    if (s.started = true ∧ s.start ≤ (now : WithTop K) ∧ ((now + dt * count : K) : WithTop K) ≤ s.stop) ∧
        ¬ 1 / dt / 2 ≤ |f| then
      s.fast rd sine (rd (f * dt)) count
    else s.slow rd sine dt now (List.replicate count f)
  else s.slow rd sine dt now (freqs comp count freq detune)

/-- `process`, l.365-471: the output (`[]` for silence), the state, and the return value -/
def Osc.process (rd : K → K) (sine : List K) (comp : K → K → K) (dt : K) (count : Nat) (s : Osc K)
    (freq detune : List K) : Option (List K × Osc K × Bool) :=
  let now : WithTop K := ((s.frame * dt : K) : WithTop K)
  let next : WithTop K := ((s.frame * dt + dt * count : K) : WithTop K)
  if s.stop ≤ now then some ([], s.sendEnded, false)
  else if next ≤ s.start then
    if s.stop ≤ next then some ([], s.sendEnded, false)
    else some ([], s, decide (s.start ≠ ⊤))
  else
    ((s.adjust dt).play rd sine comp dt count freq detune).map fun r =>
      if r.2.stop ≤ next then (r.1, r.2.sendEnded, false) else (r.1, r.2, true)

inductive OscOp (K : Type) where
  /-- `start_at`, l.179-188 -/
  | start (t : K)
  /-- `stop_at`, l.195-200 -/
  | stop (t : K)
  /-- `set_type`, l.314-329 -/
  | setType (ty : OscType)
  /-- `set_periodic_wave`, l.334-337 -/
  | setWave (w : List K)
  /-- `process` -/
  | block (freq detune : List K)

/-- One call or one quantum; messages arrive between two quanta. `none`: the call panics. `set_type` of a custom
oscillator is ignored, l.322-325. -/
def Osc.step (rd : K → K) (sine : List K) (comp : K → K → K) (dt : K) (count : Nat) (s : Osc K) :
    OscOp K → Option (List K × Osc K)
  | .start t => if s.hasStart ∨ t < 0 then none else some ([], { s with hasStart := true, start := t })
  | .stop t => if s.hasStart = false ∨ t < 0 then none else some ([], { s with stop := t })
  | .setType ty =>
    if ty = .custom then none
    else if s.ctrlType = .custom then some ([], s)
    else some ([], { s with ctrlType := ty, ty := ty })
  | .setWave w => some ([], { s with ctrlType := .custom, ty := .custom, wave := some w })
  | .block freq detune =>
    (s.process rd sine comp dt count freq detune).map fun r => (r.1, { r.2.1 with frame := s.frame + count })

/-- outputs of the blocks, and the state -/
def Osc.run (rd : K → K) (sine : List K) (comp : K → K → K) (dt : K) (count : Nat) :
    Osc K → List (OscOp K) → Option (List (List K) × Osc K)
  | s, [] => some ([], s)
  | s, op :: ops =>
    (s.step rd sine comp dt count op).bind fun r =>
      (Osc.run rd sine comp dt count r.2 ops).map fun q => (r.1 :: q.1, q.2)

end

end Verif.Source
