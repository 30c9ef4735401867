import Verif.Valid.Model
import Verif.Node.WaveShaper
import Mathlib.Data.Rat.Floor

/-!
# Attributes of nodes

The attributes of a node are kept twice: in the node, where the getters read them, and in the renderer. A setter checks
its argument, changes the node and posts a message to the renderer (`post_message`,
`/repo/src/context/concrete_base.rs`), which the render thread hands to `onmessage` between quanta. Messages of a node
arrive in order (C19). `process` does not change attributes (the panner takes out `hrtf_state` and puts it back,
panner.rs l.714, l.900).

Modelled: oscillator, buffer source, wave shaper, convolver, panner and biquad filter. Not modelled: messages that are
lost or overtaken in a connection race (C19), what the attributes do (C34, C39, C43, C44, C46, C63–C67).
-/

namespace Verif.Attr

open Verif.Valid (FV)

/-- The two halves of a node. `call`: a method of the node, the new state and the message it posts; `none` is a panic
of the caller, with nothing changed. `recv`: `onmessage`; `none` is a panic of the renderer. -/
structure Halves (Call Ctl Msg Ren : Type) where
  call : Ctl → Call → Option (Ctl × Option Msg)
  recv : Ren → Msg → Option Ren

/-- The node, the messages under way, and the renderer. -/
structure Sys (Ctl Msg Ren : Type) where
  ctl : Ctl
  chan : List Msg := []
  ren : Ren

/-- The user calls a method, or the render thread handles a message. -/
inductive Step (Call : Type)
  | call (c : Call)
  | deliver

section
variable {Call Ctl Msg Ren : Type}

/-- One step; `none`: the renderer panics. A user may catch the panic of a method and go on. -/
def Halves.step (h : Halves Call Ctl Msg Ren) (s : Sys Ctl Msg Ren) : Step Call → Option (Sys Ctl Msg Ren)
  | .call c =>
    match h.call s.ctl c with
    | none => some s
    | some (ctl, m) => some { s with ctl := ctl, chan := s.chan ++ m.toList }
  | .deliver =>
    match s.chan with
    | [] => some s
    | m :: ms => (h.recv s.ren m).map fun r => { s with ren := r, chan := ms }

def Halves.run (h : Halves Call Ctl Msg Ren) : Sys Ctl Msg Ren → List (Step Call) → Option (Sys Ctl Msg Ren)
  | s, [] => some s
  | s, x :: xs => (h.step s x).bind fun s => h.run s xs

/-- The calls among the steps. -/
def calls (xs : List (Step Call)) : List Call :=
  xs.filterMap fun x => match x with
    | .call c => some c
    | .deliver => none

end

/-! ## Oscillator, `/repo/src/node/oscillator.rs` -/

/-- `OscillatorType`, l.74-86 -/
inductive OscType
  | sine | square | sawtooth | triangle | custom
deriving DecidableEq

inductive OscCall (W : Type)
  | setType (t : OscType)
  | setWave (w : W)

/-- `type_` and `periodic_wave` of the renderer, l.337-361 -/
structure OscRen (W : Type) where
  type : OscType
  wave : Option W := none

/-- `set_type`, l.309-323, and `set_periodic_wave`, l.329-332; `onmessage`, l.473-500. The message is the argument of
the call. -/
def osc (W : Type) : Halves (OscCall W) OscType (OscCall W) (OscRen W) where
  call t
    | .setType u => if u = .custom then none else if t = .custom then some (t, none) else some (u, some (.setType u))
    | .setWave w => some (.custom, some (.setWave w))
  recv r
    | .setType u => some { r with type := u }
    | .setWave w => some { type := .custom, wave := some w }

/-- `OscillatorNode::new`, l.210-275, without the wave, which is set like by a call (l.270-272) -/
def oscNew (W : Type) (t : OscType) : Sys OscType (OscCall W) (OscRen W) := { ctl := t, ren := { type := t } }

/-! ## Buffer source, `/repo/src/node/audio_buffer_source.rs` -/

inductive SrcCall (B : Type)
  | buffer (b : B)
  | loop (on : Bool)
  | loopStart (x : FV)
  | loopEnd (x : FV)
  /-- `start` and `stop` with arguments that are accepted; what they do is C32–C34. -/
  | other

/-- `LoopState`, l.59-63, and the buffer, on either side -/
structure Src (B : Type) where
  buffer : Option B := none
  loop : Bool
  start : FV
  stop : FV

/-- `clamp_loop_boundaries`, l.402-419; `dur` is `AudioBuffer::duration` -/
def Src.clamp {B : Type} (dur : B → ℚ) (r : Src B) : Src B :=
  match r.buffer with
  | none => r
  | some b =>
    let d := FV.fin (dur b)
    { r with
      start := if r.start.lt (.fin 0) then .fin 0 else if d.lt r.start then d else r.start
      stop := if r.stop.le (.fin 0) || d.lt r.stop then d else r.stop }

/-- `set_buffer`, l.278-288, `set_loop`, `set_loop_start`, `set_loop_end`, l.324-349; `handle_control_message`,
l.387-400, and `onmessage`, l.847-870, where a second buffer would not clamp the loop points again -/
def src (B : Type) (dur : B → ℚ) : Halves (SrcCall B) (Src B) (SrcCall B) (Src B) where
  call s
    | .buffer b => if s.buffer.isSome then none else some ({ s with buffer := some b }, some (.buffer b))
    | .loop on => some ({ s with loop := on }, some (.loop on))
    | .loopStart x => some ({ s with start := x }, some (.loopStart x))
    | .loopEnd x => some ({ s with stop := x }, some (.loopEnd x))
    | .other => some (s, some .other)
  recv r
    | .buffer b =>
      if r.buffer.isSome then some { r with buffer := some b } else some (Src.clamp dur { r with buffer := some b })
    | .loop on => some (Src.clamp dur { r with loop := on })
    | .loopStart x => some (Src.clamp dur { r with start := x })
    | .loopEnd x => some (Src.clamp dur { r with stop := x })
    | .other => some (Src.clamp dur r)

/-- `AudioBufferSourceNode::new`, l.162-237, without the buffer, which is set like by a call (l.232-234) -/
def srcNew (B : Type) (loop : Bool) (start stop : FV) : Sys (Src B) (SrcCall B) (Src B) :=
  { ctl := { loop := loop, start := start, stop := stop }, ren := { loop := loop, start := start, stop := stop } }

/-! ## Wave shaper, `/repo/src/node/waveshaper.rs` -/

/-- `OverSampleType` -/
inductive Oversample
  | none | x2 | x4
deriving DecidableEq

inductive ShaperCall
  | curve (c : List ℚ)
  | oversample (o : Oversample)

structure ShaperCtl where
  curve : Option (List ℚ) := none
  oversample : Oversample

structure ShaperRen where
  curve : Option (List ℚ) := none
  oversample : Oversample
  /-- `can_propagate_silence` -/
  quiet : Bool := true

/-- `set_curve`, l.203-213, `set_oversample`, l.226-229; `onmessage`, l.489-516, where an
empty curve is an index out of bounds -/
def shaper : Halves ShaperCall ShaperCtl ShaperCall ShaperRen where
  call s
    | .curve c => if s.curve.isSome then none else some ({ s with curve := some c }, some (.curve c))
    | .oversample o => some ({ s with oversample := o }, some (.oversample o))
  recv r
    | .curve c => (Verif.Node.canPropagate (1 / 10 ^ 9) c).map fun q => { r with curve := some c, quiet := q }
    | .oversample o => some { r with oversample := o }

/-- `WaveShaperNode::new`, l.154-185, without the curve, which is set like by a call (l.180-182), and
`WaveShaperRenderer::new`, l.521-552 -/
def shaperNew (o : Oversample) : Sys ShaperCtl ShaperCall ShaperRen :=
  { ctl := { oversample := o }, ren := { oversample := o } }

/-! ## Convolver, `/repo/src/node/convolver.rs` -/

inductive ConvCall (B : Type)
  | buffer (b : B)
  | normalize (on : Bool)

structure ConvCtl (B : Type) where
  buffer : Option B := none
  normalize : Bool

/-- `set_buffer`, l.259-317; `ok b`: the sample rate and the number of channels are accepted. The message contains the
convolvers for the response, scaled or not. `set_normalize`, l.325-327. `onmessage`, l.492-508. -/
def conv (B : Type) (ok : B → Bool) : Halves (ConvCall B) (ConvCtl B) (B × Bool) (Option (B × Bool)) where
  call s
    | .buffer b => if ok b then some ({ s with buffer := some b }, some (b, s.normalize)) else none
    | .normalize on => some ({ s with normalize := on }, none)
  recv _ m := some (some m)

/-- `ConvolverNode::new`, l.208-246, without the buffer, which is set like by a call (l.241-243) -/
def convNew (B : Type) (normalize : Bool) : Sys (ConvCtl B) (B × Bool) (Option (B × Bool)) :=
  { ctl := { normalize := normalize }, ren := none }

/-! ## Panner, `/repo/src/node/panner.rs` -/

/-- `DistanceModelType` -/
inductive DistModel
  | linear | inverse | exponential
deriving DecidableEq

inductive PanCall
  | distanceModel (m : DistModel)
  | refDistance (x : FV)
  | maxDistance (x : FV)
  | rolloffFactor (x : FV)
  | coneInnerAngle (x : FV)
  | coneOuterAngle (x : FV)
  | coneOuterGain (x : FV)
  /-- `true`: HRTF -/
  | panningModel (hrtf : Bool)

/-- The attributes, l.335-343, and those of the renderer, l.673-681 (`hrtf`: there is a `hrtf_state`). -/
structure Pan where
  distanceModel : DistModel
  refDistance : FV
  maxDistance : FV
  rolloffFactor : FV
  coneInnerAngle : FV
  coneOuterAngle : FV
  coneOuterGain : FV
  hrtf : Bool

/-- the assertions of the setters, l.556-641 -/
def PanCall.ok : PanCall → Bool
  | .refDistance x => (FV.fin 0).le x
  | .maxDistance x => (FV.fin 0).lt x
  | .rolloffFactor x => (FV.fin 0).le x
  | .coneOuterGain x => (FV.fin 0).le x && x.le (.fin 1)
  | _ => true

/-- the assignments in the setters, l.543-656, and in `onmessage`, l.906-918 -/
def Pan.assign (p : Pan) : PanCall → Pan
  | .distanceModel m => { p with distanceModel := m }
  | .refDistance x => { p with refDistance := x }
  | .maxDistance x => { p with maxDistance := x }
  | .rolloffFactor x => { p with rolloffFactor := x }
  | .coneInnerAngle x => { p with coneInnerAngle := x }
  | .coneOuterAngle x => { p with coneOuterAngle := x }
  | .coneOuterGain x => { p with coneOuterGain := x }
  | .panningModel h => { p with hrtf := h }

def pan : Halves PanCall Pan PanCall Pan where
  call p c := if c.ok then some (p.assign c, some c) else none
  recv p c := some (p.assign c)

/-- `PannerNode::new`, l.392-500, up to the last line: the renderer starts with equal power panning; `none`: the
options are refused. -/
def panNew (p : Pan) : Option (Sys Pan PanCall Pan) :=
  if (PanCall.refDistance p.refDistance).ok && (PanCall.maxDistance p.maxDistance).ok &&
      (PanCall.rolloffFactor p.rolloffFactor).ok && (PanCall.coneOuterGain p.coneOuterGain).ok then
    pan.step { ctl := p, ren := { p with hrtf := false } } (.call (.panningModel p.hrtf))
  else none

/-! ## Biquad filter, `/repo/src/node/biquad_filter.rs` -/

/-- `set_type`, l.653-656, `onmessage`, l.901-908; `T` is `BiquadFilterType` -/
def biquad (T : Type) : Halves T T T T where
  call _ t := some (t, some t)
  recv _ t := some t

/-- `BiquadFilterNode::new`, l.542-616: the same type on both sides -/
def biquadNew (T : Type) (t : T) : Sys T T T := { ctl := t, ren := t }

end Verif.Attr
