import Verif.Mix.Model
import Mathlib.Data.Rat.Defs
import Mathlib.Algebra.Order.Field.Rat

/-!
# Argument validation

Models the `assert_valid_*` functions and the assertions of constructors and setters. An assertion is a `Bool`,
`false` is a panic on the calling thread before anything else has happened. Floating point arguments are NaN, an
infinity or a finite value; the finite values are rationals (every `f32` and `f64` is one).
-/

namespace Verif.Valid

open Verif.Mix (Mode Interp)

/-- An `f32` or `f64` argument. `-0.` is `fin 0`, it compares like `0.`. -/
inductive FV where
  | nan
  | inf
  | ninf
  | fin (q : ℚ)
deriving DecidableEq

/-- `<=` of IEEE 754 -/
def FV.le : FV → FV → Bool
  | nan, _ => false
  | _, nan => false
  | ninf, _ => true
  | _, inf => true
  | inf, _ => false
  | _, ninf => false
  | fin a, fin b => decide (a ≤ b)

/-- `<` of IEEE 754 -/
def FV.lt : FV → FV → Bool
  | nan, _ => false
  | _, nan => false
  | _, ninf => false
  | inf, _ => false
  | ninf, _ => true
  | _, inf => true
  | fin a, fin b => decide (a < b)

/-- `==` of IEEE 754 -/
def FV.eq : FV → FV → Bool
  | inf, inf => true
  | ninf, ninf => true
  | fin a, fin b => decide (a = b)
  | _, _ => false

/-- `is_finite` -/
def FV.isFinite : FV → Bool
  | fin _ => true
  | _ => false

/-- `usize::is_power_of_two` of std: exactly one bit is set. -/
def powerOfTwo (n : Nat) : Bool :=
  if h : n = 0 then false
  else if n % 2 = 1 then n == 1
  else powerOfTwo (n / 2)
termination_by n
decreasing_by omega

/-! ## lib.rs -/

/-- `is_valid_sample_rate`, `/repo/src/lib.rs` l.147-173: `contains` of an inclusive range. Also the check of
`AudioContext::try_new`, context/online.rs l.241-247, which returns an error instead. -/
def sampleRate (x : FV) : Bool := (FV.fin 3000).le x && x.le (.fin 768000)

/-- `assert_valid_number_of_channels`, lib.rs l.185-192; channel_merger.rs l.21-28 and channel_splitter.rs l.23-30 are
copies -/
def numberOfChannels (n : Nat) : Bool := decide (0 < n) && decide (n ≤ 32)

/-- `assert_valid_channel_number`, lib.rs l.204-211 -/
def channelNumber (c n : Nat) : Bool := decide (c < n)

/-- `assert_valid_buffer_length`, lib.rs l.222-228 -/
def bufferLength (n : Nat) : Bool := decide (0 < n)

/-- `assert_valid_time_value`, lib.rs l.240-251 -/
def timeValue (x : FV) : Bool := x.isFinite && (FV.fin 0).le x

/-! ## Constructors of contexts and buffers -/

/-- `OfflineAudioContext::new`, context/offline.rs l.79-81, and `AudioBuffer::new`, buffer.rs, which make the same
three checks -/
def offlineNew (channels length : Nat) (rate : FV) : Bool :=
  numberOfChannels channels && bufferLength length && sampleRate rate

/-- `calculate_suspend_frame`, context/offline.rs l.241-251: `duration` is `length / sample_rate` -/
def suspendTime (x : FV) (duration : ℚ) : Bool := (FV.fin 0).le x && x.lt (.fin duration)

/-! ## analysis.rs -/

/-- `assert_valid_fft_size`, `/repo/src/analysis.rs` l.34-51 -/
def fftSize (n : Nat) : Bool := powerOfTwo n && (decide (n ≥ 32) && decide (n ≤ 32768))

/-- `assert_valid_smoothing_time_constant`, analysis.rs l.53-62 -/
def smoothing (x : FV) : Bool := (FV.fin 0).le x && x.le (.fin 1)

/-- `assert_valid_decibels`, analysis.rs l.64-72 -/
def decibels (lo hi : FV) : Bool := lo.lt hi

/-! ## Nodes -/

/-- the checks of `ScriptProcessorNode::new`, `/repo/src/node/script_processor.rs` l.79-97 -/
def scriptNew (size inputs outputs : Nat) : Bool :=
  let size := if size = 0 then 256 else size
  (powerOfTwo (size / 256) && decide (size ≤ 16384)) &&
    match inputs, outputs with
    | 0, 0 => false
    | 0, c => numberOfChannels c
    | c, 0 => numberOfChannels c
    | c, d => numberOfChannels c && numberOfChannels d

/-- what the rendering thread does when the first chunk is full, script_processor.rs l.236-238:
`AudioBuffer::from` of `outputs` channels, which panics without channels (buffer.rs, `assert_valid_number_of_channels`) -/
def scriptFirstChunk (outputs : Nat) : Bool := numberOfChannels outputs

/-- `PeriodicWave::new`, `/repo/src/periodic_wave.rs` l.103-150: lengths of the two arrays -/
def periodicWave (real imag : Option Nat) : Bool :=
  match real, imag with
  | some r, some i => decide (r = i) && decide (2 ≤ r)
  | some r, none => decide (2 ≤ r)
  | none, some i => decide (2 ≤ i)
  | none, none => true

/-- `assert_valid_feedforward_coefs`, `/repo/src/node/iir_filter.rs` l.29-40 -/
def feedforward (cs : List FV) : Bool :=
  (!cs.isEmpty && decide (cs.length ≤ 20)) && !cs.all (·.eq (.fin 0))

/-- `assert_valid_feedback_coefs`, iir_filter.rs l.53-64 -/
def feedback (cs : List FV) : Bool :=
  (!cs.isEmpty && decide (cs.length ≤ 20)) && !(cs.headD .nan).eq (.fin 0)

/-- `DelayNode::new`, `/repo/src/node/delay.rs` l.290-293 -/
def maxDelayTime (x : FV) : Bool := (FV.fin 0).lt x && x.lt (.fin 180)

/-- `PannerNode::new`, `/repo/src/node/panner.rs` l.414-425, and the setters l.560-632 (the same assertions) -/
def refDistance (x : FV) : Bool := (FV.fin 0).le x

def maxDistance (x : FV) : Bool := (FV.fin 0).lt x

def rolloffFactor (x : FV) : Bool := (FV.fin 0).le x

/-- `assert_valid_cone_outer_gain`, panner.rs l.24-32 -/
def coneOuterGain (x : FV) : Bool := (FV.fin 0).le x && x.le (.fin 1)

/-- `ConvolverNode::set_buffer`, `/repo/src/node/convolver.rs` l.259-275: rates of buffer and context, channels -/
def convolverBuffer (rate ctxRate : FV) (channels : Nat) : Bool :=
  rate.eq ctxRate && [1, 2, 4].contains channels

/-! ## AudioParam, `/repo/src/param.rs` l.24-63 and the methods l.400-700 -/

/-- `assert_is_finite`; `set_value` l.408 -/
def paramValue (x : FV) : Bool := x.isFinite

/-- `set_value_at_time` l.438, `linear_ramp_to_value_at_time` l.463 -/
def paramAtTime (x t : FV) : Bool := x.isFinite && timeValue t

/-- `exponential_ramp_to_value_at_time` l.490: `assert_not_zero` -/
def paramExponential (x t : FV) : Bool := (x.isFinite && !x.eq (.fin 0)) && timeValue t

/-- `set_target_at_time` l.522 -/
def paramTarget (x t c : FV) : Bool := (x.isFinite && timeValue t) && timeValue c

/-- `assert_strictly_positive` l.33-43 -/
def strictlyPositive (x : FV) : Bool := x.isFinite && (FV.fin 0).lt x

/-! ## Channel configuration -/

/-- `ChannelConfigInner`, `/repo/src/node/audio_node.rs` l.96-100 -/
structure Config where
  count : Nat
  mode : Mode
  interp : Interp
deriving DecidableEq

/-- The nodes by their constraints.
* `free`: default methods of the trait (gain, delay, biquad, ...)
* `limited`: stereo_panner.rs, panner.rs, convolver.rs, dynamics_compressor.rs
* `offlineDest`, `onlineDest`: destination.rs, with `max_channel_count`
* `listener`: spatial.rs -/
inductive Kind where
  | free
  | limited
  | merger
  | splitter (outputs : Nat)
  | script (inputs : Nat)
  | offlineDest (max : Nat)
  | onlineDest (max : Nat)
  | listener
deriving DecidableEq

/-- a call of `set_channel_count`, `set_channel_count_mode` or `set_channel_interpretation` -/
inductive Call where
  | count (n : Nat)
  | mode (m : Mode)
  | interp (i : Interp)
deriving DecidableEq

/-- `ChannelConfig::from(AudioNodeOptions)`, audio_node.rs l.200-215 -/
def Config.from (c : Config) : Option Config := if numberOfChannels c.count then some c else none

/-- `ChannelConfig::set_count`, audio_node.rs l.180-195; the assertion precedes the lock -/
def setCount (c : Config) (n : Nat) : Option Config := if numberOfChannels n then some { c with count := n } else none

/-- The constructors, with the user's options `o`.
* `free`: `options.audio_node_options.into()`
* `limited`: stereo_panner.rs l.172-173, panner.rs l.427-428, convolver.rs l.219-220, dynamics_compressor.rs l.184-185, then `into()`
* `merger`: channel_merger.rs l.122-133
* `splitter`: channel_splitter.rs l.146-166: 6 is the default of the options, and is replaced
* `script`: script_processor.rs l.109-125, no options
* `offlineDest`, `onlineDest`: destination.rs l.100-108, with the channel count of the context
* `listener`: spatial.rs l.90-100 -/
def create (k : Kind) (o : Config) : Option Config :=
  match k with
  | .free => Config.from o
  | .limited => if decide (o.count ≤ 2) && decide (o.mode ≠ .max) then Config.from o else none
  | .merger => if decide (o.count = 1) && decide (o.mode = .explicit) then Config.from o else none
  | .splitter n =>
    if numberOfChannels n && (decide (o.count = 6) || decide (o.count = n)) &&
        (decide (o.mode = .explicit) && decide (o.interp = .discrete)) then
      Config.from { o with count := n }
    else none
  | .script n => Config.from ⟨if n = 0 then 1 else n, .explicit, .speakers⟩
  | .offlineDest n => Config.from ⟨n, .explicit, .speakers⟩
  | .onlineDest _ => Config.from ⟨o.count, .explicit, .speakers⟩
  | .listener => Config.from ⟨1, .explicit, .discrete⟩

/-- The setters. `none` is a panic.
* `free`: audio_node.rs l.417-441
* `limited`: stereo_panner.rs l.143-152, panner.rs l.363-372, convolver.rs l.187-197, dynamics_compressor.rs l.168-178
* `merger`: channel_merger.rs l.102-110 (`set_channel_count` only asserts)
* `splitter`: channel_splitter.rs l.120-134 (`set_channel_count` only asserts)
* `script`: script_processor.rs l.44-61
* `offlineDest`, `onlineDest`: destination.rs l.55-97
* `listener`: spatial.rs l.113-121 -/
def set (k : Kind) (c : Config) : Call → Option Config
  | .count n =>
    match k with
    | .free => setCount c n
    | .limited => if n ≤ 2 then setCount c n else none
    | .merger => if n = 1 then some c else none
    | .splitter m => if n = m then some c else none
    | .script _ => if n = c.count then setCount c n else none
    | .offlineDest m => if n = m then (if n ≤ m then setCount c n else none) else none
    | .onlineDest m => if n ≤ m then setCount c n else none
    | .listener => none
  | .mode m =>
    match k with
    | .free | .onlineDest _ => some { c with mode := m }
    | .limited => if m ≠ .max then some { c with mode := m } else none
    | .merger | .splitter _ | .script _ | .offlineDest _ => if m = .explicit then some { c with mode := m } else none
    | .listener => none
  | .interp i =>
    match k with
    | .splitter _ => if i = .discrete then some { c with interp := i } else none
    | .listener => none
    | _ => some { c with interp := i }

/-- Calls one after the other, by a user who catches panics: the state of the node, and for every call whether it
panicked. -/
def calls (k : Kind) (c : Config) : List Call → Config × List Bool
  | [] => (c, [])
  | x :: xs =>
    match set k c x with
    | some c' => ((calls k c' xs).1, true :: (calls k c' xs).2)
    | none => ((calls k c xs).1, false :: (calls k c xs).2)

end Verif.Valid
