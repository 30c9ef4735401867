import Mathlib.Algebra.Order.Floor.Ring
import Mathlib.Algebra.Order.Field.Basic
import Mathlib.Order.WithBot

/-!
# Model of the buffer source

Models `AudioBufferSourceNode` and `AudioBufferSourceRenderer` (`/repo/src/node/audio_buffer_source.rs`
l.137-420 calls and messages, l.422-845 `process`, l.847-879 `onmessage`, `before_drop`).

Times, rates and samples are elements of an ordered field with floor, computed with exactly (the code: `f64`,
samples `f32`). `⊤` stands for `f64::MAX`. The tolerant comparisons of the crate `almost` are parameters of the
model: the theorems hold for every such pair of predicates. A panic (index out of bounds) and a loop that never
ends are explicit error values.
-/

namespace Verif.Source

/-- what can go wrong on the rendering thread -/
inductive Fault where
  | panic
  | hang
  deriving DecidableEq

/-- Sample rate of the context and of the buffer, quantum size, `almost::equal` and `almost::zero`. -/
structure BufEnv (K : Type) where
  sr : K
  bufSr : K
  count : Nat
  almostEq : K → K → Bool
  almostZero : K → Bool

section
variable {K : Type} [Field K] [LinearOrder K] [FloorRing K]

/-- The renderer (l.374-384), its render state (l.352-359), `has_start` of the control side, the frame counter
of the context. Ghost: `events`, the number of ended events. -/
structure BufSt (K : Type) where
  hasStart : Bool := false
  start : WithTop K := ⊤
  stop : WithTop K := ⊤
  duration : WithTop K := ⊤
  offset : K
  buffer : Option (List (List K)) := none
  looping : Bool := false
  loopStart : K
  loopEnd : K
  bufferTime : K
  elapsed : K
  started : Bool := false
  enteredLoop : Bool := false
  aligned : Bool := false
  ended : Bool := false
  frame : Nat := 0
  events : Nat := 0
  alive : Bool := true

/-- `AudioBufferSourceNode::new` without buffer, with the loop options, l.162-236 -/
def BufSt.new (looping : Bool) (loopStart loopEnd : K) : BufSt K where
  offset := 0
  looping := looping
  loopStart := loopStart
  loopEnd := loopEnd
  bufferTime := 0
  elapsed := 0

/-- `AudioBuffer::length`, `/repo/src/buffer.rs` l.129-131 -/
def lengthOf (chans : List (List K)) : Nat := (chans.headD []).length

/-- `AudioBuffer::duration`, `/repo/src/buffer.rs` l.139-141 -/
def durationOf (e : BufEnv K) (chans : List (List K)) : K := lengthOf chans / e.bufSr

/-- `clamp_loop_boundaries`, l.403-419 -/
def BufSt.clampLoop (e : BufEnv K) (s : BufSt K) : BufSt K :=
  match s.buffer with
  | none => s
  | some chans =>
    let dur := durationOf e chans
    { s with
      loopStart := if s.loopStart < 0 then 0 else if dur < s.loopStart then dur else s.loopStart
      loopEnd := if s.loopEnd ≤ 0 ∨ dur < s.loopEnd then dur else s.loopEnd }

/-! ## Fast track -/

/-- The loop of the fast track over one output channel when the buffer ends within the quantum, l.575-599.
Arguments: frames to go, `index`, `start_index`, `offset`, `loop_point_index`. `none`: index out of bounds. -/
def fastLoop (ch : List K) (len : Nat) (looping : Bool) :
    Nat → Nat → Nat → Nat → Option Nat → Option (List K × Option Nat)
  | 0, _, _, _, lp => some ([], lp)
  | n + 1, index, si, off, lp =>
    let bi := si + index - off
    if bi < len then
      (ch[bi]?).bind fun x => (fastLoop ch len looping n (index + 1) si off lp).map fun r => (x :: r.1, r.2)
    else if looping then
      (ch[0]?).bind fun x =>
        (fastLoop ch len looping n (index + 1) 0 index (some index)).map fun r => (x :: r.1, r.2)
    else
      (fastLoop ch len looping n (index + 1) si off lp).map fun r => (0 :: r.1, r.2)

/-- all channels, and the last loop point -/
def fastChannels (len : Nat) (looping : Bool) (count si : Nat) :
    List (List K) → Option Nat → Option (List (List K) × Option Nat)
  | [], lp => some ([], lp)
  | ch :: chans, lp =>
    (fastLoop ch len looping count 0 si 0 lp).bind fun r =>
      (fastChannels len looping count si chans r.2).map fun q => (r.1 :: q.1, q.2)

/-- `copy_from_slice(&buffer_channel[start..start + count])`, l.609-619; `none`: slice out of bounds -/
def slice (ch : List K) (start count : Nat) : Option (List K) :=
  if start + count ≤ ch.length then some ((ch.drop start).take count) else none

/-- The fast track, l.563-622: output and the new buffer time. `round() as usize` of a non-negative number is
the floor of the number plus one half. -/
def fastTrack (e : BufEnv K) (s : BufSt K) (chans : List (List K)) :
    Except Fault (List (List K) × K) :=
  let blockDur := 1 / e.sr * e.count
  let dur := durationOf e chans
  let si := ⌊s.bufferTime * e.sr + 1 / 2⌋.toNat
  if dur < s.bufferTime + blockDur then
    match fastChannels (lengthOf chans) s.looping e.count si chans none with
    | none => .error .panic
    | some (out, some lp) =>
      -- `x % buffer_duration`
      let x := ((e.count - lp : Nat) : K) / e.sr
      .ok (out, x - dur * ⌊x / dur⌋)
    | some (out, none) => .ok (out, s.bufferTime + blockDur)
  else
    match chans.mapM fun ch => slice ch si e.count with
    | none => .error .panic
    | some out => .ok (out, s.bufferTime + blockDur)

/-! ## Slow track -/

/-- `while t >= bound { t -= step }`, l.716-718: the number of rounds if the loop ends, as proved in
`wrapDown_spec`. -/
def wrapDown (bound step t : K) : Except Fault K :=
  if t < bound then .ok t
  else if step ≤ 0 then .error .hang
  else .ok (t - (⌊(t - bound) / step⌋ + 1) * step)

/-- `while t < bound { t += step }`, l.720-722 -/
def wrapUp (bound step t : K) : Except Fault K :=
  if bound ≤ t then .ok t
  else if step ≤ 0 then .error .hang
  else .ok (t + ⌈(bound - t) / step⌉ * step)

/-- The part of the state the loop over the frames changes. -/
structure Slow (K : Type) where
  start : WithTop K
  offset : K
  bufferTime : K
  elapsed : WithTop K
  started : Bool
  enteredLoop : Bool

/-- What the loop over the frames reads: `self.stop_time`, `self.duration`, looping, loop points,
computed playback rate, duration and length of the buffer, `sampling_ratio`. -/
structure SlowEnv (K : Type) where
  stop : WithTop K
  duration : WithTop K
  looping : Bool
  loopStart : K
  loopEnd : K
  rate : K
  dur : K
  len : Nat

/-- `almost::equal` with a time that may be `f64::MAX` (then false) -/
def eqTop (e : BufEnv K) (a b : WithTop K) : Bool :=
  match a, b with
  | some a, some b => e.almostEq a b
  | _, _ => false

/-- l.669-691: start time reached -/
def Slow.begin (q : SlowEnv K) (s : Slow K) (now : K) : Slow K :=
  if s.started then s
  else
    let st : K := s.start.untopD 0
    let delta := now - st
    let o := s.offset + delta * q.rate
    let o := min (max o 0) q.dur
    let o := if q.looping ∧ 0 ≤ q.rate ∧ q.loopEnd < o then q.loopEnd else o
    let o := if q.looping ∧ q.rate < 0 ∧ o < q.loopStart then q.loopStart else o
    { s with offset := o, bufferTime := o, elapsed := ((|delta * q.rate| : K) : WithTop K), started := true }

/-- l.694-700: the position snaps to a loop point that is almost reached -/
def snapLoop (e : BufEnv K) (q : SlowEnv K) (t : K) : K :=
  let t := if e.almostEq t q.loopEnd then q.loopEnd else t
  if e.almostEq t q.loopStart then q.loopStart else t

/-- l.702-712: has the loop been entered -/
def inLoop (q : SlowEnv K) (entered : Bool) (offset t : K) : Bool :=
  entered || (decide (offset < q.loopEnd) && decide (q.loopStart ≤ t)) ||
    (decide (q.loopEnd ≤ offset) && decide (t < q.loopEnd))

/-- l.693-724: looping -/
def Slow.wrap (e : BufEnv K) (q : SlowEnv K) (s : Slow K) : Except Fault (Slow K) :=
  if q.looping then
    if inLoop q s.enteredLoop s.offset (snapLoop e q s.bufferTime) then
      match wrapDown q.loopEnd (q.loopEnd - q.loopStart) (snapLoop e q s.bufferTime) with
      | .error f => .error f
      | .ok t =>
        match wrapUp q.loopStart (q.loopEnd - q.loopStart) t with
        | .error f => .error f
        | .ok t => .ok { s with bufferTime := t, enteredLoop := true }
    else .ok { s with bufferTime := snapLoop e q s.bufferTime, enteredLoop := false }
  else .ok s

/-- l.730-746: the frame to read and the fraction -/
def playhead (e : BufEnv K) (q : SlowEnv K) (t : K) : Option (Nat × K) :=
  if 0 ≤ t ∧ t < q.dur then
    let p := t * (e.bufSr / e.sr) * e.sr
    let i := ⌊p⌋.toNat
    if i < q.len then some (i, p - ⌊p⌋) else none
  else none

/-- l.649-657: start time and elapsed time snap to values that are almost reached -/
def Slow.snap (e : BufEnv K) (q : SlowEnv K) (now : K) (s : Slow K) : Slow K :=
  { s with
    start := if s.started = false ∧ eqTop e now s.start then (now : WithTop K) else s.start
    elapsed := if eqTop e s.elapsed q.duration then q.duration else s.elapsed }

/-- l.726-728: a position that is almost zero -/
def snapZero (e : BufEnv K) (t : K) : K := if e.almostZero t then 0 else t

/-- l.748-750: to the next frame -/
def Slow.next (e : BufEnv K) (q : SlowEnv K) (s : Slow K) : Slow K :=
  { s with
    bufferTime := snapZero e s.bufferTime + 1 / e.sr * q.rate
    elapsed := s.elapsed + ((|1 / e.sr * q.rate| : K) : WithTop K) }

/-- One iteration of the loop over the frames, l.644-751. -/
def Slow.frame (e : BufEnv K) (q : SlowEnv K) (now : K) (s : Slow K) :
    Except Fault (Slow K × Option (Nat × K)) :=
  let s := s.snap e q now
  if (now : WithTop K) < s.start ∨ q.stop ≤ (now : WithTop K) ∨ q.duration ≤ s.elapsed then .ok (s, none)
  else
    match Slow.wrap e q (s.begin q now) with
    | .error f => .error f
    | .ok s => .ok (s.next e q, playhead e q (snapZero e s.bufferTime))

/-- the loop over the frames: number to go, index -/
def Slow.frames (e : BufEnv K) (q : SlowEnv K) (blockTime : K) :
    Nat → Nat → Slow K → Except Fault (Slow K × List (Option (Nat × K)))
  | 0, _, s => .ok (s, [])
  | n + 1, i, s =>
    match Slow.frame e q (blockTime + i * (1 / e.sr)) s with
    | .error f => .error f
    | .ok (s, p) =>
      match Slow.frames e q blockTime n (i + 1) s with
      | .error f => .error f
      | .ok (s, ps) => .ok (s, p :: ps)

/-- The sample after `buffer_channel[i]`, l.772-815; `rate0` is the value of the playback rate parameter.
`none`: index out of bounds. -/
def nextSample (e : BufEnv K) (q : SlowEnv K) (rate0 : K) (ch : List K) (i : Nat) (k x : K) : Option K :=
  match ch[i + 1]? with
  | some v => some v
  | none =>
    if q.looping then
      if 0 ≤ rate0 then
        let p := q.loopStart * e.sr
        let j := if (⌊p⌋ : K) = p then ⌊p⌋.toNat else ⌊p⌋.toNat + 1
        ch[j]?
      else ch[⌊q.loopEnd * e.sr⌋.toNat]?
    else if e.almostEq k 1 ∨ i = 0 then some 0
    else (ch[i - 1]?).map fun w => 2 * x - w

/-- l.754-822: one output sample -/
def slowSample (e : BufEnv K) (q : SlowEnv K) (rate0 : K) (ch : List K) : Option (Nat × K) → Option K
  | none => some 0
  | some (i, k) =>
    (ch[i]?).bind fun x => (nextSample e q rate0 ch i k x).map fun y => (1 - k) * x + k * y

/-- The loop points in use, l.629-636. -/
def loopPoints (e : BufEnv K) (s : BufSt K) (chans : List (List K)) : K × K :=
  if s.looping then
    if 0 ≤ s.loopStart ∧ 0 < s.loopEnd ∧ s.loopStart < s.loopEnd then (s.loopStart, s.loopEnd)
    else (0, durationOf e chans)
  else (0, 0)

def BufSt.slowEnv (e : BufEnv K) (s : BufSt K) (chans : List (List K)) (rate : K) : SlowEnv K :=
  ⟨s.stop, s.duration, s.looping, (loopPoints e s chans).1, (loopPoints e s chans).2, rate, durationOf e chans,
    lengthOf chans⟩

/-- l.637-639: leaving the loop when looping is switched off -/
def BufSt.slow (s : BufSt K) : Slow K :=
  ⟨s.start, s.offset, s.bufferTime, (s.elapsed : WithTop K), s.started, if s.looping then s.enteredLoop else false⟩

def BufSt.keep (s : BufSt K) (r : Slow K) : BufSt K :=
  { s with
    start := r.start, offset := r.offset, bufferTime := r.bufferTime, elapsed := r.elapsed.untopD 0,
    started := r.started, enteredLoop := r.enteredLoop }

/-- The slow track, l.625-828. -/
def slowTrack (e : BufEnv K) (s : BufSt K) (chans : List (List K)) (rate0 rate : K) :
    Except Fault (List (List K) × BufSt K) :=
  match Slow.frames e (s.slowEnv e chans rate) (s.frame / e.sr) e.count 0 s.slow with
  | .error f => .error f
  | .ok (r, infos) =>
    match chans.mapM fun ch => infos.mapM (slowSample e (s.slowEnv e chans rate) rate0 ch) with
    | none => .error .panic
    | some out => .ok (out, s.keep r)

/-! ## Quantum -/

def BufSt.sendEnded (s : BufSt K) : BufSt K := { s with ended := true, events := s.events + 1 }

/-- l.520-554: is the fast track taken in this quantum -/
def BufSt.align (e : BufEnv K) (s : BufSt K) (dur rate : K) : Bool :=
  let blockTime : K := s.frame / e.sr
  let blockDur := 1 / e.sr * e.count
  (s.aligned || (decide (s.start = ((blockTime : K) : WithTop K)) && decide (s.offset = 0))) &&
    !(decide (e.bufSr / e.sr ≠ 1) || decide (rate ≠ 1)) &&
    !(decide (s.loopStart ≠ 0) || decide (s.loopEnd ≠ dur)) &&
    !(decide (s.duration < ((s.bufferTime + blockDur : K) : WithTop K)) ||
      decide (s.stop < ((blockTime + blockDur : K) : WithTop K)))

/-- l.830-839: has playing ended with this quantum -/
def BufSt.finished (e : BufEnv K) (s : BufSt K) (dur rate : K) : Bool :=
  let next : WithTop K := ((s.frame / e.sr + 1 / e.sr * e.count : K) : WithTop K)
  decide (s.stop ≤ next) || decide (s.duration ≤ ((s.elapsed : K) : WithTop K)) ||
    (!s.looping && ((decide (0 < rate) && decide (dur ≤ s.bufferTime)) ||
      (decide (rate < 0) && decide (s.bufferTime < 0))))

/-- l.516-518: a start time in the past is moved to the current time -/
def BufSt.catchUp (e : BufEnv K) (s : BufSt K) : BufSt K :=
  if s.started = false ∧ s.start < ((s.frame / e.sr : K) : WithTop K)
  then { s with start := ((s.frame / e.sr : K) : WithTop K) } else s

/-- l.558-560, l.621-624, l.826-828: state after the fast track -/
def BufSt.advance (e : BufEnv K) (s : BufSt K) (t : K) : BufSt K :=
  { s with
    started := s.started || decide (s.start = ((s.frame / e.sr : K) : WithTop K)),
    bufferTime := t, elapsed := s.elapsed + 1 / e.sr * e.count }

/-- l.839-842: the ended event -/
def BufSt.close (e : BufEnv K) (s : BufSt K) (dur rate : K) : BufSt K :=
  if s.finished e dur rate then s.sendEnded else s

/-- l.499-843: a quantum of the buffer `chans` -/
def BufSt.play (e : BufEnv K) (s : BufSt K) (chans : List (List K)) (rate0 rate : K) :
    Except Fault (List (List K) × BufSt K) :=
  let dur := durationOf e chans
  let s := s.catchUp e
  if s.align e dur rate then
    match fastTrack e s chans with
    | .error f => .error f
    | .ok (out, t) => .ok (out, (({ s with aligned := true } : BufSt K).advance e t).close e dur rate)
  else
    match slowTrack e { s with aligned := false } chans rate0 rate with
    | .error f => .error f
    | .ok (out, s) => .ok (out, s.close e dur rate)

/-- `process` with the values of the playback rate and of `2^(detune/1200)`, l.423-845: output (`[]` for
silence), state, return value. -/
def BufSt.process (e : BufEnv K) (s : BufSt K) (rate0 det : K) : Except Fault (List (List K) × BufSt K × Bool) :=
  let next : WithTop K := ((s.frame / e.sr + 1 / e.sr * e.count : K) : WithTop K)
  if s.ended then .ok ([], s, false)
  else if s.buffer = none ∧ s.start ≠ ⊤ then .ok ([], s.sendEnded, false)
  else if next ≤ s.start then
    if s.stop ≤ next then .ok ([], s.sendEnded, false) else .ok ([], s, decide (s.start ≠ ⊤))
  else
    match s.buffer with
    | none => .ok ([], s, false)
    | some chans =>
      match s.play e chans rate0 (rate0 * det) with
      | .error f => .error f
      | .ok (out, s) => .ok (out, s, true)

/-! ## Histories -/

inductive BufOp (K : Type) where
  /-- `set_buffer`, l.278-288 -/
  | buffer (chans : List (List K))
  /-- `start_at_with_offset_and_duration`, l.253-265 -/
  | start (t offset : K) (duration : WithTop K)
  /-- `stop_at`, l.152-157 -/
  | stop (t : K)
  | loop (on : Bool)
  | loopStart (t : K)
  | loopEnd (t : K)
  /-- a quantum with the playback rate and `2^(detune/1200)` -/
  | block (rate det : K)
  /-- `before_drop`, l.872-879 -/
  | drop

/-- One step. `none`: the call panics on the calling thread. -/
def BufSt.step (e : BufEnv K) (s : BufSt K) : BufOp K → Option (Except Fault (List (List K) × BufSt K))
  | .buffer chans =>
    if s.buffer = none then some (.ok ([], BufSt.clampLoop e { s with buffer := some chans })) else none
  | .start t o d =>
    if s.hasStart ∨ t < 0 ∨ o < 0 ∨ d < 0 then none
    else some (.ok ([], BufSt.clampLoop e
      { s with hasStart := true, start := (t : WithTop K), offset := o, duration := d }))
  | .stop t =>
    if s.hasStart = false ∨ t < 0 then none
    else some (.ok ([], BufSt.clampLoop e { s with stop := (t : WithTop K) }))
  | .loop b => some (.ok ([], BufSt.clampLoop e { s with looping := b }))
  | .loopStart t => some (.ok ([], BufSt.clampLoop e { s with loopStart := t }))
  | .loopEnd t => some (.ok ([], BufSt.clampLoop e { s with loopEnd := t }))
  | .block rate det =>
    if s.alive then
      match s.process e rate det with
      | .error f => some (.error f)
      | .ok (out, s', _) => some (.ok (out, { s' with frame := s.frame + e.count }))
    else some (.ok ([], { s with frame := s.frame + e.count }))
  | .drop =>
    if s.alive then
      let now : WithTop K := ((s.frame / e.sr : K) : WithTop K)
      let s := if s.ended = false ∧ (s.start ≤ now ∨ s.stop ≤ now) then s.sendEnded else s
      some (.ok ([], { s with alive := false }))
    else some (.ok ([], s))

/-- The outputs of all steps and the final state. -/
def BufSt.run (e : BufEnv K) : BufSt K → List (BufOp K) → Option (Except Fault (List (List (List K)) × BufSt K))
  | s, [] => some (.ok ([], s))
  | s, op :: ops =>
    match s.step e op with
    | none => none
    | some (.error f) => some (.error f)
    | some (.ok (out, s)) =>
      match BufSt.run e s ops with
      | none => none
      | some (.error f) => some (.error f)
      | some (.ok (outs, s)) => some (.ok (out :: outs, s))

end

end Verif.Source
