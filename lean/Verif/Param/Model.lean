import Mathlib.Algebra.Order.Field.Basic
import Mathlib.Algebra.Order.Floor.Ring
import Mathlib.Algebra.Order.Floor.Semiring
import Mathlib.Data.List.Sort

/-!
# Model of `AudioParam` automation

Models `/repo/src/param.rs` l.63-264 (formulas, timeline), l.403-636 (scheduling methods) and
l.659-1600 (`AudioParamProcessor`).

Times are elements `K` of an ordered field, computed with exactly (the code: `f64`). Values are elements
of an arbitrary type `V` and the arithmetic on values is an arbitrary record `Arith` (the code: `f32`
arithmetic, `exp`, `powf`), so theorems about the model for all `Arith` hold whatever the rounding of
values. `exact` is the instance with exact arithmetic. `panic` stands for a panic on the render thread,
`fuel` is an artefact of the model that is proved unreachable.

`AudioParamEventTimeline::dirty` (l.183-264) is left out: every `push` is followed by a `sort` before the
end of `handle_incoming_event`, so `peek` and `next` never see a dirty queue.
-/

namespace Verif.Param

/-- `AudioParamEventType` (l.152-162) with the fields of `AudioParamEvent` that are only populated for
one type (`time_constant`, `duration`, `values`, l.164-173) as arguments. -/
inductive Kind (K V : Type) where
  | setValue
  | setValueAtTime
  | linear
  | exponential
  | cancel
  | target (tau : K)
  | cancelHold
  | curve (dur : K) (values : List V)
deriving DecidableEq, Repr

/-- `AudioParamEvent`, l.164-173 -/
structure Ev (K V : Type) where
  kind : Kind K V
  value : V
  time : K
  cancelTime : Option K := none
deriving DecidableEq, Repr

/-- Value arithmetic. `lin`, `exp`, `tgt`: start time, duration (time constant), start value, end value,
time. `curve`: `none` is an index out of bounds. `noRamp start end`: `start == 0 || start * end < 0`
(l.1200). `snap end v`: `|end - v| < SNAP_TO_TARGET` (l.1379-1382). `flush`: subnormals to zero
(l.1387-1393). -/
structure Arith (K V : Type) where
  lin : K → K → V → V → K → V
  exp : K → K → V → V → K → V
  tgt : K → K → V → V → K → V
  curve : K → K → List V → K → Option V
  noRamp : V → V → Bool
  snap : V → V → Bool
  isZero : V → Bool
  flush : V → V
  clamp : V → V

/-- Result of code that may panic. -/
inductive Res (α : Type) where
  | ok (a : α)
  | panic
  | fuel
deriving DecidableEq

def Res.bind {α β : Type} : Res α → (α → Res β) → Res β
  | .ok a, f => f a
  | .panic, _ => .panic
  | .fuel, _ => .fuel

/-- `AudioParamProcessor` without its constants, l.673-683 -/
structure Proc (K V : Type) where
  intrinsic : V
  aRate : Bool := true
  timeline : List (Ev K V) := []
  last : Option (Ev K V) := none
  buffer : List V := []
  /-- `current_value`, what `AudioParam::value` returns -/
  current : V
deriving DecidableEq

/-- `BlockInfos`, l.664-670; `aRate` is taken from the processor, `next` is computed. -/
structure Block (K : Type) where
  time : K
  dt : K
  count : Nat

section
variable {K V : Type} [Field K] [LinearOrder K] [FloorSemiring K]

/-- `next_block_time`, l.1516 -/
def Block.next (b : Block K) : K := b.dt * b.count + b.time

/-- `((t - infos.block_time).max(0.) / infos.dt).round() as usize`, l.1066 and others. `round` rounds
half away from zero; the argument is not negative. -/
def Block.index (b : Block K) (t : K) : Nat := ⌊max (t - b.time) 0 / b.dt + 1 / 2⌋₊

/-- time of frame `i` of the block, l.1124, l.1131 -/
def Block.frame (b : Block K) (i : Nat) : K := i * b.dt + b.time

def Ev.isRamp (e : Ev K V) : Bool :=
  match e.kind with
  | .linear => true
  | .exponential => true
  | _ => false

/-- `buffer.push` for the indices from the length of the buffer up to (excluding) `stop`. -/
def extend (buf : List V) (stop : Nat) (f : Nat → V) : List V :=
  buf ++ (List.range' buf.length (stop - buf.length)).map f

/-- Events scheduled for time 0 take place at the beginning of the block, l.1054-1062. -/
def Ev.at (e : Ev K V) (b : Block K) : K := if e.time = 0 then b.time else e.time

/-- `compute_set_value_automation`, l.1050-1093 -/
def computeSetValue (p : Proc K V) (b : Block K) : Res (Bool × Proc K V) :=
  match p.timeline with
  | [] => .panic
  | e :: rest =>
    let buf := if p.aRate then extend p.buffer (min (b.index (e.at b)) b.count) (fun _ => p.intrinsic)
      else p.buffer
    if b.next < e.at b then .ok (true, { p with buffer := buf })
    else .ok (false, { p with buffer := buf, intrinsic := e.value, timeline := rest,
                              last := some { e with time := e.at b } })

/-- `compute_linear_ramp_automation`, l.1097-1172 (`f = A.lin`), and the part of
`compute_exponential_ramp_automation` after the edge cases, l.1215-1279 (`f = A.exp`). The assignment to
`intrinsic_value` after the loop (l.1133) is overwritten on every path. -/
def computeRamp (f : K → K → V → V → K → V) (p : Proc K V) (b : Block K) (e l : Ev K V)
    (rest : List (Ev K V)) : Bool × Proc K V :=
  let duration := e.time - l.time
  let endTime := e.cancelTime.getD e.time
  let g := f l.time duration l.value e.value
  let buf := if p.aRate then
      extend p.buffer (min (b.index endTime) b.count) (fun i => g (b.frame i))
    else p.buffer
  if b.next ≤ endTime then (true, { p with buffer := buf, intrinsic := g b.next })
  else match e.cancelTime with
    | some _ => (false, { p with buffer := buf, intrinsic := g endTime, timeline := rest,
                                 last := some { e with time := endTime, value := g endTime } })
    | none => (false, { p with buffer := buf, intrinsic := e.value, timeline := rest, last := some e })

/-- `compute_linear_ramp_automation`, l.1097-1172 -/
def computeLinear (A : Arith K V) (p : Proc K V) (b : Block K) : Res (Bool × Proc K V) :=
  match p.timeline, p.last with
  | e :: rest, some l => .ok (computeRamp A.lin p b e l rest)
  | _, _ => .panic

/-- `compute_exponential_ramp_automation`, l.1176-1279 -/
def computeExp (A : Arith K V) (p : Proc K V) (b : Block K) : Res (Bool × Proc K V) :=
  match p.timeline, p.last with
  | e :: rest, some l =>
    if A.noRamp l.value e.value then
      .ok (false, { p with timeline :=
        { kind := .setValueAtTime, value := e.value, time := e.cancelTime.getD e.time } :: rest })
    else .ok (computeRamp A.exp p b e l rest)
  | _, _ => .panic

/-- End of a set target automation because of the next event, l.1292-1322: for a ramp that follows, the
beginning of the block; otherwise the time of the next event, if it is before the end of the block. -/
def targetNext (b : Block K) : List (Ev K V) → Option K
  | [] => none
  | n :: _ => if n.isRamp then some b.time else if n.time < b.next then some n.time else none

/-- End of a set target automation within this block, if any, l.1286-1330: the cancel time, if it is
before the end of the block, wins. -/
def targetEnd (b : Block K) (e : Ev K V) (rest : List (Ev K V)) : Option K :=
  match e.cancelTime with
  | some c => if c < b.next then some c else targetNext b rest
  | none => targetNext b rest

/-- `compute_set_target_automation`, l.1286-1426 -/
def computeTarget (A : Arith K V) (p : Proc K V) (b : Block K) (tau : K) : Res (Bool × Proc K V) :=
  match p.timeline, p.last with
  | e :: rest, some l =>
    let g := A.tgt e.time tau l.value e.value
    let endTime := (targetEnd b e rest).getD b.next
    let buf := if p.aRate then extend p.buffer (min (b.index endTime) b.count)
        (fun i => if b.frame i - e.time < 0 then p.intrinsic else g (b.frame i))
      else p.buffer
    match targetEnd b e rest with
    | none =>
      if A.snap e.value (g b.next) then
        .ok (true, { p with
          buffer := if A.isZero e.value then buf.map A.flush else buf
          intrinsic := e.value
          timeline := { kind := .setValueAtTime, value := e.value, time := b.next } :: rest })
      else .ok (true, { p with buffer := buf, intrinsic := g b.next })
    | some t => .ok (false, { p with buffer := buf, intrinsic := g t, timeline := rest,
                                     last := some { e with time := t, value := g t } })
  | _, _ => .panic

/-- `compute_set_value_curve_automation`, l.1428-1504 -/
def computeCurve (A : Arith K V) (p : Proc K V) (b : Block K) (dur : K) (values : List V) :
    Res (Bool × Proc K V) :=
  match p.timeline with
  | [] => .panic
  | e :: rest =>
    let endTime := e.cancelTime.getD (e.time + dur)
    let g := A.curve e.time dur values
    let samples := if p.aRate then
        (List.range' p.buffer.length (min (b.index endTime) b.count - p.buffer.length)).mapM
          (fun i => if b.frame i < e.time then some p.intrinsic else g (b.frame i))
      else some []
    match samples with
    | none => .panic
    | some s =>
      if b.next ≤ endTime then
        match g b.next with
        | none => .panic
        | some v => .ok (true, { p with buffer := p.buffer ++ s, intrinsic := v })
      else
        match (if e.cancelTime.isSome then g endTime else values.getLast?) with
        | none => .panic
        | some v => .ok (false, { p with buffer := p.buffer ++ s, intrinsic := v, timeline := rest,
                                         last := some { e with time := endTime, value := v } })

/-- The dispatch in the loop of `compute_buffer`, l.1561-1594. `true`: leave the loop. -/
def computeEvent (A : Arith K V) (p : Proc K V) (b : Block K) : Res (Bool × Proc K V) :=
  match p.timeline with
  | [] =>
    let buf := if p.aRate then extend p.buffer b.count (fun _ => p.intrinsic) else p.buffer
    .ok (true, { p with buffer := buf })
  | e :: _ => match e.kind with
    | .setValue => computeSetValue p b
    | .setValueAtTime => computeSetValue p b
    | .linear => computeLinear A p b
    | .exponential => computeExp A p b
    | .target tau => computeTarget A p b tau
    | .curve dur values => computeCurve A p b dur values
    | .cancel => .panic
    | .cancelHold => .panic

/-- the loop of `compute_buffer`, l.1560-1599 -/
def loop (A : Arith K V) (b : Block K) : Nat → Proc K V → Res (Proc K V)
  | 0, _ => .fuel
  | n + 1, p => (computeEvent A p b).bind fun r => if r.1 then .ok r.2 else loop A b n r.2

/-- `is_constant_block`, l.1530-1541 -/
def isConstant (p : Proc K V) (b : Block K) : Bool :=
  match p.timeline with
  | [] => true
  | e :: _ => !e.isRamp && decide (b.next ≤ e.time)

/-- `compute_buffer`, l.1506-1600. Each event takes at most two passes of the loop (an exponential ramp
may be replaced). -/
def computeBuffer (A : Arith K V) (p : Proc K V) (b : Block K) : Res (Proc K V) :=
  let p := { p with current := A.clamp p.intrinsic,
                    buffer := if !p.aRate || isConstant p b then [p.intrinsic] else [] }
  if isConstant p b then .ok p
  else loop A b (2 * p.timeline.length + 1) p

/-- stable sort by time, l.251-255 -/
def sort (l : List (Ev K V)) : List (Ev K V) := l.insertionSort fun a b => a.time ≤ b.time

/-- `CancelAndHoldAtTime` on the sorted timeline, l.869-944. The loop that looks for the events `E1` and
`E2` (l.881-893) finds, on a sorted timeline, the last event at or before `tc` and the first one after. -/
def cancelHold (tl : List (Ev K V)) (tc : K) : List (Ev K V) :=
  let before := tl.filter fun q => q.time ≤ tc
  let after := tl.filter fun q => tc < q.time
  let marked := match after with
    | e2 :: more => before ++ (if e2.isRamp then { e2 with cancelTime := some tc } else e2) :: more
    | [] => match before.getLast? with
      | none => before
      | some e1 => before.dropLast ++ [match e1.kind with
        | .target _ => { e1 with cancelTime := some tc }
        | .curve dur _ => if tc ≤ e1.time + dur then { e1 with cancelTime := some tc } else e1
        | _ => e1]
  marked.filter fun q => q.cancelTime.getD q.time ≤ tc

/-- The checks on overlap with value curves, l.956-992. -/
def overlaps (tl : List (Ev K V)) (e : Ev K V) : Bool :=
  match e.kind with
  | .curve dur _ => tl.any fun q => decide (e.time < q.time) && decide (q.time < e.time + dur)
  | _ => tl.any fun q => match q.kind with
    | .curve dur _ => decide (q.time < e.time) && decide (e.time < q.time + dur)
    | _ => false

/-- The implicitly inserted events, l.1004-1043. -/
def implicit (p : Proc K V) (e : Ev K V) : List (Ev K V) :=
  let s : Ev K V := { kind := .setValue, value := p.intrinsic, time := 0 }
  if p.timeline = [] then
    match e.kind with
    | .linear => if p.last.isNone then [s] else []
    | .exponential => if p.last.isNone then [s] else []
    | .target _ => [s]
    | _ => []
  else []

/-- `SetValue` changes the intrinsic value at once, l.995-997. -/
def setIntrinsic (p : Proc K V) (e : Ev K V) : V :=
  match e.kind with
  | .setValue => e.value
  | _ => p.intrinsic

/-- Insertion of an event that is not a cancel event, l.956-1046. -/
def insert (p : Proc K V) (e : Ev K V) : Res (Proc K V) :=
  if overlaps p.timeline e then .panic
  else .ok { p with intrinsic := setIntrinsic p e
                    timeline := sort (p.timeline ++ implicit p e ++ [e]) }

/-- `handle_incoming_event`, l.799-1047 -/
def handle (p : Proc K V) (e : Ev K V) : Res (Proc K V) :=
  match e.kind with
  | .cancel =>
    let kept := p.timeline.filter fun q => q.time < e.time
    match p.timeline with
    | [] => .ok p
    | c :: _ =>
      if c.isRamp && decide (e.time ≤ c.time) then
        match p.last with
        | none => .panic
        | some l => .ok { p with intrinsic := l.value, timeline := kept }
      else .ok { p with timeline := kept }
  | .cancelHold => .ok { p with timeline := cancelHold (sort p.timeline) e.time }
  | _ => insert p e

/-- The scheduling methods, l.403-617. -/
inductive Call (K V : Type) where
  | setValue (v : V)
  | setValueAtTime (v : V) (t : K)
  | linear (v : V) (t : K)
  | exponential (v : V) (t : K)
  | target (v : V) (t tau : K)
  | cancel (t : K)
  | cancelHold (t : K)
  | curve (values : List V) (t dur : K)

/-- The event a scheduling method sends; `none`: the arguments are rejected with a panic on the calling
thread (`assert_is_finite` always holds for members of `K`, `V`; `assert_valid_time_value`: lib.rs
l.240-251; `zero` is the value `0.` that stands for "no value"). -/
def Call.event (A : Arith K V) (zero : V) : Call K V → Option (Ev K V)
  | .setValue v => some { kind := .setValue, value := v, time := 0 }
  | .setValueAtTime v t => if t < 0 then none else some { kind := .setValueAtTime, value := v, time := t }
  | .linear v t => if t < 0 then none else some { kind := .linear, value := v, time := t }
  | .exponential v t =>
    if A.isZero v then none else if t < 0 then none
    else some { kind := .exponential, value := v, time := t }
  | .target v t tau =>
    if t < 0 then none else if tau < 0 then none
    else if tau = 0 then some { kind := .setValueAtTime, value := v, time := t }
    else some { kind := .target tau, value := v, time := t }
  | .cancel t => if t < 0 then none else some { kind := .cancel, value := zero, time := t }
  | .cancelHold t => if t < 0 then none else some { kind := .cancelHold, value := zero, time := t }
  | .curve values t dur =>
    if values.length < 2 then none else if t < 0 then none else if dur ≤ 0 then none
    else some { kind := .curve dur values, value := zero, time := t }

/-- A parameter in a rendering context: the processor and the number of frames rendered so far. -/
structure Sys (K V : Type) where
  p : Proc K V
  frame : Nat := 0

/-- What happens to a parameter: a message with a scheduled event or an automation rate arrives
(`onmessage`, l.704-727), or a quantum is rendered (`process`, l.686-702). -/
inductive Op (K V : Type) where
  | event (e : Ev K V)
  | rate (aRate : Bool)
  | block

/-- One operation; `dt` is `1 / sample_rate`, `count` is 128. The current time of the context is the
number of rendered frames divided by the sample rate. -/
def step (A : Arith K V) (dt : K) (count : Nat) (s : Sys K V) : Op K V → Res (Sys K V)
  | .event e => (handle s.p e).bind fun p => .ok { s with p := p }
  | .rate a => .ok { s with p := { s.p with aRate := a } }
  | .block => (computeBuffer A s.p ⟨s.frame * dt, dt, count⟩).bind fun p =>
      .ok { p := p, frame := s.frame + count }

def run (A : Arith K V) (dt : K) (count : Nat) (s : Sys K V) : List (Op K V) → Res (Sys K V)
  | [] => .ok s
  | op :: ops => (step A dt count s op).bind fun s => run A dt count s ops

/-- The buffers of successive quanta with no messages in between. -/
def blocks (A : Arith K V) (dt : K) (count : Nat) (s : Sys K V) : Nat → Res (Sys K V)
  | 0 => .ok s
  | n + 1 => (blocks A dt count s n).bind fun s => step A dt count s .block

/-- The value of the parameter for frame `i` of a block: a buffer of length 1 stands for a constant
(`mix_to_output`, l.739-797, without input; `AudioParamValues::get`). -/
def Proc.valueAt (p : Proc K V) (i : Nat) : Option V :=
  if p.buffer.length = 1 then p.buffer[0]? else p.buffer[i]?

end

section exact
variable {K : Type} [Field K] [LinearOrder K] [FloorRing K] [FloorSemiring K]

/-- The formulas l.64-120 in exact arithmetic; `ex` and `pw` stand for `exp` and `powf`. A position
before the start of a curve is negative: the cast to `usize` saturates at 0, the phase is the distance
to the floor. -/
def exact (ex : K → K) (pw : K → K → K) (mn mx : K) : Arith K K where
  lin start dur v0 v1 t := (v1 - v0) * ((t - start) / dur) + v0
  exp start dur v0 v1 t := v0 * pw (v1 / v0) ((t - start) / dur)
  tgt start tau v0 v1 t := (v0 - v1) * ex (-((t - start) / tau)) + v1
  curve start dur values t :=
    if dur ≤ t - start then values.getLast?
    else
      let position := ((values.length - 1 : Nat) : K) * (t - start) / dur
      let k := ⌊position⌋₊
      let phase := position - ⌊position⌋
      match values[k]?, values[k + 1]? with
      | some a, some b => some ((b - a) * phase + a)
      | _, _ => none
  noRamp v0 v1 := decide (v0 = 0 ∨ v0 * v1 < 0)
  snap e v := decide (|e - v| < 1 / 10 ^ 10)
  isZero v := decide (v = 0)
  flush := id
  clamp v := min (max v mn) mx

end exact

end Verif.Param
