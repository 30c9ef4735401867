import Mathlib.Algebra.Order.Field.Basic
import Mathlib.Order.WithBot

/-!
# Model of the constant source

Models `ConstantSourceNode` (start/stop, `/repo/src/node/constant_source.rs` l.101-128) and
`ConstantSourceRenderer` (l.183-288: `process`, `onmessage`, `before_drop`).

Times are elements of an ordered field, computed with exactly (the code: `f64`, with the time of a frame
accumulated). `⊤` stands for `f64::MAX`. Messages arrive between two quanta. The offset parameter of a quantum
is a list of one value or one value per frame (`C24_length`).
-/

namespace Verif.Source

section
variable {K V : Type} [Field K] [LinearOrder K] [Zero V]

/-- `has_start` of the control side, the renderer, and the frame counter of the context. Ghost: `events`,
the number of ended events sent; `alive`: the renderer was not dropped. -/
structure Const (K : Type) where
  hasStart : Bool := false
  start : WithTop K := ⊤
  stop : WithTop K := ⊤
  ended : Bool := false
  frame : Nat := 0
  events : Nat := 0
  alive : Bool := true

inductive ConstOp (K V : Type) where
  /-- `start_at`, l.107-116 -/
  | start (t : K)
  /-- `stop_at`, l.123-128 -/
  | stop (t : K)
  /-- `process` with the values of the offset parameter -/
  | block (offset : List V)
  /-- `before_drop` -/
  | drop

/-- `send_ended_event` if it was not sent before, l.208-211, l.259-262, l.280-287 -/
def Const.sendEnded (s : Const K) : Const K :=
  if s.ended then s else { s with ended := true, events := s.events + 1 }

/-- `process`, l.190-266: the output (`[]` for silence), the state, and the return value (tail time). -/
def Const.process (s : Const K) (dt : K) (count : Nat) (offset : List V) : List V × Const K × Bool :=
  let now : WithTop K := ((s.frame * dt : K) : WithTop K)
  let next : WithTop K := ((s.frame * dt + dt * count : K) : WithTop K)
  if next ≤ s.start then
    if s.stop ≤ next then ([], s.sendEnded, false)
    else ([], s, decide (s.start ≠ ⊤))
  else
    let out :=
      if offset.length = 1 ∧ s.start ≤ now ∧ next ≤ s.stop then
        List.replicate count (offset.headD 0)
      else
        (List.range count).map fun (i : Nat) =>
          let t : WithTop K := ((s.frame * dt + i * dt : K) : WithTop K)
          if t < s.start ∨ s.stop ≤ t then 0 else (offset[i % offset.length]?).getD 0
    if next < s.stop then (out, s, true) else (out, s.sendEnded, false)

/-- One call, one quantum, or the drop of the renderer. `none`: the call panics (on the calling thread). -/
def Const.step (dt : K) (count : Nat) (s : Const K) : ConstOp K V → Option (List V × Const K)
  | .start t => if s.hasStart ∨ t < 0 then none else some ([], { s with hasStart := true, start := t })
  | .stop t => if s.hasStart = false ∨ t < 0 then none else some ([], { s with stop := t })
  | .block offset =>
    if s.alive then
      let r := s.process dt count offset
      some (r.1, { r.2.1 with frame := s.frame + count })
    else some ([], { s with frame := s.frame + count })
  | .drop =>
    if s.alive then
      let now : WithTop K := ((s.frame * dt : K) : WithTop K)
      let s := if s.ended = false ∧ (s.start ≤ now ∨ s.stop ≤ now) then s.sendEnded else s
      some ([], { s with alive := false })
    else some ([], s)

def Const.run (dt : K) (count : Nat) : Const K → List (ConstOp K V) → Option (Const K)
  | s, [] => some s
  | s, op :: ops => (Const.step dt count s op).bind fun r => Const.run dt count r.2 ops

end

end Verif.Source
