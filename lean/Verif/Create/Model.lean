import Verif.Param.OutputProps
import Verif.Param.ValueProps

/-!
# Model of the creation of nodes with their parameters

Models the constructors of the nodes with parameters (citations below), `create_audio_param`
(`/repo/src/context/base.rs` l.320-337), `audio_param_pair` (`/repo/src/param.rs` l.1603-1654),
`AudioParam::{set_value, set_automation_rate}` (l.348-404) and the messages that `register` and
`queue_audio_param_connect` send (`/repo/src/context/concrete_base.rs` l.232-270, l.426-440, l.461-471).

Not modelled: the fields of the nodes other than their parameters, the checks of channel counts (C51). Numbers are
exact; values that are not finite are kept apart (`Fl`).
-/

namespace Verif.Create

open Verif.Param (Fl Proc)

/-- `AudioParamDescriptor`, param.rs l.143-149; the name is the one under which the node exposes the parameter. -/
structure Desc (K : Type) where
  name : String
  aRate : Bool
  dflt : Fl K
  mn : Fl K
  mx : Fl K

/-- `AudioParam` and `AudioParamInner`, param.rs l.267-297, with the id of its registration -/
structure Ctl (K : Type) where
  name : String
  id : Nat
  dflt : K
  mn : K
  mx : K
  constrained : Bool := false
  aRate : Bool
  current : K

/-- The control messages sent during construction: registration of a parameter and of the node, a `SetValue` event,
and a connection to the hidden port. -/
inductive CMsg (K : Type) where
  | param (id : Nat) (p : Proc K K)
  | node (id : Nat)
  | post (id : Nat) (v : K)
  | connect (src dst : Nat)

/-- What the closure of a constructor does. Parameters are numbered in the order of their creation. -/
inductive Act (K : Type) where
  /-- `create_audio_param` -/
  | param (d : Desc K)
  /-- `set_automation_rate_constrained(true)` -/
  | constrain (i : Nat)
  /-- `set_value` -/
  | set (i : Nat) (v : Fl K)

/-- The parameters created so far, `queued_messages` and the messages sent -/
structure St (K : Type) where
  params : List (Ctl K) := []
  queue : List (CMsg K) := []
  sent : List (CMsg K) := []

section
variable {K : Type} [Field K] [LinearOrder K]

/-- `audio_param_pair`, param.rs l.1603-1654. `none`: an assertion fails. -/
def audioParamPair (d : Desc K) (id : Nat) : Option (Ctl K × Proc K K) :=
  match d.dflt, d.mn, d.mx with
  | .fin x, .fin a, .fin b =>
    if a ≤ x ∧ x ≤ b then
      some ({ name := d.name, id := id, dflt := x, mn := a, mx := b, aRate := d.aRate, current := x },
        { intrinsic := x, aRate := d.aRate, current := x })
    else none
  | _, _, _ => none

/-- `f32::clamp` -/
def Ctl.clamp (c : Ctl K) (x : K) : K := min (max x c.mn) c.mx

/-- is this a connection that waits for the node `id`? -/
def CMsg.waitsFor (id : Nat) : CMsg K → Bool
  | .connect _ dst => dst = id
  | _ => false

/-- The end of `register` for the node or parameter `id`: send the registration, then
`resolve_queued_control_msgs` (concrete_base.rs l.428-440). -/
def St.register (s : St K) (id : Nat) (m : CMsg K) : St K :=
  { s with sent := s.sent ++ [m] ++ s.queue.filter (CMsg.waitsFor id)
           queue := s.queue.filter fun m => !CMsg.waitsFor id m }

/-- One action of the closure of the constructor of node `n`; the parameters get the ids `ids 0`, `ids 1`, …
`none`: panic. -/
def St.act (n : Nat) (ids : Nat → Nat) (s : St K) : Act K → Option (St K)
  | .param d =>
    match audioParamPair d (ids s.params.length) with
    | some (c, p) =>
      let t := s.register (ids s.params.length) (.param (ids s.params.length) p)
      some { t with params := s.params ++ [c], queue := t.queue ++ [.connect (ids s.params.length) n] }
    | none => none
  | .constrain i => some { s with params := s.params.modify i fun c => { c with constrained := true } }
  | .set i v =>
    match s.params[i]?, v with
    | some c, .fin x =>
      some { s with params := s.params.set i { c with current := c.clamp x }, sent := s.sent ++ [.post c.id x] }
    | _, _ => none

/-- all actions of the closure -/
def St.acts (n : Nat) (ids : Nat → Nat) : St K → List (Act K) → Option (St K)
  | s, [] => some s
  | s, a :: as => (s.act n ids a).bind fun t => t.acts n ids as

/-- `register` with a closure that performs `as` -/
def create (n : Nat) (ids : Nat → Nat) (as : List (Act K)) : Option (St K) :=
  (St.acts n ids ({} : St K) as).map fun s => s.register n (.node n)

/-- `f32::MAX`; `f32::MIN` is its negative -/
def fmax : K := (2 ^ 24 - 1) * 2 ^ 104

/-- The nodes with parameters. -/
inductive Kind
  | gain | constantSource | stereoPanner | biquadFilter | oscillator | bufferSource | compressor | panner | delay
  | listener
deriving DecidableEq

/-- `PARAM_OPTS`, `/repo/src/spatial.rs` l.18-24, with a name -/
def paramOpts (name : String) : Desc K := ⟨name, true, .fin 0, .fin (-fmax), .fin fmax⟩

/-- The constructors. `opt` are the values in the options, `sr` is the sample rate, `md` is `max_delay_time`, `log10`
the logarithm. -/
def Kind.closure (log10 : K → K) (sr md : K) (opt : String → Fl K) : Kind → List (Act K)
  | .gain => -- gain.rs l.100-124
    [.param ⟨"gain", true, .fin 1, .fin (-fmax), .fin fmax⟩, .set 0 (opt "gain")]
  | .constantSource => -- constant_source.rs l.141-171
    [.param ⟨"offset", true, .fin 1, .fin (-fmax), .fin fmax⟩, .set 0 (opt "offset")]
  | .stereoPanner => -- stereo_panner.rs l.170-196
    [.param ⟨"pan", true, .fin 0, .fin (-1), .fin 1⟩, .set 0 (opt "pan")]
  | .biquadFilter => -- biquad_filter.rs l.542-616
    [.param ⟨"Q", true, .fin 1, .fin (-fmax), .fin fmax⟩, .set 0 (opt "Q"),
     .param ⟨"detune", true, .fin 0, .fin (-153600), .fin 153600⟩, .set 1 (opt "detune"),
     .param ⟨"frequency", true, .fin 350, .fin 0, .fin (sr / 2)⟩, .set 2 (opt "frequency"),
     .param ⟨"gain", true, .fin 0, .fin (-fmax), .fin (40 * log10 fmax)⟩, .set 3 (opt "gain")]
  | .oscillator => -- oscillator.rs l.210-275
    [.param ⟨"frequency", true, .fin 440, .fin (-(sr / 2)), .fin (sr / 2)⟩, .set 0 (opt "frequency"),
     .param ⟨"detune", true, .fin 0, .fin (-153600), .fin 153600⟩, .set 1 (opt "detune")]
  | .bufferSource => -- audio_buffer_source.rs l.162-237
    [.param ⟨"detune", false, .fin 0, .fin (-fmax), .fin fmax⟩, .constrain 0, .set 0 (opt "detune"),
     .param ⟨"playbackRate", false, .fin 1, .fin (-fmax), .fin fmax⟩, .constrain 1, .set 1 (opt "playbackRate")]
  | .compressor => -- dynamics_compressor.rs l.183-286
    [.param ⟨"attack", false, .fin (3 / 1000), .fin 0, .fin 1⟩, .constrain 0, .set 0 (opt "attack"),
     .param ⟨"knee", false, .fin 30, .fin 0, .fin 40⟩, .constrain 1, .set 1 (opt "knee"),
     .param ⟨"ratio", false, .fin 12, .fin 1, .fin 20⟩, .constrain 2, .set 2 (opt "ratio"),
     .param ⟨"release", false, .fin (1 / 4), .fin 0, .fin 1⟩, .constrain 3, .set 3 (opt "release"),
     .param ⟨"threshold", false, .fin (-24), .fin (-100), .fin 0⟩, .constrain 4, .set 4 (opt "threshold")]
  | .panner => -- panner.rs l.392-500
    [.param (paramOpts "positionX"), .param (paramOpts "positionY"), .param (paramOpts "positionZ"),
     .set 0 (opt "positionX"), .set 1 (opt "positionY"), .set 2 (opt "positionZ"),
     .param { paramOpts "orientationX" with dflt := .fin 1 }, .param (paramOpts "orientationY"),
     .param (paramOpts "orientationZ"),
     .set 3 (opt "orientationX"), .set 4 (opt "orientationY"), .set 5 (opt "orientationZ")]
  | .delay => -- delay.rs l.316-347
    [.param ⟨"delayTime", true, .fin 0, .fin 0, .fin md⟩, .set 0 (opt "delayTime")]
  | .listener => -- spatial.rs l.124-166
    [.param (paramOpts "positionX"), .param (paramOpts "positionY"), .param (paramOpts "positionZ"),
     .param (paramOpts "forwardX"), .param (paramOpts "forwardY"),
     .param { paramOpts "forwardZ" with dflt := .fin (-1) },
     .param (paramOpts "upX"), .param { paramOpts "upY" with dflt := .fin 1 }, .param (paramOpts "upZ")]

/-- `AudioWorkletNode::new`, `/repo/src/worklet.rs` l.245-258: for each descriptor a parameter, with the value in
`parameter_data`, if any -/
def workletClosure (data : String → Option (Fl K)) : Nat → List (Desc K) → List (Act K)
  | _, [] => []
  | i, d :: ds => .param d :: ((data d.name).elim [] (fun v => [.set i v]) ++ workletClosure data (i + 1) ds)

/-- `set_automation_rate`, param.rs l.348-359, on the control side: `none` is a panic, otherwise the message is the new
rate -/
def Ctl.setRate (c : Ctl K) (aRate : Bool) : Option (Ctl K × Bool) :=
  if c.constrained = false ∨ aRate = c.aRate then some ({ c with aRate := aRate }, aRate) else none

end

/-! ## The render thread -/

/-- The parameters (by id) and nodes known to the render thread, and the number of frames rendered -/
structure Rt (K : Type) where
  params : Nat → Option (Proc K K) := fun _ => none
  nodes : List Nat := []
  frame : Nat

section
variable {K : Type} [Field K] [LinearOrder K] [IsStrictOrderedRing K] [FloorRing K] [FloorSemiring K]

open Verif.Param (Arith Res)

/-- `handle_control_message` (render/thread.rs l.136-252) for these messages: a message for an id without node is a
panic (`none`), and so is a connection between ids without node. -/
def Rt.recv (r : Rt K) : CMsg K → Option (Rt K)
  | .param id p => some { r with params := fun i => if i = id then some p else r.params i }
  | .node id => some { r with nodes := r.nodes ++ [id] }
  | .post id v =>
    match r.params id with
    | none => none
    | some p =>
      match Param.handle p { kind := .setValue, value := v, time := 0 } with
      | .ok q => some { r with params := fun i => if i = id then some q else r.params i }
      | _ => none
  | .connect src dst => if (r.params src).isSome ∧ dst ∈ r.nodes then some r else none

/-- The parameter in one quantum; `none` if there is none (a panic does not occur, see `block_ok`). -/
def blockOf (A : Arith K K) (b : Param.Block K) (p : Proc K K) : Option (Proc K K) :=
  match Param.computeBuffer A p b with
  | .ok q => some q
  | _ => none

/-- One quantum, as far as the parameters are concerned; `A id` is the arithmetic with the bounds of the parameter. -/
def Rt.quantum (A : Nat → Arith K K) (dt : K) (count : Nat) (r : Rt K) : Rt K :=
  { r with params := fun i => (r.params i).bind (blockOf (A i) ⟨r.frame * dt, dt, count⟩)
           frame := r.frame + count }

/-- The render thread receives the messages one by one (`true`) and renders quanta (`false`) in any order. -/
def Rt.run (A : Nat → Arith K K) (dt : K) (count : Nat) : Rt K → List (CMsg K) → List Bool → Option (Rt K × List (CMsg K))
  | r, ms, [] => some (r, ms)
  | r, [], true :: hs => r.run A dt count [] hs
  | r, m :: ms, true :: hs => (r.recv m).bind fun r => r.run A dt count ms hs
  | r, ms, false :: hs => (r.quantum A dt count).run A dt count ms hs

end

end Verif.Create
