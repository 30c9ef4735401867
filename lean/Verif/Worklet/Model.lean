import Mathlib.Data.List.Basic

/-!
# C70: what a worklet processor sees and what becomes of what it writes

Models `AudioWorkletNode::new` (the output channel counts, `/repo/src/worklet.rs` l.202-243), `Processor::load` (l.311-321),
`AudioWorkletRenderer::process` and `onmessage` (l.341-459). `α` is the content of a channel; channels have value
semantics (C14 is about the copy on write beneath).

The slices handed to the processor are references. Those to the outputs are modelled as locations (output, channel), so
that a wrong grouping would write to the wrong place. `split_at` beyond the end of the slice panics: `none`.
Parameters and scope are part of the function `process` of the processor.
-/

namespace Verif.Worklet

variable {α σ μ : Type}

/-- the counts computed in `AudioWorkletNode::new`, l.215-237; `none` is a panic -/
def new (nin nout : Nat) (counts : List Nat) : Option (List Nat) :=
  if nin = 0 ∧ nout = 0 then none
  else if counts = [] then
    if nin = 1 ∧ nout = 1 then some [] else some (List.replicate nout 1)
  else if ∀ c ∈ counts, 0 < c ∧ c ≤ 32 then
    if counts.length = nout then some counts else none
  else none

/-- the capacity of the vector for the output channels, l.239-243 -/
def outCapacity (counts : List Nat) : Nat := if counts = [] then 32 else counts.sum

/-- `AudioRenderQuantum::set_number_of_channels`, `/repo/src/render/quantum.rs` l.220-226; `none` is a panic -/
def setChannels (q : List α) (n : Nat) : Option (List α) :=
  if 0 < n ∧ n ≤ 32 then
    match q with
    | [] => none
    | c :: _ => some ((q ++ List.replicate (n - q.length) c).take n)
  else none

/-- splits the flat list into groups, l.363-389 and l.425-435 -/
def group {β : Type} : List β → List Nat → Option (List (List β))
  | _, [] => some []
  | flat, c :: cs =>
    if c ≤ flat.length then (group (flat.drop c) cs).map (flat.take c :: ·) else none

/-- the channels of all outputs, in order, l.414-423 -/
def locations (outputs : List (List α)) : List (Nat × Nat) :=
  (outputs.mapIdx fun i q => q.mapIdx fun j _ => (i, j)).flatten

/-- sets the channel counts of the outputs, l.391-400 -/
def resize (counts : List Nat) (inputs outputs : List (List α)) : Option (List (List α)) :=
  if outputs ≠ [] ∧ counts = [] then
    match outputs, inputs with
    | o :: os, i :: _ => (setChannels o i.length).map (· :: os)
    | _, _ => none
  else
    (outputs.mapIdx fun i o =>
      match counts[i]? with
      | some n => setChannels o n
      | none => some o).mapM id

/-- the counts used for the grouping, l.402-412 -/
def effective (counts : List Nat) (inputs : List (List α)) : List Nat :=
  if counts = [] then [match inputs with | i :: _ => i.length | [] => 0] else counts

/-- the groups of references to the outputs, l.414-435 -/
def references (counts : List Nat) (inputs outs : List (List α)) : Option (List (List (Nat × Nat))) :=
  if outs = [] then some [] else group (locations outs) (effective counts inputs)

/-- A processor: from its state, the inputs and what it finds in the outputs to its new state, the contents it leaves in
the outputs, by position, and its return value. -/
abbrev Proc (σ α : Type) := σ → List (List α) → List (List α) → σ × (Nat → Nat → α) × Bool

/-- the content of a location -/
def read (outputs : List (List α)) (d : α) (l : Nat × Nat) : α := ((outputs[l.1]?.getD [])[l.2]?).getD d

/-- the stores done through the groups of references -/
def stores (groups : List (List (Nat × Nat))) (w : Nat → Nat → α) : List ((Nat × Nat) × α) :=
  (groups.mapIdx fun g ls => ls.mapIdx fun c l => (l, w g c)).flatten

/-- the outputs after the stores -/
def store (outputs : List (List α)) (ss : List ((Nat × Nat) × α)) : List (List α) :=
  outputs.mapIdx fun i q => q.mapIdx fun j v => (ss.lookup (i, j)).getD v

/-- `process`, l.341-455. `compliant` is the feature `spec-compliant-worklet-inputs`, `silent` is `is_silent`; `d` is only
needed to make `read` total. The result: state, outputs, return value, and what the processor was called with. -/
def process (proc : Proc σ α) (compliant : Bool) (silent : List α → Bool) (d : α) (counts : List Nat) (s : σ)
    (inputs outputs : List (List α)) :
    Option (σ × List (List α) × Bool × (List (List α) × List (List α))) := do
  let grouped ← group inputs.flatten (inputs.map List.length)
  let ins := grouped.zipWith (fun g q => if compliant && silent q then [] else g) inputs
  let outs ← resize counts inputs outputs
  let refs ← references counts inputs outs
  let seen := refs.map fun g => g.map (read outs d)
  let (s', w, r) := proc s ins seen
  some (s', store outs (stores refs w), r, (ins, seen))

/-- `Processor`, l.301-304 -/
inductive Processor (ω σ : Type)
  | uninit (opts : ω)
  | init (p : σ)

/-- `load`, l.311-321: the processor, and how often the constructor has been called here -/
def Processor.load {ω : Type} (ctor : ω → σ) : Processor ω σ → σ × Nat
  | .uninit o => (ctor o, 1)
  | .init p => (p, 0)

/-- what the render thread does with the node -/
inductive Call (μ α : Type)
  | message (m : μ)
  | render (inputs : List (List α))

/-- A run of calls: the final state, the outputs and the number of constructor calls. -/
def run {ω : Type} (ctor : ω → σ) (proc : Proc σ α) (onmessage : σ → μ → σ) (compliant : Bool) (silent : List α → Bool)
    (d : α) (counts : List Nat) :
    Processor ω σ → List (List α) → List (Call μ α) →
      Option (Processor ω σ × List (List α) × Nat × List (List (List α)))
  | p, outputs, [] => some (p, outputs, 0, [])
  | p, outputs, .message m :: rest => do
    let (s, k) := p.load ctor
    let (p', outputs', n, trace) ← run ctor proc onmessage compliant silent d counts (.init (onmessage s m)) outputs rest
    some (p', outputs', k + n, trace)
  | p, outputs, .render inputs :: rest => do
    let (s, k) := p.load ctor
    let (s', outs, _, _) ← process proc compliant silent d counts s inputs outputs
    let (p', outputs', n, trace) ← run ctor proc onmessage compliant silent d counts (.init s') outs rest
    some (p', outputs', k + n, outs :: trace)

end Verif.Worklet
