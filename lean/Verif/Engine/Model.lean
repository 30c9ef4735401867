import Verif.Graph.SystemModel
import Verif.Mix.Model
import Verif.Node.Gain
import Verif.Node.MergeSplit
import Verif.Filter.IirModel

/-!
# The graph with actual nodes and actual mixing

Puts together the models of the graph (`Verif.Graph.RenderModel`, `/repo/src/render/graph.rs`), of the summing of
connections (`Verif.Mix.Model`, `/repo/src/render/quantum.rs`) and of processors (`Verif.Node`, `Verif.Filter`): an
instance of `Verif.Render.Sem`.

Simplifications: exact arithmetic. Parameters are not nodes of the graph: a gain node carries the values its parameter
will have in each quantum, which therefore do not depend on audio signals. Sources carry the quanta they will play. Only
silent channels share a buffer (in the code a merger, an up-mix or a gain of one can yield a quantum in which channels
share a buffer; this matters only for the shortcut of `add` for identical channels, see `C13_negated_fast_path`). Delays
are added in `Verif.Engine.Delays` (their two halves share memory).
-/

namespace Verif.Engine

open Verif.Render

section
variable {K : Type} [Field K] [LinearOrder K] [IsStrictOrderedRing K]

/-- `AudioRenderQuantum`, quantum.rs l.179-184 -/
abbrev Sig (K : Type) := Node.Quantum K

/-- `ChannelCountMode`, `/repo/src/node/audio_node.rs` l.9-31, from the number in `Cfg` -/
def modeOf : Nat → Mix.Mode
  | 0 => .max
  | 1 => .clampedMax
  | _ => .explicit

/-- `ChannelInterpretation`, audio_node.rs l.35-50, from the number in `Cfg` -/
def interpOf : Nat → Mix.Interp
  | 0 => .speakers
  | _ => .discrete

/-- the buffers of a signal: silent channels share the buffer of zeros (quantum.rs l.122-127), channel `k` has address
`off + k + 1` otherwise -/
def place (off : Nat) (q : Sig K) : List (Mix.Chan K) :=
  q.mapIdx fun k c => match c with
    | none => Mix.zero
    | some l => ⟨off + k + 1, fun i => l.getD i 0⟩

/-- the contents of buffers -/
def contents (N : Nat) (s : List (Mix.Chan K)) : Sig K :=
  s.map fun c => if c.ptr = 0 then none else some ((List.range N).map c.data)

/-- `AudioRenderQuantum::add`, quantum.rs l.532-569; `r` is the square root of a half -/
def addSig (N : Nat) (r : K) (c : Cfg) (a b : Sig K) : Sig K :=
  contents N (Mix.add r (modeOf c.mode) c.count (interpOf c.interp) (a.length + b.length + 1) (place 0 a)
    (place a.length b)).1

/-- Processors. A source plays its quanta one after the other, with the return value (tail time) of each. A gain node
has the values of its parameter in each quantum. -/
inductive Proc (K : Type) where
  /-- `DestinationRenderer`, `/repo/src/node/destination.rs` l.140-163 -/
  | destination
  /-- a source node -/
  | source (play : Nat → Sig K × Bool) (k : Nat)
  /-- `GainRenderer`, `/repo/src/node/gain.rs` l.135-199 -/
  | gain (values : Nat → List K) (k : Nat)
  /-- `IirFilterRenderer`, `/repo/src/node/iir_filter.rs` l.268-413 -/
  | iir (f : Filter.Iir K)
  /-- `ChannelSplitterRenderer`, `/repo/src/node/channel_splitter.rs` l.176-210 -/
  | splitter (outputs : Nat)
  /-- `ChannelMergerRenderer`, `/repo/src/node/channel_merger.rs` l.142-172 -/
  | merger

/-- what the processors are: threshold of the gain shortcut (gain.rs l.166), number of frames, root of a half -/
structure Consts (K : Type) where
  thr : K
  N : Nat
  r : K

/-- `AudioProcessor::process` of the processors; `none` is a panic (an index out of bounds). Outputs that are not
mentioned keep their contents. -/
def process (e : Consts K) : Proc K → List (Sig K) → List (Sig K) → Option (Proc K × List (Sig K) × Bool)
  | .destination, i :: _, _ :: os => some (.destination, i :: os, true)
  | .source play k, _, _ :: os => some (.source play (k + 1), (play k).1 :: os, (play k).2)
  | .gain values k, i :: _, _ :: os =>
    some (.gain values (k + 1), Node.gainProcess e.thr e.N (values k) i :: os, false)
  | .iir f, i :: _, _ :: os =>
    some (.iir (f.process e.N i).1, (f.process e.N i).2.1 :: os, (f.process e.N i).2.2)
  | .splitter n, i :: _, outs =>
    (Node.splitter n i outs).map fun o => (.splitter n, o, false)
  | .merger, ins, o :: os =>
    (Node.merger ins o).map fun q => (.merger, q :: os, false)
  | _, _, _ => none

theorem process_len (e : Consts K) (p : Proc K) (ins outs : List (Sig K)) (p' : Proc K) (outs' : List (Sig K)) (t : Bool)
    (h : process e p ins outs = some (p', outs', t)) : outs'.length = outs.length := by
  unfold process at h
  split at h
  any_goals
    simp only [Option.some.injEq, Prod.mk.injEq] at h
    rw [← h.2.1]
    rfl
  · rename_i n i _
    simp only [Option.map_eq_some_iff, Prod.mk.injEq] at h
    obtain ⟨o, ho, _, rfl, _⟩ := h
    unfold Node.splitter at ho
    split at ho
    · simp only [Option.some.injEq] at ho
      rw [← ho]
      simp
    · cases ho
  · simp only [Option.map_eq_some_iff, Prod.mk.injEq] at h
    obtain ⟨q, _, _, rfl, _⟩ := h
    rfl
  · cases h

/-- The graph with these processors. A message to a source gives it something else to play; other processors ignore
messages (`/repo/src/render/processor.rs` l.156-158). -/
def sem (e : Consts K) : Sem (Proc K) (Sig K) (Nat → Sig K × Bool) where
  process p ins outs _ := process e p ins outs
  process_len p ins outs _ p' outs' t h := process_len e p ins outs p' outs' t h
  onmessage p m := match p with
    | .source _ _ => some (.source m 0)
    | p => some p
  sideEffects p := match p with
    | .destination => true
    | _ => false
  silence := Node.silence
  add := addSig e.N e.r

end

end Verif.Engine
