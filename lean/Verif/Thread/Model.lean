import Mathlib.Data.List.Basic

/-!
# Model of the real-time render thread

Models `RenderThread::handle_control_messages` (`/repo/src/render/thread.rs` l.123-134),
`handle_control_message` (l.136-252), `render_inner` (l.441-532).

The graph is abstract: `G` with an arbitrary `render` (the graph itself is modelled in `Verif/Graph`).
Samples are elements of an arbitrary type `K` with a zero. The conversion to the sample type of the
device (`S::from_sample_`) is omitted. Which control messages have arrived when the thread polls its
queue is decided by the environment: each poll consumes the next batch of a list of batches, so that
all interleavings with control threads are covered. A panic of the thread is `none`.
-/

namespace Verif.Thread

/-- samples of all channels of one render quantum of 128 frames (`AudioRenderQuantum`) -/
abbrev Quantum (K : Type) := List (Nat → K)

/-- `RENDER_QUANTUM_SIZE`, `/repo/src/lib.rs` -/
abbrev rqs : Nat := 128

/-- what the thread needs of `Graph` (`/repo/src/render/graph.rs`): `render` gets the current frame
(l.490-591), `active` is `is_active` (l.228-231) -/
structure Sem (G K : Type) where
  render : G → Nat → G × Quantum K
  active : G → Bool

/-- `AudioContextState`, `/repo/src/context/mod.rs` -/
inductive CtxState where
  | suspended
  | running
  | closed
deriving DecidableEq, Repr

/-- `ControlMessage`. All messages that only concern the graph are `graph f`, where `f` is the change
of the graph and `none` a panic. -/
inductive Msg (G : Type) where
  | graph (f : G → Option G)
  | suspend
  | resume
  | close
  | closeAndRecycle
  | startup (g : G)

/-- Ghost: what happened, in order. A quantum is logged as the graph returned it, with the frame number
at which it was rendered; `silence n` stands for `n` samples of silence written to the device. -/
inductive Seg (K : Type) where
  | quantum (frame : Nat) (q : Quantum K)
  | silence (n : Nat)

/-- `RenderThread`, thread.rs l.32-50. `receiver`: still connected to the queue. `log` is ghost. -/
structure St (G K : Type) where
  graph : Option G
  suspended : Bool
  state : CtxState
  frames : Nat
  offset : Option (Nat × Quantum K)
  receiver : Bool
  log : List (Seg K)

variable {G K : Type} [Zero K]

/-- `handle_control_message`; the flag tells to stop handling messages. -/
def St.handle (s : St G K) : Msg G → Option (St G K × Bool)
  | .graph f =>
    match s.graph with
    | some g => (f g).map fun g' => ({ s with graph := some g' }, false)
    | none => none
  | .suspend => some ({ s with suspended := true, state := .suspended }, false)
  | .resume => some ({ s with suspended := false, state := .running }, false)
  | .close => some ({ s with suspended := true, state := .closed }, false)
  | .closeAndRecycle =>
    match s.graph with
    | some _ => some ({ s with state := .suspended, graph := none, receiver := false }, true)
    | none => none
  | .startup g => some ({ s with graph := some g, state := .running }, false)

def St.handleAll (s : St G K) : List (Msg G) → Option (St G K)
  | [] => some s
  | m :: ms =>
    match s.handle m with
    | none => none
    | some (s', true) => some s'
    | some (s', false) => s'.handleAll ms

/-- `handle_control_messages`: handle the next batch. -/
def St.poll (s : St G K) (bs : List (List (Msg G))) : Option (St G K × List (List (Msg G))) :=
  if s.receiver then (s.handleAll (bs.headD [])).map fun s' => (s', bs.tail) else some (s, bs)

/-- `output.skip(i).step_by(ch)` zipped with `channel[off..]`, l.453-458 and l.514-519: overwrites the
samples of channel `i` in an interleaved buffer. -/
def writeChan (ch i off : Nat) (chan : Nat → K) (buf : List K) : List K :=
  buf.mapIdx fun k x => if k % ch = i ∧ off + k / ch < rqs then chan (off + k / ch) else x

/-- the loop over the channels; `channel_data(i)` panics when there is no channel `i` -/
def copyOut (ch off : Nat) (q : Quantum K) : List Nat → List K → Option (List K)
  | [], buf => some buf
  | i :: is, buf =>
    match q[i]? with
    | some c => copyOut ch off q is (writeChan ch i off c buf)
    | none => none

/-- `mix(number_of_channels, Discrete)` if there are less channels, l.508-510 -/
def pad (ch : Nat) (q : Quantum K) : Quantum K :=
  if q.length < ch then q ++ List.replicate (ch - q.length) (fun _ => 0) else q

/-- lengths of `chunks_mut(c)` of a slice of length `n` -/
def chunkLens (n c : Nat) : List Nat :=
  List.replicate (n / c) c ++ if n % c = 0 then [] else [n % c]

/-- the loop over the chunks, l.485-531. `buf` is the rest of the device buffer; the result is what
has been written to it. -/
def renderChunks (sem : Sem G K) (ch : Nat) : List Nat → List K → St G K → List (List (Msg G)) →
    Option (St G K × List K × List (List (Msg G)))
  | [], buf, s, bs => some (s, buf, bs)
  | n :: ns, buf, s, bs =>
    match s.graph with
    | none => none
    | some g =>
      let (g', q) := sem.render g s.frames
      let s := { s with frames := s.frames + rqs, graph := some g',
                        log := s.log ++ [Seg.quantum s.frames q] }
      let dest := pad ch q
      match copyOut ch 0 dest (List.range ch) (buf.take n) with
      | none => none
      | some data =>
        let s := if n ≠ rqs * ch then { s with offset := some (n / ch, dest) } else s
        match s.poll bs with
        | none => none
        | some (s, bs) =>
          match renderChunks sem ch ns (buf.drop n) s bs with
          | none => none
          | some (s, out, bs) => some (s, data ++ out, bs)

/-- booting, suspended or shutting down, l.478 -/
def St.mute (sem : Sem G K) (s : St G K) : Bool :=
  s.suspended || !(s.graph.any sem.active)

/-- the part of `render_inner` after the left-over frames have been written, l.475-531 -/
def renderRest (sem : Sem G K) (ch : Nat) (buf : List K) (s : St G K) (bs : List (List (Msg G))) :
    Option (St G K × List K × List (List (Msg G))) :=
  match s.poll bs with
  | none => none
  | some (s, bs) =>
    if s.mute sem then
      some ({ s with log := s.log ++ [Seg.silence buf.length] }, buf.map fun _ => 0, bs)
    else renderChunks sem ch (chunkLens buf.length (rqs * ch)) buf s bs

/-- `render_inner`, l.441-532: one callback of the audio device. `buf` is the device buffer (with
arbitrary old contents), the result contains the new contents. -/
def renderInner (sem : Sem G K) (ch : Nat) (buf : List K) (s : St G K) (bs : List (List (Msg G))) :
    Option (St G K × List K × List (List (Msg G))) :=
  match s.offset with
  | none => renderRest sem ch buf s bs
  | some (off, prev) =>
    let s := { s with offset := none }
    let n := min ((rqs - off) * ch) buf.length
    match copyOut ch off prev (List.range ch) (buf.take n) with
    | none => none
    | some first =>
      if (buf.drop n).isEmpty then
        some ({ s with offset := some (off + first.length / ch, prev) }, first, bs)
      else
        match renderRest sem ch (buf.drop n) s bs with
        | none => none
        | some (s, out, bs) => some (s, first ++ out, bs)

/-- A sequence of callbacks; collects everything written to the device. -/
def run (sem : Sem G K) (ch : Nat) : List (List K) → St G K → List (List (Msg G)) →
    Option (St G K × List K × List (List (Msg G)))
  | [], s, bs => some (s, [], bs)
  | buf :: bufs, s, bs =>
    match renderInner sem ch buf s bs with
    | none => none
    | some (s, out, bs) =>
      match run sem ch bufs s bs with
      | none => none
      | some (s, outs, bs) => some (s, out ++ outs, bs)

/-- `RenderThread::new`, thread.rs l.84-108 -/
def St.init : St G K where
  graph := none
  suspended := false
  state := .suspended
  frames := 0
  offset := none
  receiver := true
  log := []

end Verif.Thread
