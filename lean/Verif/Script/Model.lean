import Mathlib.Algebra.Ring.Rat
import Mathlib.Algebra.Order.Ring.Rat
import Mathlib.Data.List.Basic

/-!
# Model of the ScriptProcessorNode renderer

Models `ScriptProcessorRenderer::process` and `onmessage` (`/repo/src/node/script_processor.rs` l.191-274). A quantum
is the list of its channels, a channel is the list of its `N` samples (`RENDER_QUANTUM_SIZE`). `n` is
`number_of_quanta`, the capacity the input buffer was created with (l.100-103: `Vec::with_capacity(n)` is taken to
have capacity `n` exactly). `k` is `number_of_output_channels`. Sample values are not interpreted.
-/

namespace Verif.Script

section
variable {K : Type} [Zero K]

/-- A quantum: its channels. -/
abbrev Q (K : Type) := List (List K)

/-- State of the renderer, l.176-182 -/
structure Script (K : Type) where
  inBuf : List (Q K)
  out : List (Q K)
  next : List (Q K)

/-- l.100-108 -/
def Script.new : Script K := ⟨[], [], []⟩

/-- a silent quantum with `c` channels -/
def silent (N c : Nat) : Q K := List.replicate c (List.replicate N 0)

/-- largest channel count, l.218-223 -/
def maxCh (qs : List (Q K)) : Nat := qs.foldl (fun m q => max m q.length) 0

/-- The input buffer sent with the event, l.224-234: per channel the samples of the quanta one after the other, zeros
where a quantum has no such channel and in the rest of the `size` (`buffer_size`) frames. -/
def gather (N size : Nat) (qs : List (Q K)) : Q K :=
  (List.range (maxCh qs)).map fun c =>
    (qs.map fun q => q.getD c (List.replicate N 0)).flatten ++ List.replicate (size - N * qs.length) 0

/-- The event, l.236-243: input buffer, and playback time as a number of frames, `cur` is the frame at which the
current quantum begins. -/
structure Event (K : Type) where
  input : Q K
  playback : Nat

/-- `process`, l.191-260, with the quantum that is output and the event that is sent, if any -/
def process (N size n k : Nat) (s : Script K) (cur : Nat) (input : Q K) : Script K × Q K × Option (Event K) :=
  let o := s.out.headD (silent N 1)
  let out := s.out.tail
  let inBuf := s.inBuf ++ [input]
  if inBuf.length = n then
    (⟨[], s.next, List.replicate n (silent N k)⟩, o, some ⟨gather N size inBuf, cur + size⟩)
  else (⟨inBuf, out, s.next⟩, o, none)

/-- `o.channel_data_mut(i).copy_from_slice(s)`, l.268: panics when there is no such channel or the lengths differ -/
def setChan (N : Nat) (q : Q K) (i : Nat) (s : List K) : Option (Q K) :=
  if i < q.length ∧ s.length = N then some (q.set i s) else none

/-- l.265-268: the chunks of one channel of the message are written to the quanta of the next output buffer;
`j` numbers the quanta -/
def putChan (N i : Nat) (c : List K) : Nat → List (Q K) → Option (List (Q K))
  | _, [] => some []
  | j, q :: qs =>
    if j * N < c.length then
      match setChan N q i ((c.drop (j * N)).take N), putChan N i c (j + 1) qs with
      | some q', some qs' => some (q' :: qs')
      | _, _ => none
    else some (q :: qs)

/-- l.264-269: all channels of the message, beginning with channel `i` -/
def putAll (N : Nat) : Nat → Q K → List (Q K) → Option (List (Q K))
  | _, [], next => some next
  | i, c :: cs, next =>
    match putChan N i c 0 next with
    | none => none
    | some next' => putAll N (i + 1) cs next'

/-- `onmessage`, l.262-274, with the buffer the user produced -/
def onmessage (N : Nat) (s : Script K) (b : Q K) : Option (Script K) :=
  match putAll N 0 b s.next with
  | none => none
  | some next => some { s with next := next }

/-- all messages that arrived before a quantum -/
def onmessages (N : Nat) : List (Q K) → Script K → Option (Script K)
  | [], s => some s
  | b :: bs, s =>
    match onmessage N s b with
    | none => none
    | some s' => onmessages N bs s'

/-- A run: every call of `process` comes with the messages that are handled before it
(`/repo/src/render/thread.rs`: control messages are handled before the quantum is rendered). -/
def run (N size n k : Nat) : Script K → Nat → List (List (Q K) × Q K) →
    Option (Script K × List (Q K) × List (Event K))
  | s, _, [] => some (s, [], [])
  | s, cur, (ms, q) :: rest =>
    match onmessages N ms s with
    | none => none
    | some s1 =>
      let r := process N size n k s1 cur q
      match run N size n k r.1 (cur + N) rest with
      | none => none
      | some (s2, os, es) => some (s2, r.2.1 :: os, r.2.2.toList ++ es)

end

end Verif.Script
