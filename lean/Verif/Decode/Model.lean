import Verif.Buffer.ResampleProps

/-!
# Model of the decoding of audio files

Models `decode_media_data` and `MediaDecoder::next` (`/repo/src/decoding.rs` l.15-53, l.191-271). The format
reader and the decoder of the crate `symphonia` are replaced by the list of what they return, in the order
of the calls: any list is allowed. What the probing of the format (`try_new`) does is not modelled, nor the
verification of checksums, whose result is only logged (l.211-214).
-/

namespace Verif.Decode

open Verif.Buffer

variable {K : Type}

/-- What `decoder.decode(&packet)` returns, l.252-269: a chunk of samples, `DecodeError` or `IoError`, or any
other error. -/
inductive Decoded (K : Type) where
  | chunk (b : Buf K (Option K))
  | recoverable
  | fatal

/-- What `format.next_packet()` returns, l.206-239: a packet of some track (with what the decoder makes of
it), `UnexpectedEof`, or any other error. The end of the list is `Ok(None)`. -/
inductive Read (K : Type) where
  | packet (track : Nat) (d : Decoded K)
  | eof
  | error

/-- `Some(Ok(..))`, `Some(Err(..))` or `None` -/
inductive Item (K : Type) where
  | ok (b : Buf K (Option K))
  | err
  | done

/-- `MediaDecoder::next`, l.191-271: the item and the reads that are left. -/
def next (track : Nat) : List (Read K) → Item K × List (Read K)
  | [] => (.done, [])
  | .eof :: r => (.done, r)
  | .error :: r => (.err, r)
  | .packet t d :: r =>
    if t ≠ track then next track r
    else match d with
      | .chunk b => (.ok b, r)
      | .recoverable => next track r
      | .fatal => (.err, r)

theorem next_length (track : Nat) (l : List (Read K)) (b : Buf K (Option K))
    (h : (next track l).1 = .ok b) : (next track l).2.length < l.length := by
  induction l with
  | nil => simp [next] at h
  | cons x r ih =>
    cases x with
    | eof => simp [next] at h
    | error => simp [next] at h
    | packet t d =>
      simp only [next] at h ⊢
      split at h <;> rename_i ht
      · rw [if_pos ht]
        have := ih h
        simp only [List.length_cons]
        omega
      · rw [if_neg ht]
        cases d with
        | chunk b => simp
        | recoverable =>
          have := ih h
          simp only [List.length_cons]
          omega
        | fatal => simp at h

/-- The result of `decode_media_data`: a buffer, an error, or a panic. -/
inductive Res (K : Type) where
  | ok (b : Buf K (Option K))
  | err
  | panic

variable [Field K] [LinearOrder K] [FloorSemiring K] (r64 r32 : K → K)

/-- l.47-52: an empty buffer if there was no chunk, then `resample` -/
def finish (buffer : Option (Buf K (Option K))) (target : K) : Res K :=
  match (match buffer with | some b => some b | none => Buf.from [[]] target) with
  | none => .panic
  | some b =>
    match b.resample r64 r32 target with
    | none => .panic
    | some b' => .ok b'

/-- The loop of `decode_media_data`, l.22-45. `rate` is `sample_rate`, `buffer` is `buffer`. -/
def loop (track : Nat) (target : K) (rate : Option K) (buffer : Option (Buf K (Option K)))
    (l : List (Read K)) : Res K :=
  match h : (next track l).1 with
  | .done => finish r64 r32 buffer target
  | .err => .err
  | .ok chunk =>
    if rate.any fun r => decide (r ≠ chunk.rate) then .err
    else
      match buffer with
      | none => loop track target (some (rate.getD chunk.rate)) (some chunk) (next track l).2
      | some b =>
        if b.channels.length ≠ chunk.channels.length then .err
        else match b.extend chunk with
          | none => .panic
          | some b' => loop track target (some (rate.getD chunk.rate)) (some b') (next track l).2
termination_by l.length
decreasing_by all_goals exact next_length track l chunk h

/-- `decode_media_data`, l.15-53: decode for a context with sample rate `target` -/
def decode (track : Nat) (target : K) (l : List (Read K)) : Res K :=
  loop r64 r32 track target none none l

end Verif.Decode
