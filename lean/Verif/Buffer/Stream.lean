import Verif.Buffer.ResampleProps

/-!
# Model of the stream re-chunker and of the media stream renderer

`/repo/src/resampling.rs` l.43-111 and `MediaStreamRenderer`, `/repo/src/node/mod.rs` l.60-112.

The input iterator is the list of the chunks it still delivers; `none` is an error. It stays at the end
once the end is reached. The outer `Option` of every result is a panic.
-/

namespace Verif.Buffer

variable {K V : Type}

/-- `Resampler`, l.43-52 -/
structure Rs (K V : Type) where
  rate : K
  len : Nat
  input : List (Option (Buf K V))
  buffer : Option (Buf K V)

/-- result of `Resampler::next`: `None`, `Some(Err(_))` or `Some(Ok(b))` -/
inductive Out (K V : Type) where
  | done
  | err
  | buf (b : Buf K V)
deriving DecidableEq

variable [Field K] [LinearOrder K] [Zero V]

/-- `Resampler::next`, l.79-109: from the point where `buffer` has its first data. `rs` is
`AudioBuffer::resample` to the rate. -/
def fill (rs : Buf K V → Option (Buf K V)) (rate : K) (len : Nat) (b : Buf K V) :
    List (Option (Buf K V)) → Option (Out K V × Rs K V)
  | [] =>
    if b.length < len then
      (Buf.new b.channels.length (len - b.length) rate).bind fun pad =>
        (b.extend pad).map fun b' => (.buf b', ⟨rate, len, [], none⟩)
    else if b.length = len then some (.buf b, ⟨rate, len, [], none⟩)
    else (b.splitOff len).map fun x => (.buf x.1, ⟨rate, len, [], some x.2⟩)
  | x :: rest =>
    if b.length < len then
      match x with
      | none => some (.err, ⟨rate, len, rest, none⟩)
      | some d => (rs d).bind fun d' => (b.extend d').bind fun b' => fill rs rate len b' rest
    else if b.length = len then some (.buf b, ⟨rate, len, x :: rest, none⟩)
    else (b.splitOff len).map fun y => (.buf y.1, ⟨rate, len, x :: rest, some y.2⟩)

/-- `Resampler::next`, l.66-110 -/
def Rs.next (rs : Buf K V → Option (Buf K V)) (s : Rs K V) : Option (Out K V × Rs K V) :=
  match s.buffer with
  | some b => fill rs s.rate s.len b s.input
  | none =>
    match s.input with
    | [] => some (.done, s)
    | none :: rest => some (.err, { s with input := rest })
    | some d :: rest => (rs d).bind fun d' => fill rs s.rate s.len d' rest

/-- `Resampler::new`, l.54-61 -/
def Rs.new (rate : K) (len : Nat) (input : List (Option (Buf K V))) : Rs K V := ⟨rate, len, input, none⟩

/-- the results of the first `n` calls of `next` -/
def Rs.run (rs : Buf K V → Option (Buf K V)) : Nat → Rs K V → Option (List (Out K V) × Rs K V)
  | 0, s => some ([], s)
  | n + 1, s => (s.next rs).bind fun x => (Rs.run rs n x.2).map fun y => (x.1 :: y.1, y.2)

/-- `MediaStreamRenderer`: state, channels of the output and returned value of one call of `process`.
`copy_from_slice` panics unless a channel has 128 samples. A silent output has one channel. -/
def render (rs : Buf K V → Option (Buf K V)) (x : Rs K V × Bool) :
    Option ((Rs K V × Bool) × List (List V) × Bool) :=
  (x.1.next rs).bind fun y =>
    match y.1 with
    | .buf b =>
      if ∀ c ∈ b.channels, c.length = 128 then some ((y.2, x.2), b.channels, !x.2) else none
    | .err => some ((y.2, true), [List.replicate 128 0], false)
    | .done => some ((y.2, true), [List.replicate 128 0], false)

/-- results of the first `n` calls of `process` -/
def renderRun (rs : Buf K V → Option (Buf K V)) :
    Nat → Rs K V × Bool → Option (List (List (List V) × Bool) × (Rs K V × Bool))
  | 0, s => some ([], s)
  | n + 1, s => (render rs s).bind fun x => (renderRun rs n x.1).map fun y => (x.2 :: y.1, y.2)

end Verif.Buffer
