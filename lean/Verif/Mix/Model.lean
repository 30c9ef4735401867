import Mathlib.Algebra.Field.Defs
import Mathlib.Data.List.Basic

/-!
# Model of `AudioRenderQuantum`: mixing and summing

Models `/repo/src/render/quantum.rs` l.90-126 and l.162-590.

Samples are elements of a field `K` (exact arithmetic); `r` stands for `(0.5_f32).sqrt()`.
A channel is a shared buffer: its address `ptr` and its contents. Address 0 is the shared buffer of
zeroes (`AllocInner::zeroes`). Writing to a channel yields a buffer with an address different from
all others (either it was not shared, or it is copied first, `make_mut` l.96-104; that this value
level view is adequate is proved in `Verif/Cow`), taken from the supply `next`.
-/

namespace Verif.Mix

/-- `AudioRenderQuantumChannel`, quantum.rs l.90-93. `data i` is sample `i` (`i < 128` matters). -/
structure Chan (K : Type) where
  ptr : Nat
  data : Nat → K

/-- `ChannelInterpretation`, `/repo/src/node/audio_node.rs` l.35-50. -/
inductive Interp where
  | speakers
  | discrete
deriving DecidableEq, Repr

/-- `ChannelCountMode`, audio_node.rs l.9-31. -/
inductive Mode where
  | max
  | clampedMax
  | explicit
deriving DecidableEq, Repr

variable {K : Type} [Field K]

/-- the silence buffer, quantum.rs l.122-127 -/
def zero : Chan K := ⟨0, fun _ => 0⟩

/-- `is_silent`, quantum.rs l.109-111 -/
def Chan.isSilent (c : Chan K) : Bool := c.ptr == 0

/-- `AudioRenderQuantumChannel::add`, quantum.rs l.114-120 -/
def Chan.add (next : Nat) (a b : Chan K) : Chan K × Nat :=
  if a.isSilent then (b, next)
  else if b.isSilent then (a, next)
  else (⟨next, fun i => a.data i + b.data i⟩, next + 1)

/-- fill with silence / truncate, quantum.rs l.300-307 -/
def fill (cs : List (Chan K)) (m : Nat) : List (Chan K) :=
  (cs ++ List.replicate (m - cs.length) zero).take m

/-- `mix_inner`, quantum.rs l.285-505, after the validity check of `m`. `r` is sqrt(0.5). -/
def mixInner (r : K) (next : Nat) (cs : List (Chan K)) (m : Nat) (interp : Interp) :
    List (Chan K) × Nat :=
  if interp = .discrete ∨ cs.length > 6 ∨ m > 6 then (fill cs m, next)
  else match cs, m with
    | [a], 2 => ([a, a], next)
    | [a], 4 => ([a, a, zero, zero], next)
    | [a], 6 => ([zero, zero, a, zero, zero, zero], next)
    | [a, b], 4 => ([a, b, zero, zero], next)
    | [a, b], 6 => ([a, b, zero, zero, zero, zero], next)
    | [a, b, sl, sr], 5 => ([a, b, zero, sl, sr], next)
    | [a, b, sl, sr], 6 => ([a, b, zero, zero, sl, sr], next)
    | [a, b], 1 => ([⟨next, fun i => 1 / 2 * (a.data i + b.data i)⟩], next + 1)
    | [a, b, sl, sr], 1 =>
      ([⟨next, fun i => 1 / 4 * (a.data i + b.data i + sl.data i + sr.data i)⟩], next + 1)
    | [a, b, c, _, sl, sr], 1 =>
      ([⟨next, fun i => r * (a.data i + b.data i) + (1 / 2 * (sl.data i + sr.data i) + c.data i)⟩],
        next + 1)
    | [a, b, sl, sr], 2 =>
      ([⟨next, fun i => 1 / 2 * (a.data i + sl.data i)⟩,
        ⟨next + 1, fun i => 1 / 2 * (b.data i + sr.data i)⟩], next + 2)
    | [a, b, c, _, sl, sr], 2 =>
      ([⟨next, fun i => a.data i + r * (c.data i + sl.data i)⟩,
        ⟨next + 1, fun i => b.data i + r * (c.data i + sr.data i)⟩], next + 2)
    | [a, b, c, _, sl, sr], 4 =>
      ([⟨next, fun i => a.data i + r * c.data i⟩,
        ⟨next + 1, fun i => b.data i + r * c.data i⟩, sl, sr], next + 2)
    | cs, m => (fill cs m, next)

/-- `mix`, quantum.rs l.274-283 -/
def mix (r : K) (next : Nat) (cs : List (Chan K)) (m : Nat) (interp : Interp) :
    List (Chan K) × Nat :=
  if cs.length = m then (cs, next) else mixInner r next cs m interp

/-- `all_channels_identical`, quantum.rs l.575-585 -/
def identical : List (Chan K) → Bool
  | [] => true
  | c :: cs => cs.all fun d => d.ptr == c.ptr

/-- the channel count a node computes for two buffers, quantum.rs l.543-547 -/
def newCount (mode : Mode) (count n1 n2 : Nat) : Nat :=
  match mode with
  | .max => Nat.max n1 n2
  | .explicit => count
  | .clampedMax => Nat.min (Nat.max n1 n2) count

/-- channelwise sum, quantum.rs l.564-568 (`zip`: the shorter list decides) -/
def addChans (next : Nat) : List (Chan K) → List (Chan K) → List (Chan K) × Nat
  | a :: as, b :: bs =>
    let (c, n1) := Chan.add next a b
    let (cs, n2) := addChans n1 as bs
    (c :: cs, n2)
  | as, _ => (as, next)

/-- `AudioRenderQuantum::add`, quantum.rs l.532-569. -/
def add (r : K) (mode : Mode) (count : Nat) (interp : Interp) (next : Nat)
    (self other : List (Chan K)) : List (Chan K) × Nat :=
  let m := newCount mode count self.length other.length
  if interp = .speakers && identical self && identical other then
    match self, other with
    | a :: _, b :: _ =>
      let (c, n1) := Chan.add next a b
      mix r n1 [c] m interp
    | _, _ => (self, next) -- not reachable: quanta have at least one channel (l.575-577 would panic)
  else
    let (s, n1) := mix r next self m interp
    let (o, n2) := mix r n1 other m interp
    addChans n2 s o

/-- Summing of several connections into an input that starts as a single channel of silence
(`/repo/src/render/graph.rs` l.244-250, l.524-535, l.545-549). -/
def sumInto (r : K) (mode : Mode) (count : Nat) (interp : Interp) (next : Nat)
    (others : List (List (Chan K))) : List (Chan K) × Nat :=
  others.foldl (fun (s : List (Chan K) × Nat) o => add r mode count interp s.2 s.1 o) ([zero], next)

end Verif.Mix
