import Mathlib.Algebra.Order.Floor.Semiring
import Mathlib.Algebra.Order.Field.Basic
import Mathlib.Algebra.Order.Ring.Abs
import Mathlib.Data.List.Basic

/-!
# Model of `AudioBuffer`

Models `/repo/src/buffer.rs` l.67-363 as values: a buffer is a list of channels and a sample rate. The
sharing of the channel data between clones is modelled separately in `Verif/Buffer/Share.lean`.
A result `none` is a panic. `V` is the type of samples and `K` the type of sample rates.
-/

namespace Verif.Buffer

/-- `AudioBuffer`, l.67-72 -/
structure Buf (K V : Type) where
  channels : List (List V)
  rate : K
deriving DecidableEq

variable {K V : Type}

/-- `length`, l.128-130 -/
def Buf.length (b : Buf K V) : Nat :=
  match b.channels with
  | [] => 0
  | c :: _ => c.length

/-- `&xs[a..e]`: panics unless `a ≤ e ≤ len` -/
def slice (xs : List V) (a e : Nat) : Option (List V) :=
  if a ≤ e ∧ e ≤ xs.length then some ((xs.drop a).take (e - a)) else none

/-- `xs[a..e].copy_from_slice(src)`: panics for a bad range or different lengths -/
def copyIn (xs : List V) (a e : Nat) (src : List V) : Option (List V) :=
  if a ≤ e ∧ e ≤ xs.length ∧ src.length = e - a then some (xs.take a ++ src ++ xs.drop e) else none

/-- `copy_from_channel_with_offset`, l.160-177: the destination after the call -/
def Buf.copyFrom (b : Buf K V) (dest : List V) (ch off : Nat) : Option (List V) :=
  match b.channels[ch]? with
  | none => none
  | some c =>
    let off := min off b.length
    let n := min (b.length - off) dest.length
    (slice c off (n + off)).bind fun s => copyIn dest 0 n s

/-- `copy_to_channel_with_offset`, l.197-214 -/
def Buf.copyTo (b : Buf K V) (src : List V) (ch off : Nat) : Option (Buf K V) :=
  match b.channels[ch]? with
  | none => none
  | some c =>
    let off := min off b.length
    let n := min (b.length - off) src.length
    ((slice src 0 n).bind fun s => copyIn c off (n + off) s).map fun c' =>
      ⟨b.channels.set ch c', b.rate⟩

/-- `get_channel_data`, l.222-227 -/
def Buf.channelData (b : Buf K V) (ch : Nat) : Option (List V) := b.channels[ch]?

/-- `extend`, l.277-288 -/
def Buf.extend [DecidableEq K] (b o : Buf K V) : Option (Buf K V) :=
  if b.rate = o.rate ∧ b.channels.length = o.channels.length then
    some ⟨List.zipWith (· ++ ·) b.channels o.channels, b.rate⟩
  else none

/-- `split_off`, l.291-300: (what stays, what is returned). `Vec::split_off` panics beyond the length. -/
def Buf.splitOff (b : Buf K V) (i : Nat) : Option (Buf K V × Buf K V) :=
  if ∀ c ∈ b.channels, i ≤ c.length then
    some (⟨b.channels.map (·.take i), b.rate⟩, ⟨b.channels.map (·.drop i), b.rate⟩)
  else none

section rates
variable [Field K] [LinearOrder K]

/-- `is_valid_sample_rate`, `/repo/src/lib.rs` l.159-162 -/
def validRate (sr : K) : Prop := 3000 ≤ sr ∧ sr ≤ 768000

instance (sr : K) : Decidable (validRate sr) := inferInstanceAs (Decidable (_ ∧ _))

/-- `AudioBuffer::new`, l.83-94 -/
def Buf.new [Zero V] (n len : Nat) (sr : K) : Option (Buf K V) :=
  if validRate sr ∧ 0 < len ∧ 0 < n ∧ n ≤ 32 then some ⟨List.replicate n (List.replicate len 0), sr⟩
  else none

/-- `AudioBuffer::from`, l.106-119 -/
def Buf.from (samples : List (List V)) (sr : K) : Option (Buf K V) :=
  if validRate sr ∧ 0 < samples.length ∧ samples.length ≤ 32 ∧
      ∀ c ∈ samples, c.length = (samples.headD []).length then
    some ⟨samples, sr⟩
  else none

end rates

/-! ## Resampling, l.311-363

A sample is `some x` or `none` for NaN; infinite samples are not modelled. `r64` rounds the `f64`
operations of the index computation and `r32` the conversion of the fraction to `f32`. The products and
the sum of `k_inv * prev_sample + k * next_sample` are exact. -/

section resample
variable [Field K] [LinearOrder K] [FloorSemiring K] (r64 r32 : K → K)

/-- l.326-330: `target_length` -/
def targetLength (len : Nat) (source target : K) : Nat := ⌈r64 (len * r64 (target / source))⌉₊

/-- l.337-338: `playhead`; `0. / 0.` is NaN -/
def playhead (sl tl i : Nat) : Option K :=
  if tl - 1 = 0 then none else some (r64 (r64 ((i : K) / ((tl - 1 : Nat) : K)) * ((sl - 1 : Nat) : K)))

/-- l.339-340: `prev_index`; NaN is converted to 0 -/
def prevIndex : Option K → Nat
  | none => 0
  | some x => ⌊x⌋₊

/-- l.343: `k` -/
def frac : Option K → Option K
  | none => none
  | some x => some (r32 (x - ⌊x⌋₊))

/-- l.350: `k_inv * prev_sample + k * next_sample` -/
def lerp (k a b : Option K) : Option K :=
  k.bind fun k => a.bind fun a => b.map fun b => (1 - k) * a + k * b

/-- l.337-351: the value of frame `i` of a channel; the outer `none` is an index out of bounds -/
def frameAt (c : List (Option K)) (sl tl i : Nat) : Option (Option K) :=
  let p := playhead r64 sl tl i
  let prev := prevIndex p
  let next := min (prev + 1) (sl - 1)
  match c[prev]?, c[next]? with
  | some a, some b => some (lerp (frac r32 p) a b)
  | _, _ => none

/-- `resample`, l.311-363 -/
def Buf.resample (b : Buf K (Option K)) (sr : K) : Option (Buf K (Option K)) :=
  if ¬ validRate sr then none
  else if |b.rate - sr| ≤ 1 / 10 then some ⟨b.channels, sr⟩
  else if b.length = 0 then some ⟨b.channels, sr⟩
  else
    let tl := targetLength r64 b.length b.rate sr
    (b.channels.mapM fun c => (List.range tl).mapM fun i => frameAt r64 r32 c b.length tl i).map
      fun cs => ⟨cs, sr⟩

end resample

/-! ## Specification -/

/-- all channels have the same length -/
def Buf.WF (b : Buf K V) : Prop := ∀ c ∈ b.channels, c.length = b.length

instance (b : Buf K V) : Decidable b.WF := inferInstanceAs (Decidable (∀ c ∈ b.channels, _))

/-- sample `i` of channel `ch`, if it exists -/
def Buf.sample (b : Buf K V) (ch i : Nat) : Option V := (b.channels[ch]?).bind (·[i]?)

end Verif.Buffer
