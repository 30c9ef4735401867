import Mathlib.Algebra.Order.Field.Rat
import Mathlib.Data.Rat.Floor
import Mathlib.Algebra.Order.Floor.Semiring
import Mathlib.Algebra.Order.Floor.Ring
import Mathlib.Tactic.Linarith
import Mathlib.Tactic.NormNum
import Mathlib.Data.Nat.Log
import Mathlib.Data.Nat.Dist

/-!
# C79: configuration of streams

Models `buffer_size_for_latency_category` (`/repo/src/io/mod.rs` l.260-286) and the choice of sample rate, channel
count and buffer size in `build_output` and `build_input` of `/repo/src/io/cpal.rs` (l.200-383, l.385-519),
`/repo/src/io/cubeb.rs` (l.301-441) and `/repo/src/io/none.rs` (l.78-128), with what `AudioContext::try_new` and
`set_sink_id_sync` make of it (`/repo/src/context/online.rs` l.233-302, l.420-428).

A device is given by its default configuration and by a predicate that says which configurations it accepts.
Sample rates are rationals; `rate as u32` is the floor and `rate as f32` of a rate is exact (true below 2^24).
The product `latency * sample_rate` is exact. `usize` has 64 bits. The special case for Android is left out.
-/

namespace Verif.Io.Config

inductive Latency where
  | interactive
  | balanced
  | playback
  | custom (seconds : ℚ)

/-- `usize::next_power_of_two`; `none`: overflow, a panic in a debug build -/
def nextPow2 (n : Nat) : Option Nat :=
  let b := if n ≤ 1 then 1 else 2 ^ (Nat.log 2 (n - 1) + 1)
  if b < 2 ^ 64 then some b else none

/-- `buffer_size_for_latency_category(..) as u32`, io/mod.rs l.260-286; `none` is a panic -/
def bufferSize (l : Latency) (rate : ℚ) : Option Nat :=
  match l with
  | .interactive => some 128
  | .balanced => some (128 * 4)
  | .playback => some (128 * 8)
  | .custom s =>
    if 0 < s then (nextPow2 (min ⌊s * rate⌋₊ (2 ^ 64 - 1))).map (· % 2 ^ 32) else none

/-- `cpal::StreamConfig` (buffer size `none` is the default) and `cubeb::StreamParams` -/
structure Stream where
  channels : Nat
  rate : Nat
  buffer : Option Nat
deriving DecidableEq

/-- A device: default configuration, range of buffer sizes (if known), and what it accepts -/
structure Device where
  channels : Nat
  rate : Nat
  range : Option (Nat × Nat)
  accepts : Stream → Bool

/-- A stream together with the rate and channel count for which the graph is rendered (or the microphone data are
packed) and those that the backend reports to the context -/
structure Backend where
  stream : Stream
  renderRate : ℚ
  renderChannels : Nat
  rate : ℚ
  channels : Nat
deriving DecidableEq

inductive Res (α : Type) where
  | ok (a : α)
  | error
  | panic
deriving DecidableEq

/-- cpal.rs l.276-279, l.449-452. `clamp` panics if the range is empty; the ranges that devices report are not. -/
def clampBuffer (range : Option (Nat × Nat)) (b : Nat) : Nat :=
  match range with
  | none => b
  | some (lo, hi) => if b < lo then lo else if hi < b then hi else b

/-- cpal.rs l.264-268: `sample_rate as u32` of the requested rate, or the rate of the device -/
def prefRate (rate : Option ℚ) (device : Nat) : Nat :=
  match rate with
  | some r => ⌊r⌋₊
  | none => device

/-- `CpalBackend::build_output`, cpal.rs l.250-382, for the chosen device -/
def cpalOutput (d : Device) (rate : Option ℚ) (l : Latency) : Res Backend :=
  let channels := min d.channels 32
  let pref : Nat := prefRate rate d.rate
  match bufferSize l pref with
  | none => .panic
  | some b =>
    let preferred : Stream := ⟨channels, pref, some (clampBuffer d.range b)⟩
    if d.accepts preferred then .ok ⟨preferred, pref, channels, pref, channels⟩
    else
      let fallback : Stream := ⟨channels, d.rate, none⟩
      if d.accepts fallback then .ok ⟨fallback, d.rate, channels, d.rate, channels⟩ else .error

/-- `CpalBackend::build_input`, cpal.rs l.426-518, for the chosen device -/
def cpalInput (d : Device) (rate : Option ℚ) (channels : Option Nat) (l : Latency) : Res Backend :=
  let n := channels.elim d.channels (· % 2 ^ 16)
  let pref : Nat := prefRate rate d.rate
  match bufferSize l pref with
  | none => .panic
  | some b =>
    let preferred : Stream := ⟨n, pref, some (clampBuffer d.range b)⟩
    if d.accepts preferred then .ok ⟨preferred, pref, n, pref, n⟩
    else
      let fallback : Stream := ⟨d.channels, d.rate, none⟩
      if d.accepts fallback then .ok ⟨fallback, d.rate, d.channels, d.rate, d.channels⟩ else .error

/-- `CubebBackend::build_output`, cubeb.rs l.301-441; the lower end of the range is `min_latency` -/
def cubebOutput (d : Device) (rate : Option ℚ) (l : Latency) : Res Backend :=
  let r : ℚ := rate.getD d.rate
  let channels := min d.channels 32
  match bufferSize l r with
  | none => .error -- the owner thread panics
  | some b =>
    let params : Stream := ⟨channels, ⌊r⌋₊, some (max b (d.range.elim 128 (·.1)))⟩
    if channels = 0 then .error
    else if d.accepts params then .ok ⟨params, r, channels, r, channels⟩ else .error

/-! ## The context -/

/-- What a context knows: its sample rate and channel count are those of its first backend (online.rs l.273-275). -/
structure Context where
  rate : ℚ
  channels : Nat
  backend : Backend
deriving DecidableEq

/-- `try_new_inner`, online.rs l.233-302, for the chosen device -/
def tryNew (build : Option ℚ → Latency → Res Backend) (rate : Option ℚ) (l : Latency) : Res Context :=
  if rate.any fun r => decide (¬ (3000 ≤ r ∧ r ≤ 768000)) then .error
  else match build rate l with
    | .ok b => .ok ⟨b.rate, b.channels, b⟩
    | .error => .error
    | .panic => .panic

/-- `set_sink_id_sync`, online.rs l.420-428, for the chosen new device -/
def setSink (build : Option ℚ → Latency → Res Backend) (c : Context) : Res Context :=
  match build (some c.rate) .interactive with
  | .ok b => .ok { c with backend := b }
  | .error => .error
  | .panic => .panic

/-! ## Buffer sizes -/

theorem nextPow2_spec {n : Nat} (h : n ≤ 2 ^ 63) :
    ∃ k, nextPow2 n = some (2 ^ k) ∧ n ≤ 2 ^ k ∧ 2 ^ k < 2 * max n 1 := by
  unfold nextPow2
  by_cases hn : n ≤ 1
  · refine ⟨0, by simp [hn], by simpa using hn, ?_⟩
    simp
    omega
  · have h0 : n - 1 ≠ 0 := by omega
    have h1 : n - 1 < 2 ^ (Nat.log 2 (n - 1) + 1) := Nat.lt_pow_succ_log_self (by norm_num) _
    have h2 : 2 ^ Nat.log 2 (n - 1) ≤ n - 1 := Nat.pow_log_le_self 2 h0
    refine ⟨Nat.log 2 (n - 1) + 1, ?_, by omega, ?_⟩
    · simp only [if_neg hn]
      rw [if_pos]
      rw [pow_succ]
      omega
    · rw [pow_succ]
      omega

/-- **C79** A custom latency hint gives a power of two frames, at least the hint (rounded down to frames) and less
than twice as much, or less than two frames. -/
theorem C79_buffer_partial {s rate : ℚ} (hs : 0 < s) (hr : 0 ≤ rate) (hb : s * rate ≤ 2 ^ 31) :
    ∃ k, bufferSize (.custom s) rate = some (2 ^ k) ∧ s * rate - 1 < 2 ^ k ∧
      (2 : ℚ) ^ k < 2 * max (s * rate) 1 := by
  have h0 : 0 ≤ s * rate := mul_nonneg hs.le hr
  have hf : ⌊s * rate⌋₊ ≤ 2 ^ 31 := by
    have := Nat.floor_le_floor (R := ℚ) hb
    have e : ⌊(2 : ℚ) ^ 31⌋₊ = 2 ^ 31 := by
      have : ((2 : ℚ) ^ 31) = ((2 ^ 31 : Nat) : ℚ) := by norm_num
      rw [this, Nat.floor_natCast]
    rwa [e] at this
  obtain ⟨k, h1, h2, h3⟩ := nextPow2_spec (n := ⌊s * rate⌋₊) (by omega)
  have hmin : min ⌊s * rate⌋₊ (2 ^ 64 - 1) = ⌊s * rate⌋₊ := by omega
  have hk : 2 ^ k < 2 ^ 32 := by omega
  refine ⟨k, ?_, ?_, ?_⟩
  · simp only [bufferSize, if_pos hs, hmin, h1, Option.map_some, Nat.mod_eq_of_lt hk]
  · have := Nat.lt_floor_add_one (s * rate)
    have h2' : ((⌊s * rate⌋₊ : Nat) : ℚ) ≤ ((2 ^ k : Nat) : ℚ) := by exact_mod_cast h2
    push_cast at h2'
    linarith
  · have h3' : ((2 ^ k : Nat) : ℚ) < ((2 * max ⌊s * rate⌋₊ 1 : Nat) : ℚ) := by exact_mod_cast h3
    push_cast at h3'
    refine lt_of_lt_of_le h3' ?_
    have := Nat.floor_le h0
    have : max ((⌊s * rate⌋₊ : Nat) : ℚ) 1 ≤ max (s * rate) 1 := max_le_max this (le_refl _)
    linarith

/-- **C79** The named categories ask for whole render quanta, a power of two of them, more for more relaxed ones,
whatever the rate is: 128 frames, the least possible, for interactive use. -/
theorem C79_categories (rate : ℚ) : ∃ i b p : Nat, bufferSize .interactive rate = some (128 * 2 ^ i) ∧
    bufferSize .balanced rate = some (128 * 2 ^ b) ∧ bufferSize .playback rate = some (128 * 2 ^ p) ∧
    i = 0 ∧ i < b ∧ b < p :=
  ⟨0, 2, 3, rfl, rfl, rfl, rfl, by norm_num, by norm_num⟩

/-- **C79** negated: a hint of more than 2^31 and at most 2^32 frames (13 to 27 hours at 44.1 kHz) asks for a
buffer of size zero. -/
theorem C79_buffer_negated {s rate : ℚ} (hs : 0 < s) (h1 : 2 ^ 31 + 1 ≤ s * rate) (h2 : s * rate ≤ 2 ^ 32) :
    bufferSize (.custom s) rate = some 0 := by
  have hc : (((2 ^ 31 + 1 : Nat)) : ℚ) = 2 ^ 31 + 1 := by norm_num
  have hl : 2 ^ 31 + 1 ≤ ⌊s * rate⌋₊ := Nat.le_floor (by rw [hc]; exact h1)
  have hf : ⌊s * rate⌋₊ ≤ 2 ^ 32 := by
    have := Nat.floor_le_floor (R := ℚ) h2
    have e : ⌊(2 : ℚ) ^ 32⌋₊ = 2 ^ 32 := by
      have : ((2 : ℚ) ^ 32) = ((2 ^ 32 : Nat) : ℚ) := by norm_num
      rw [this, Nat.floor_natCast]
    rwa [e] at this
  have hlog : Nat.log 2 (⌊s * rate⌋₊ - 1) = 31 := by
    rw [Nat.log_eq_iff (.inl (by norm_num))]
    omega
  have hmin : min ⌊s * rate⌋₊ (2 ^ 64 - 1) = ⌊s * rate⌋₊ := by omega
  simp only [bufferSize, if_pos hs, hmin, nextPow2, hlog]
  have hn : ¬ ⌊s * rate⌋₊ ≤ 1 := by omega
  simp [hn]

/-- **C79** negated: `try_new` panics for a latency hint that is not positive instead of returning an error. -/
theorem C79_hint_negated (d : Device) (s : ℚ) (hs : s ≤ 0) :
    tryNew (cpalOutput d) none (.custom s) = .panic := by
  simp [tryNew, cpalOutput, bufferSize, not_lt.2 hs]

/-! ## Consistency -/

/-- the graph is rendered for the stream that the device plays -/
def Backend.Consistent (b : Backend) : Prop :=
  b.renderRate = b.stream.rate ∧ b.renderChannels = b.stream.channels

/-- **C79** With `cpal`, the graph is rendered with exactly the sample rate and
channel count of the stream that the device accepted, whatever was requested, and these are the ones that are
reported; contexts have at most 32 channels. -/
theorem C79_cpal {d : Device} {rate : Option ℚ} {l : Latency} {b : Backend} (h : cpalOutput d rate l = .ok b) :
    b.Consistent ∧ b.rate = b.renderRate ∧ b.channels = b.renderChannels ∧ d.accepts b.stream = true ∧
      b.channels ≤ 32 := by
  simp only [cpalOutput] at h
  rcases hb : bufferSize l (prefRate rate d.rate : Nat) with - | n <;> simp only [hb] at h
  · cases h
  · split at h
    · rename_i ha
      obtain rfl := Res.ok.inj h
      exact ⟨⟨rfl, rfl⟩, rfl, rfl, ha, Nat.min_le_right _ _⟩
    · split at h
      · rename_i ha
        obtain rfl := Res.ok.inj h
        exact ⟨⟨rfl, rfl⟩, rfl, rfl, ha, Nat.min_le_right _ _⟩
      · cases h

/-- **C79** The same for the microphone: the captured data are packed for the rate and channel count of the
stream. -/
theorem C79_cpal_input {d : Device} {rate : Option ℚ} {n : Option Nat} {l : Latency} {b : Backend}
    (h : cpalInput d rate n l = .ok b) :
    b.Consistent ∧ b.rate = b.renderRate ∧ b.channels = b.renderChannels ∧ d.accepts b.stream = true := by
  simp only [cpalInput] at h
  rcases hb : bufferSize l (prefRate rate d.rate : Nat) with - | k <;> simp only [hb] at h
  · cases h
  · by_cases h1 : d.accepts ⟨n.elim d.channels (· % 2 ^ 16), prefRate rate d.rate,
        some (clampBuffer d.range k)⟩ = true
    · rw [if_pos h1] at h
      obtain rfl := Res.ok.inj h
      exact ⟨⟨rfl, rfl⟩, rfl, rfl, h1⟩
    · rw [if_neg h1] at h
      split at h
      · rename_i ha
        obtain rfl := Res.ok.inj h
        exact ⟨⟨rfl, rfl⟩, rfl, rfl, ha⟩
      · cases h

theorem clampBuffer_spec {lo hi : Nat} (h : lo ≤ hi) (k : Nat) :
    lo ≤ clampBuffer (some (lo, hi)) k ∧ clampBuffer (some (lo, hi)) k ≤ hi ∧
      (lo ≤ k → k ≤ hi → clampBuffer (some (lo, hi)) k = k) ∧
      ∀ m, lo ≤ m → m ≤ hi → Nat.dist (clampBuffer (some (lo, hi)) k) k ≤ Nat.dist m k := by
  unfold clampBuffer
  simp only [Nat.dist]
  split
  · refine ⟨le_rfl, h, ?_, ?_⟩ <;> intros <;> omega
  · split
    · refine ⟨h, le_rfl, ?_, ?_⟩ <;> intros <;> omega
    · refine ⟨by omega, by omega, ?_, ?_⟩ <;> intros <;> omega

/-- **C79** The buffer size that a device is asked for lies in the range the device reports, and of all sizes in this
range it is one that is nearest to what the latency hint asks for; a device without a range is asked for just that. -/
theorem C79_buffer_range {d : Device} {rate : Option ℚ} {l : Latency} {b : Backend} {k size : Nat}
    (hk : bufferSize l (prefRate rate d.rate : Nat) = some k) (h : cpalOutput d rate l = .ok b)
    (hs : b.stream.buffer = some size) :
    (d.range = none → size = k) ∧
      ∀ lo hi, d.range = some (lo, hi) → lo ≤ hi →
        lo ≤ size ∧ size ≤ hi ∧ ∀ m, lo ≤ m → m ≤ hi → Nat.dist size k ≤ Nat.dist m k := by
  have e : size = clampBuffer d.range k := by
    simp only [cpalOutput, hk] at h
    split at h
    · obtain rfl := Res.ok.inj h
      exact (Option.some.inj hs).symm
    · split at h
      · obtain rfl := Res.ok.inj h
        cases hs
      · cases h
  rw [e]
  refine ⟨fun hn => by rw [hn]; rfl, fun lo hi hr hle => ?_⟩
  rw [hr]
  have := clampBuffer_spec hle k
  exact ⟨this.1, this.2.1, this.2.2.2⟩

example : cpalOutput ⟨2, 48000, some (256, 2048), fun _ => true⟩ none .interactive =
    .ok ⟨⟨2, 48000, some 256⟩, 48000, 2, 48000, 2⟩ := by
  decide +kernel

/-- **C79** A device that accepts all configurations with a given whole sample rate is used at this rate, and a
context without a request at the rate of the device. -/
theorem C79_honoured {d : Device} {l : Latency} {b : Nat} {r : Nat}
    (hb : bufferSize l r = some b) (hr : 3000 ≤ r) (hr' : r ≤ 768000)
    (ha : d.accepts ⟨min d.channels 32, r, some (clampBuffer d.range b)⟩ = true) :
    (∃ c, tryNew (cpalOutput d) (some r) l = .ok c ∧ c.rate = r ∧ c.backend.Consistent) ∧
    (d.rate = r → ∃ c, tryNew (cpalOutput d) none l = .ok c ∧ c.rate = r ∧ c.backend.Consistent) := by
  have hr1 : (3000 : ℚ) ≤ r := by exact_mod_cast hr
  have hr2 : (r : ℚ) ≤ 768000 := by exact_mod_cast hr'
  constructor
  · have e : cpalOutput d (some (r : ℚ)) l = .ok ⟨⟨min d.channels 32, r, some (clampBuffer d.range b)⟩, r,
        min d.channels 32, r, min d.channels 32⟩ := by
      simp only [cpalOutput, prefRate, Nat.floor_natCast, hb, ha, if_true]
    refine ⟨⟨r, min d.channels 32, ⟨⟨min d.channels 32, r, some (clampBuffer d.range b)⟩, r,
      min d.channels 32, r, min d.channels 32⟩⟩, ?_, rfl, rfl, rfl⟩
    simp [tryNew, e, hr1, hr']
  · intro hd
    have e : cpalOutput d none l = .ok ⟨⟨min d.channels 32, r, some (clampBuffer d.range b)⟩, r,
        min d.channels 32, r, min d.channels 32⟩ := by
      simp only [cpalOutput, prefRate, hd, hb, ha, if_true]
    refine ⟨⟨r, min d.channels 32, ⟨⟨min d.channels 32, r, some (clampBuffer d.range b)⟩, r,
      min d.channels 32, r, min d.channels 32⟩⟩, ?_, rfl, rfl, rfl⟩
    simp [tryNew, e]

/-- **C79** A context reports the rate and the channel count of the stream it plays. -/
theorem C79_context {d : Device} {rate : Option ℚ} {l : Latency} {c : Context}
    (h : tryNew (cpalOutput d) rate l = .ok c) :
    c.rate = c.backend.stream.rate ∧ c.channels = c.backend.stream.channels ∧ c.backend.Consistent := by
  unfold tryNew at h
  split at h
  · cases h
  · split at h
    · rename_i b hb
      obtain rfl := Res.ok.inj h
      obtain ⟨h1, h2, h3, -⟩ := C79_cpal hb
      exact ⟨h2.trans h1.1, h3.trans h1.2, h1⟩
    · cases h
    · cases h

/-- **C79** With `cubeb` the same, if the sample rate is a whole number. -/
theorem C79_cubeb_partial {d : Device} {rate : Option ℚ} {l : Latency} {b : Backend}
    (hw : ∀ r, rate = some r → ∃ n : Nat, r = n) (h : cubebOutput d rate l = .ok b) :
    b.Consistent ∧ b.rate = b.renderRate ∧ b.channels = b.renderChannels ∧ d.accepts b.stream = true ∧
      b.channels ≤ 32 := by
  have hr : ∃ n : Nat, rate.getD (d.rate : ℚ) = n := by
    cases rate with
    | none => exact ⟨d.rate, rfl⟩
    | some r => exact hw r rfl
  obtain ⟨n, hn⟩ := hr
  unfold cubebOutput at h
  simp only [hn, Nat.floor_natCast] at h
  split at h
  · cases h
  · split at h
    · cases h
    · split at h
      · rename_i ha
        cases h
        exact ⟨⟨rfl, rfl⟩, rfl, rfl, ha, by simp⟩
      · cases h

/-- a device with 2 channels at 48 kHz that accepts everything -/
def exDevice : Device := ⟨2, 48000, none, fun _ => true⟩

/-- **C79** negated for `cubeb`: with a requested rate of 44100.5 Hz the graph is rendered for 44100.5 Hz while
the device plays 44100 frames per second. -/
theorem C79_cubeb_negated : ∃ c, tryNew (cubebOutput exDevice) (some (88201 / 2)) .interactive = .ok c ∧
    c.backend.renderRate = 88201 / 2 ∧ c.backend.stream.rate = 44100 := by
  refine ⟨⟨88201 / 2, 2, ⟨⟨2, 44100, some 128⟩, 88201 / 2, 2, 88201 / 2, 2⟩⟩, ?_, rfl, rfl⟩
  decide +kernel

/-! ## Change of the sink -/

/-- **C79** When the sink is changed (with `cpal`) to a device that accepts the rate of the context and has as
many channels, rate and channel count of the context remain those of the stream. -/
theorem C79_sink_partial {d d' : Device} {rate : Option ℚ} {l : Latency} {c : Context}
    (h : tryNew (cpalOutput d) rate l = .ok c)
    (ha : ∀ r : Nat, c.rate = r → d'.accepts ⟨min d'.channels 32, r, some (clampBuffer d'.range 128)⟩ = true)
    (hc : min d'.channels 32 = c.channels) :
    ∃ c', setSink (cpalOutput d') c = .ok c' ∧ c'.rate = c.rate ∧ c'.rate = c'.backend.stream.rate ∧
      c'.channels = c'.backend.stream.channels ∧ c'.backend.Consistent := by
  have hw : ∃ r : Nat, c.rate = r := by
    unfold tryNew at h
    split at h
    · cases h
    · split at h
      · rename_i b hb
        cases h
        have := (C79_cpal hb).1.1
        exact ⟨b.stream.rate, by rw [← this]; exact (C79_cpal hb).2.1⟩
      · cases h
      · cases h
  obtain ⟨r, hr⟩ := hw
  have e : cpalOutput d' (some c.rate) .interactive = .ok ⟨⟨min d'.channels 32, r,
      some (clampBuffer d'.range 128)⟩, r, min d'.channels 32, r, min d'.channels 32⟩ := by
    simp only [cpalOutput, prefRate, hr, Nat.floor_natCast, bufferSize, ha r hr, if_true]
  exact ⟨{ c with backend := ⟨⟨min d'.channels 32, r, some (clampBuffer d'.range 128)⟩, r, min d'.channels 32, r,
    min d'.channels 32⟩ }, by simp only [setSink, e], rfl, hr, hc.symm, rfl, rfl⟩

/-- **C79** negated: if the new device refuses the sample rate, the graph is rendered at the rate of the device
while the context, all its nodes and `currentTime` keep the old rate. -/
theorem C79_sink_negated {c : Context} {d : Device} {r : Nat} (hr : c.rate = r) (hne : d.rate ≠ r)
    (ha : ∀ s, d.accepts s = true ↔ s.rate = d.rate) :
    ∃ c', setSink (cpalOutput d) c = .ok c' ∧ c'.rate = r ∧ c'.backend.renderRate = d.rate ∧
      c'.rate ≠ c'.backend.renderRate := by
  have hp : ¬ d.accepts ⟨min d.channels 32, r, some (clampBuffer d.range 128)⟩ = true := by
    rw [ha]; exact fun e => hne e.symm
  have hf : d.accepts ⟨min d.channels 32, d.rate, none⟩ = true := by rw [ha]
  have e : cpalOutput d (some c.rate) .interactive = .ok ⟨⟨min d.channels 32, d.rate, none⟩, d.rate,
      min d.channels 32, d.rate, min d.channels 32⟩ := by
    simp only [cpalOutput, prefRate, hr, Nat.floor_natCast, bufferSize, if_neg hp, hf, if_true]
  refine ⟨{ c with backend := ⟨⟨min d.channels 32, d.rate, none⟩, d.rate, min d.channels 32, d.rate,
    min d.channels 32⟩ }, by simp only [setSink, e], hr, rfl, ?_⟩
  show c.rate ≠ (d.rate : ℚ)
  rw [hr]
  exact_mod_cast hne.symm

/-! ## Examples -/

example : bufferSize (.custom (1 / 100)) 44100 = some 512 := by decide +kernel

example : ∃ c, tryNew (cpalOutput exDevice) (some 44100) .balanced = .ok c ∧ c.rate = 44100 ∧
    c.backend.stream = ⟨2, 44100, some 512⟩ :=
  ⟨⟨44100, 2, ⟨⟨2, 44100, some 512⟩, 44100, 2, 44100, 2⟩⟩, by decide +kernel, rfl, rfl⟩

/-- A context at 44.1 kHz and a device that only plays 48 kHz. -/
example : ∃ c : Context, ∃ d : Device, c.rate = ((44100 : Nat) : ℚ) ∧ d.rate ≠ 44100 ∧
    ∀ s, d.accepts s = true ↔ s.rate = d.rate :=
  ⟨⟨44100, 2, ⟨⟨2, 44100, none⟩, 44100, 2, 44100, 2⟩⟩, ⟨2, 48000, none, fun s => s.rate == 48000⟩, by norm_num,
    by norm_num, fun s => by simp⟩

example : (0 : ℚ) < 60000 ∧ (2 : ℚ) ^ 31 + 1 ≤ 60000 * 44100 ∧ (60000 : ℚ) * 44100 ≤ 2 ^ 32 := by norm_num

end Verif.Io.Config
