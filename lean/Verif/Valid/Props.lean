import Verif.Valid.Model
import Verif.Node.StereoPanner
import Mathlib.Tactic.Linarith
import Mathlib.Tactic.NormNum
import Mathlib.Tactic.IntervalCases
import Mathlib.Tactic.FinCases
import Mathlib.Order.Interval.Finset.Nat

/-!
# C51: validation accepts exactly the documented values

The documented sets are written out here with `∃`, without the comparisons of the model.
-/

namespace Verif.Valid

open Verif.Mix (Mode Interp)

theorem le_fin (a : ℚ) (x : FV) : (FV.fin a).le x = true ↔ x = .inf ∨ ∃ q, x = .fin q ∧ a ≤ q := by
  cases x <;> simp [FV.le]

theorem fin_le (a : ℚ) (x : FV) : x.le (.fin a) = true ↔ x = .ninf ∨ ∃ q, x = .fin q ∧ q ≤ a := by
  cases x <;> simp [FV.le]

theorem lt_fin (a : ℚ) (x : FV) : (FV.fin a).lt x = true ↔ x = .inf ∨ ∃ q, x = .fin q ∧ a < q := by
  cases x <;> simp [FV.lt]

theorem fin_lt (a : ℚ) (x : FV) : x.lt (.fin a) = true ↔ x = .ninf ∨ ∃ q, x = .fin q ∧ q < a := by
  cases x <;> simp [FV.lt]

theorem isFinite_iff (x : FV) : x.isFinite = true ↔ ∃ q, x = .fin q := by
  cases x <;> simp [FV.isFinite]

theorem powerOfTwo_iff (n : Nat) : powerOfTwo n = true ↔ ∃ k, n = 2 ^ k := by
  induction n using Nat.strongRecOn with
  | _ n ih =>
    unfold powerOfTwo
    split
    · rename_i h
      subst h
      simp only [Bool.false_eq_true, false_iff, not_exists]
      exact fun k hk => absurd hk.symm (Nat.pos_iff_ne_zero.1 (Nat.pow_pos (by omega)))
    · rename_i h0
      split
      · rename_i h1
        simp only [beq_iff_eq]
        refine ⟨fun h => ⟨0, by simp [h]⟩, ?_⟩
        rintro ⟨k, hk⟩
        cases k with
        | zero => simpa using hk
        | succ k => rw [Nat.pow_succ] at hk; omega
      · rename_i h1
        rw [ih (n / 2) (by omega)]
        constructor
        · rintro ⟨k, hk⟩
          exact ⟨k + 1, by rw [Nat.pow_succ]; omega⟩
        · rintro ⟨k, hk⟩
          cases k with
          | zero => simp at hk; omega
          | succ k => exact ⟨k, by rw [Nat.pow_succ] at hk; omega⟩

/-- C51: sample rates, in hertz: the finite values of [3000, 768000]. -/
theorem C51_sample_rate (x : FV) : sampleRate x = true ↔ ∃ q : ℚ, x = .fin q ∧ 3000 ≤ q ∧ q ≤ 768000 := by
  unfold sampleRate
  rw [Bool.and_eq_true, le_fin, fin_le]
  constructor
  · rintro ⟨rfl | ⟨q, rfl, h⟩, h2 | ⟨q', h2, h'⟩⟩
    all_goals cases h2
    exact ⟨q, rfl, h, h'⟩
  · rintro ⟨q, rfl, h, h'⟩
    exact ⟨.inr ⟨q, rfl, h⟩, .inr ⟨q, rfl, h'⟩⟩

example : sampleRate (.fin 44100) = true ∧ sampleRate (.fin 2999) = false ∧ sampleRate .nan = false := by decide +kernel

/-- C51: channel counts, channel indices and lengths. -/
theorem C51_counts (n c : Nat) :
    (numberOfChannels n = true ↔ n ∈ Finset.Icc 1 32) ∧ (channelNumber c n = true ↔ c ∈ Finset.range n) ∧
    (bufferLength n = true ↔ n ≠ 0) := by
  simp [numberOfChannels, channelNumber, bufferLength, Nat.pos_iff_ne_zero, Nat.one_le_iff_ne_zero]

/-- C51: times: finite and not negative. -/
theorem C51_time (x : FV) : timeValue x = true ↔ ∃ q : ℚ, x = .fin q ∧ 0 ≤ q := by
  unfold timeValue
  rw [Bool.and_eq_true, le_fin, isFinite_iff]
  constructor
  · rintro ⟨⟨q, rfl⟩, h | ⟨q', h, h'⟩⟩
    · cases h
    · exact ⟨q', h, h'⟩
  · rintro ⟨q, rfl, h⟩
    exact ⟨⟨q, rfl⟩, .inr ⟨q, rfl, h⟩⟩

/-- C51: an offline context and an audio buffer. -/
theorem C51_offline (ch len : Nat) (x : FV) :
    offlineNew ch len x = true ↔
      (1 ≤ ch ∧ ch ≤ 32) ∧ 1 ≤ len ∧ ∃ q : ℚ, x = .fin q ∧ 3000 ≤ q ∧ q ≤ 768000 := by
  unfold offlineNew
  rw [Bool.and_eq_true, Bool.and_eq_true, C51_sample_rate]
  simp [numberOfChannels, bufferLength, and_assoc, Nat.one_le_iff_ne_zero, Nat.pos_iff_ne_zero]

/-- C51: the time of `suspend`: before the end of the rendering. -/
theorem C51_suspend (x : FV) (d : ℚ) : suspendTime x d = true ↔ ∃ q : ℚ, x = .fin q ∧ 0 ≤ q ∧ q < d := by
  unfold suspendTime
  rw [Bool.and_eq_true, le_fin, fin_lt]
  constructor
  · rintro ⟨rfl | ⟨q, rfl, h⟩, h2 | ⟨q', h2, h'⟩⟩
    all_goals cases h2
    exact ⟨q, rfl, h, h'⟩
  · rintro ⟨q, rfl, h, h'⟩
    exact ⟨.inr ⟨q, rfl, h⟩, .inr ⟨q, rfl, h'⟩⟩

/-- C51: fft sizes: exactly 32, 64, ..., 32768. -/
theorem C51_fft_size (n : Nat) :
    fftSize n = true ↔ n ∈ [32, 64, 128, 256, 512, 1024, 2048, 4096, 8192, 16384, 32768] := by
  unfold fftSize
  simp only [Bool.and_eq_true, powerOfTwo_iff, decide_eq_true_eq]
  constructor
  · rintro ⟨⟨k, rfl⟩, h1, h2⟩
    have hk : k ≤ 15 := by
      by_contra h
      have : 2 ^ 16 ≤ 2 ^ k := Nat.pow_le_pow_right (by omega) (by omega)
      omega
    interval_cases k <;> simp_all
  · intro h
    fin_cases h
    exacts [⟨⟨5, rfl⟩, by decide, by decide⟩, ⟨⟨6, rfl⟩, by decide, by decide⟩, ⟨⟨7, rfl⟩, by decide, by decide⟩,
      ⟨⟨8, rfl⟩, by decide, by decide⟩, ⟨⟨9, rfl⟩, by decide, by decide⟩, ⟨⟨10, rfl⟩, by decide, by decide⟩,
      ⟨⟨11, rfl⟩, by decide, by decide⟩, ⟨⟨12, rfl⟩, by decide, by decide⟩, ⟨⟨13, rfl⟩, by decide, by decide⟩,
      ⟨⟨14, rfl⟩, by decide, by decide⟩, ⟨⟨15, rfl⟩, by decide, by decide⟩]

theorem unit_interval (x : FV) :
    ((FV.fin 0).le x && x.le (.fin 1)) = true ↔ ∃ q : ℚ, x = .fin q ∧ 0 ≤ q ∧ q ≤ 1 := by
  rw [Bool.and_eq_true, le_fin, fin_le]
  constructor
  · rintro ⟨rfl | ⟨q, rfl, h⟩, h2 | ⟨q', h2, h'⟩⟩
    all_goals cases h2
    exact ⟨q, rfl, h, h'⟩
  · rintro ⟨q, rfl, h, h'⟩
    exact ⟨.inr ⟨q, rfl, h⟩, .inr ⟨q, rfl, h'⟩⟩

/-- C51: smoothing constant and cone gain: [0, 1]; the maximal delay: between 0 and 180 s. -/
theorem C51_ranges (x : FV) :
    (smoothing x = true ↔ ∃ q : ℚ, x = .fin q ∧ 0 ≤ q ∧ q ≤ 1) ∧
    (coneOuterGain x = true ↔ ∃ q : ℚ, x = .fin q ∧ 0 ≤ q ∧ q ≤ 1) ∧
    (maxDelayTime x = true ↔ ∃ q : ℚ, x = .fin q ∧ 0 < q ∧ q < 180) := by
  refine ⟨unit_interval x, unit_interval x, ?_⟩
  unfold maxDelayTime
  rw [Bool.and_eq_true, lt_fin, fin_lt]
  constructor
  · rintro ⟨rfl | ⟨q, rfl, h⟩, h2 | ⟨q', h2, h'⟩⟩
    all_goals cases h2
    exact ⟨q, rfl, h, h'⟩
  · rintro ⟨q, rfl, h, h'⟩
    exact ⟨.inr ⟨q, rfl, h⟩, .inr ⟨q, rfl, h'⟩⟩

/-- C51: the values given to an `AudioParam`. -/
theorem C51_param (x t c : FV) :
    (paramValue x = true ↔ ∃ q : ℚ, x = .fin q) ∧
    (paramAtTime x t = true ↔ (∃ q : ℚ, x = .fin q) ∧ ∃ s : ℚ, t = .fin s ∧ 0 ≤ s) ∧
    (paramExponential x t = true ↔ (∃ q : ℚ, x = .fin q ∧ q ≠ 0) ∧ ∃ s : ℚ, t = .fin s ∧ 0 ≤ s) ∧
    (paramTarget x t c = true ↔
      (∃ q : ℚ, x = .fin q) ∧ (∃ s : ℚ, t = .fin s ∧ 0 ≤ s) ∧ ∃ s : ℚ, c = .fin s ∧ 0 ≤ s) ∧
    (strictlyPositive x = true ↔ ∃ q : ℚ, x = .fin q ∧ 0 < q) := by
  refine ⟨isFinite_iff x, ?_, ?_, ?_, ?_⟩
  · unfold paramAtTime
    rw [Bool.and_eq_true, isFinite_iff, C51_time]
  · unfold paramExponential
    rw [Bool.and_eq_true, Bool.and_eq_true, isFinite_iff, C51_time]
    cases x <;> simp [FV.eq]
  · unfold paramTarget
    rw [Bool.and_eq_true, Bool.and_eq_true, isFinite_iff, C51_time, C51_time, and_assoc]
  · unfold strictlyPositive
    rw [Bool.and_eq_true, isFinite_iff, lt_fin]
    cases x <;> simp

/-- C51: the coefficients of an IIR filter. A NaN is not equal to zero, and is accepted. -/
theorem C51_iir (cs : List FV) :
    (feedforward cs = true ↔ (1 ≤ cs.length ∧ cs.length ≤ 20) ∧ ∃ c ∈ cs, c ≠ .fin 0) ∧
    (feedback cs = true ↔ (1 ≤ cs.length ∧ cs.length ≤ 20) ∧ ∃ c r, cs = c :: r ∧ c ≠ .fin 0) := by
  have heq : ∀ c : FV, c.eq (.fin 0) = true ↔ c = .fin 0 := by
    intro c
    cases c <;> simp [FV.eq]
  constructor
  · unfold feedforward
    cases cs with
    | nil => simp
    | cons a l =>
      rw [Bool.and_eq_true, Bool.not_eq_true', List.all_eq_false]
      simp only [heq]
      simp
  · unfold feedback
    cases cs with
    | nil => simp
    | cons a l =>
      simp only [List.headD_cons, Bool.and_eq_true, Bool.not_eq_true', ← Bool.not_eq_true, heq]
      simp

example : feedforward [.fin 0, .fin 1] = true ∧ feedforward [.fin 0, .fin 0] = false ∧
    feedback [.fin 0, .fin 1] = false := by decide +kernel

/-- C51: an impulse response: 1, 2 or 4 channels, and the sample rate of the context. -/
theorem C51_convolver (r c : ℚ) (n : Nat) :
    convolverBuffer (.fin r) (.fin c) n = true ↔ r = c ∧ (n = 1 ∨ n = 2 ∨ n = 4) := by
  simp [convolverBuffer, FV.eq]

/-- The buffer sizes which a script processor really accepts: 0, and every size up to 16384 whose quotient by 256 is a
power of two. -/
theorem C51_script_size_exact (n : Nat) :
    scriptNew n 1 1 = true ↔ n = 0 ∨ (n ≤ 16384 ∧ ∃ k, 256 * 2 ^ k ≤ n ∧ n < 256 * (2 ^ k + 1)) := by
  unfold scriptNew
  simp only [numberOfChannels, Bool.and_eq_true, decide_eq_true_eq, powerOfTwo_iff]
  by_cases h : n = 0
  · subst h
    simp only [if_true, true_or, iff_true]
    exact ⟨⟨⟨0, by decide⟩, by decide⟩, by decide⟩
  · rw [if_neg h]
    simp only [h, false_or]
    constructor
    · rintro ⟨⟨⟨k, hk⟩, h2⟩, -⟩
      exact ⟨h2, k, by omega, by omega⟩
    · rintro ⟨h2, k, h3, h4⟩
      exact ⟨⟨⟨k, by omega⟩, h2⟩, by decide⟩

/-- C51 for the script processor, partial: all documented sizes and channel counts are accepted, no others below 256 or
above 16384, and among the multiples of 256 exactly the documented ones. Missing: sizes between, see
`C51_negated_script_size`. -/
theorem C51_script_partial (n i o : Nat) (hn : n % 256 = 0) :
    scriptNew n i o = true ↔ n ∈ [0, 256, 512, 1024, 2048, 4096, 8192, 16384] ∧ ¬ (i = 0 ∧ o = 0) ∧ i ≤ 32 ∧ o ≤ 32 := by
  have hs : (powerOfTwo ((if n = 0 then 256 else n) / 256) && decide ((if n = 0 then 256 else n) ≤ 16384)) = true ↔
      n ∈ [0, 256, 512, 1024, 2048, 4096, 8192, 16384] := by
    simp only [Bool.and_eq_true, decide_eq_true_eq, powerOfTwo_iff]
    by_cases h : n = 0
    · subst h
      simp only [if_true, List.mem_cons, true_or, iff_true]
      exact ⟨⟨0, by decide⟩, by decide⟩
    · simp only [if_neg h]
      constructor
      · rintro ⟨⟨k, hk⟩, h2⟩
        have hk6 : k ≤ 6 := by
          by_contra h
          have : 2 ^ 7 ≤ 2 ^ k := Nat.pow_le_pow_right (by omega) (by omega)
          omega
        have hnk : n = 256 * 2 ^ k := by omega
        subst hnk
        interval_cases k <;> simp
      · intro hm
        simp only [List.mem_cons, List.not_mem_nil, or_false] at hm
        rcases hm with hm | hm | hm | hm | hm | hm | hm | hm <;> subst hm
        · exact absurd rfl h
        · exact ⟨⟨0, rfl⟩, by decide⟩
        · exact ⟨⟨1, rfl⟩, by decide⟩
        · exact ⟨⟨2, rfl⟩, by decide⟩
        · exact ⟨⟨3, rfl⟩, by decide⟩
        · exact ⟨⟨4, rfl⟩, by decide⟩
        · exact ⟨⟨5, rfl⟩, by decide⟩
        · exact ⟨⟨6, rfl⟩, by decide⟩
  unfold scriptNew
  simp only
  rw [Bool.and_eq_true, hs]
  refine and_congr_right fun _ => ?_
  rcases i with _ | i <;> rcases o with _ | o <;> simp [numberOfChannels]

/-- C51 is false for the script processor: 300 is not a documented size, and is accepted; so is an undocumented size for
each power of two. -/
theorem C51_negated_script_size : scriptNew 300 1 1 = true ∧ scriptNew 300 1 1 = scriptNew 256 1 1 ∧
    300 ∉ [0, 256, 512, 1024, 2048, 4096, 8192, 16384] := by
  have h : scriptNew 300 1 1 = true := (C51_script_size_exact 300).2 (.inr ⟨by decide, 0, by decide, by decide⟩)
  refine ⟨h, ?_, by decide⟩
  rw [h]
  exact ((C51_script_size_exact 256).2 (.inr ⟨by decide, 0, by decide, by decide⟩)).symm

/-- No output channels are documented as valid, and accepted; the panic comes on the rendering thread, at the end of the
first chunk, instead of the calling thread. -/
theorem C51_negated_script_outputs (n i : Nat) (h : scriptNew n 1 1 = true) (hi : 1 ≤ i ∧ i ≤ 32) :
    scriptNew n i 0 = true ∧ scriptFirstChunk 0 = false := by
  refine ⟨?_, rfl⟩
  unfold scriptNew at h ⊢
  simp only [Bool.and_eq_true] at h ⊢
  refine ⟨h.1, ?_⟩
  obtain ⟨j, rfl⟩ : ∃ j, i = j + 1 := ⟨i - 1, by omega⟩
  simp [numberOfChannels]
  omega

/-- C51 for periodic waves, partial: the documented conditions on lengths, except the one on more than 8192
components. -/
theorem C51_periodic_wave_partial (r i : Option Nat) :
    periodicWave r i = true ↔ (∀ n, r = some n → 2 ≤ n) ∧ (∀ n, i = some n → 2 ≤ n) ∧
      ∀ n m, r = some n → i = some m → n = m := by
  rcases r with _ | r <;> rcases i with _ | i <;> simp [periodicWave]
  constructor
  · rintro ⟨rfl, h⟩; exact ⟨h, h, rfl⟩
  · rintro ⟨h, _, rfl⟩; exact ⟨rfl, h⟩

/-- C51 is false for periodic waves: the documentation promises a panic for more than 8192 components, any number is
accepted. -/
theorem C51_negated_periodic_wave (n : Nat) (h : 2 ≤ n) : periodicWave (some n) none = true ∧
    periodicWave none (some n) = true ∧ periodicWave (some n) (some n) = true := by
  simp [periodicWave, h]

/-- C51 for the panner: exactly the not negative (positive for the maximal distance) values; infinity is one of them.
The comment of `set_max_distance` only excludes negative values, zero panics too. -/
theorem C51_panner (x : FV) :
    (refDistance x = true ↔ x = .inf ∨ ∃ q : ℚ, x = .fin q ∧ 0 ≤ q) ∧
    (rolloffFactor x = true ↔ x = .inf ∨ ∃ q : ℚ, x = .fin q ∧ 0 ≤ q) ∧
    (maxDistance x = true ↔ x = .inf ∨ ∃ q : ℚ, x = .fin q ∧ 0 < q) :=
  ⟨le_fin 0 x, le_fin 0 x, lt_fin 0 x⟩

/-! ## Channel configuration -/

/-- The configurations which the documentation (and the W3C specification) allows. -/
def Allowed (k : Kind) (c : Config) : Prop :=
  (1 ≤ c.count ∧ c.count ≤ 32) ∧
  match k with
  | .free => True
  | .limited => c.count ∈ [1, 2] ∧ c.mode ∈ [Mode.clampedMax, Mode.explicit]
  | .merger => c.count = 1 ∧ c.mode = .explicit
  | .splitter n => c.count = n ∧ c.mode = .explicit ∧ c.interp = .discrete
  | .script n => c.count = max n 1 ∧ c.mode = .explicit
  | .offlineDest n => c.count = n ∧ c.mode = .explicit
  | .onlineDest n => c.count ≤ n
  | .listener => c = ⟨1, .explicit, .discrete⟩

/-- the configuration which a call asks for -/
def wanted (c : Config) : Call → Config
  | .count n => { c with count := n }
  | .mode m => { c with mode := m }
  | .interp i => { c with interp := i }

/-- C51: a setter is accepted exactly if the configuration it asks for is allowed, and then the configuration is
that one. (The listener is not a node for the user, its setters always panic.) -/
theorem C51_setter (k : Kind) (hk : k ≠ .listener) (c : Config) (hc : Allowed k c) (x : Call) :
    (∀ c', set k c x = some c' ↔ (Allowed k (wanted c x) ∧ c' = wanted c x)) := by
  intro c'
  obtain ⟨n, m, i⟩ := c
  rcases x with v | v | v
  · cases k <;> simp only [Allowed, wanted, set, setCount, numberOfChannels] at hc ⊢ <;> grind
  · cases v <;> cases k <;> simp only [Allowed, wanted, set, setCount, numberOfChannels] at hc ⊢ <;> grind
  · cases k <;> simp only [Allowed, wanted, set, setCount, numberOfChannels] at hc ⊢ <;> grind

/-- A splitter with two outputs: the count cannot be changed, the mode can be set to what it is. -/
example : set (.splitter 2) ⟨2, .explicit, .discrete⟩ (.count 3) = none ∧
    set (.splitter 2) ⟨2, .explicit, .discrete⟩ (.mode .explicit) = some ⟨2, .explicit, .discrete⟩ ∧
    Allowed (.splitter 2) ⟨2, .explicit, .discrete⟩ := by simp [set, Allowed]

/-- C51: constructors. With options that are not the default of a splitter, they are accepted exactly if they are
allowed, and then they are the configuration of the node. -/
theorem C51_constructor (k : Kind) (hk : k = .free ∨ k = .limited ∨ k = .merger ∨ ∃ n, k = .splitter n)
    (o : Config) (h6 : ∀ n, k = .splitter n → n ≠ 6 → o.count ≠ 6) :
    ∀ c, create k o = some c ↔ (Allowed k o ∧ c = o) := by
  intro c
  obtain ⟨n, m, i⟩ := o
  rcases hk with rfl | rfl | rfl | ⟨v, rfl⟩
  · simp only [Allowed, create, Config.from, numberOfChannels]; grind
  · cases m <;> simp only [Allowed, create, Config.from, numberOfChannels] <;> grind
  · simp only [Allowed, create, Config.from, numberOfChannels]; grind
  · have h7 := h6 v rfl
    simp only [Allowed, create, Config.from, numberOfChannels] at h7 ⊢
    grind

/-- C51: every constructor gives an allowed configuration (the channels of the device are at most its maximum). -/
theorem C51_created (k : Kind) (o c : Config) (hd : ∀ n, k = .onlineDest n → o.count ≤ n)
    (h : create k o = some c) : Allowed k c := by
  obtain ⟨n, m, i⟩ := o
  cases k
  case limited => cases m <;> simp only [Allowed, create, Config.from, numberOfChannels] at h ⊢ <;> grind
  case onlineDest v =>
    have := hd v rfl
    simp only [Allowed, create, Config.from, numberOfChannels] at h this ⊢
    grind
  all_goals
    simp only [Allowed, create, Config.from, numberOfChannels] at h ⊢
    grind

/-- C51 is false for the splitter: an explicit channel count of 6, with two outputs, is accepted and replaced. -/
theorem C51_negated_splitter :
    create (.splitter 2) ⟨6, .explicit, .discrete⟩ = some ⟨2, .explicit, .discrete⟩ ∧
    ¬ Allowed (.splitter 2) ⟨6, .explicit, .discrete⟩ ∧
    create (.splitter 2) ⟨5, .explicit, .discrete⟩ = none := by
  refine ⟨by decide, ?_, by decide⟩
  simp [Allowed]

theorem set_allowed (k : Kind) (c c' : Config) (hc : Allowed k c) (x : Call) (h : set k c x = some c') :
    Allowed k c' := by
  by_cases hk : k = .listener
  · subst hk
    cases x <;> simp [set] at h
  · obtain ⟨h1, h2⟩ := (C51_setter k hk c hc x c').1 h
    rw [h2]
    exact h1

/-- C51: after every sequence of calls, accepted or not, the configuration is allowed. -/
theorem C51_invariant (k : Kind) (o c : Config) (hd : ∀ n, k = .onlineDest n → o.count ≤ n)
    (h : create k o = some c) (xs : List Call) : Allowed k (calls k c xs).1 := by
  have hc := C51_created k o c hd h
  clear h
  induction xs generalizing c with
  | nil => exact hc
  | cons x xs ih =>
    unfold calls
    split
    · rename_i c' h
      exact ih c' (set_allowed k c c' hc x h)
    · exact ih c hc

/-- C51: the answers are exactly right: call number `t` panics if and only if it asks for a configuration that is not
allowed, given the calls before. -/
theorem C51_answers (k : Kind) (hk : k ≠ .listener) (c : Config) (hc : Allowed k c) (xs : List Call) (t : Nat)
    (x : Call) (hx : xs[t]? = some x) :
    (calls k c xs).2[t]? = some true ↔ Allowed k (wanted (calls k c (xs.take t)).1 x) := by
  induction xs generalizing c t with
  | nil => simp at hx
  | cons y xs ih =>
    cases t with
    | zero =>
      simp only [List.getElem?_cons_zero, Option.some.injEq] at hx
      subst hx
      simp only [List.take_zero, calls]
      have := C51_setter k hk c hc y
      split
      · rename_i c' h
        simp [((this c').1 h).1]
      · rename_i h
        simp only [List.getElem?_cons_zero, Option.some.injEq, Bool.false_eq_true, false_iff]
        intro ha
        rw [(this _).2 ⟨ha, rfl⟩] at h
        simp at h
    | succ t =>
      simp only [List.getElem?_cons_succ] at hx
      simp only [List.take_succ_cons]
      unfold calls
      split
      · rename_i c' h
        exact ih c' (set_allowed k c c' hc y h) t hx
      · exact ih c hc t hx

example : (calls .limited ⟨2, .clampedMax, .speakers⟩ [.count 3, .count 1, .mode .max, .count 0, .mode .explicit]) =
    (⟨1, .explicit, .speakers⟩, [false, true, false, false, true]) := by decide

/-- With C51 the panic of the stereo panner for more than two channels cannot be reached: whatever is called, before
and after construction, the input which the graph mixes for the node has at most two channels. -/
theorem C51_panner_no_panic (o c : Config) (h : create .limited o = some c) (xs : List Call) (N : Nat)
    (pan : List ℝ) (n1 n2 : Nat) (input : Node.Quantum ℝ)
    (hin : input.length = Mix.newCount (calls .limited c xs).1.mode (calls .limited c xs).1.count n1 n2) :
    ∃ r, Node.panner N pan input = some r := by
  have ha := C51_invariant .limited o c (fun n hn => by cases hn) h xs
  obtain ⟨_, h1, h2⟩ := ha
  refine Node.C41_no_panic N pan _ _ n1 n2 ?_ ?_ input hin
  · simp only [List.mem_cons, List.not_mem_nil, or_false] at h1
    omega
  · intro hm
    rw [hm] at h2
    simp at h2

end Verif.Valid
