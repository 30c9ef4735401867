import Verif.Filter.IirProps
import Verif.Filter.BiquadProps
import Mathlib.Algebra.Polynomial.Splits
import Mathlib.Algebra.Polynomial.AlgebraMap
import Mathlib.Analysis.SpecificLimits.Basic
import Mathlib.FieldTheory.IsAlgClosed.Basic
import Mathlib.Analysis.Complex.Polynomial.Basic
import Mathlib.Analysis.SpecialFunctions.Complex.Arg

/-!
# C83: `get_frequency_response` of the filters

Models `IIRFilterNode::get_frequency_response` (`/repo/src/node/iir_filter.rs` l.221-265) and
`BiquadFilterNode::get_frequency_response` (`/repo/src/node/biquad_filter.rs` l.670-742) in exact arithmetic,
`None` for NaN. The property relates it to what the filters do to a sine.
-/

namespace Verif.Filter

open Verif.Node Finset Topology
open _root_.Filter (Tendsto atTop eventually_ge_atTop)

/-! ## Model -/

/-- the sum of l.250-256 of iir_filter.rs: `from_polar(c[idx], idx * z)` -/
noncomputable def polarSum (cs : List ℝ) (z : ℝ) : ℂ :=
  (cs.mapIdx fun idx (c : ℝ) => (c : ℂ) * Complex.exp ((idx * z : ℝ) * Complex.I)).sum

open Classical in
/-- division and `to_polar`, iir_filter.rs l.258-260 and biquad_filter.rs l.734-736; a division by zero is not finite -/
noncomputable def polar (num den : ℂ) : Option (ℝ × ℝ) :=
  if den = 0 then none else some (‖num / den‖, (num / den).arg)

/-- `get_frequency_response` of the IIR filter, iir_filter.rs l.221-265: `none` is the panic for arguments of
different lengths; the entries are magnitude and phase, `none` for NaN. -/
noncomputable def iirFrequencyResponse (b a : List ℝ) (sampleRate : ℝ) (freqs : List ℝ) (mags phases : Nat) :
    Option (List (Option (ℝ × ℝ))) :=
  if freqs.length = mags ∧ mags = phases then
    some <| freqs.map fun freq =>
      if freq < 0 ∨ sampleRate / 2 < freq then none
      else
        let z := -2 * Real.pi * freq / sampleRate
        polar (polarSum b z) (polarSum a z)
  else none

/-- `get_frequency_response` of the biquad filter, biquad_filter.rs l.670-742, with the values of the parameters
at the time of the call -/
noncomputable def biquadFrequencyResponse (ty : FilterType) (frequency detune gain q sampleRate : ℝ)
    (freqs : List ℝ) (mags phases : Nat) : Option (List (Option (ℝ × ℝ))) :=
  if freqs.length = mags ∧ mags = phases then
    let k := calculateCoefs ty sampleRate (computedFreq frequency detune) gain q
    some <| freqs.map fun freq =>
      if freq < 0 ∨ sampleRate / 2 < freq then none
      else
        let z : ℂ := Complex.exp (((-Real.pi * (freq / (sampleRate / 2)) : ℝ) : ℂ) * Complex.I)
        polar (k.b0 + (k.b1 + k.b2 * z) * z) (1 + (k.a1 + k.a2 * z) * z)
  else none

/-! ## Specification -/

/-- Input `xs` and output `ys` of a channel of an IIR filter node, over any number of quanta of any length -/
def IirRuns (b a xs ys : List ℝ) : Prop :=
  ∃ (m N : Nat) (qs : List (Quantum ℝ)) (c : Nat), c < m ∧ (∀ q ∈ qs, ∀ l, some l ∈ q → l.length = N) ∧
    (∀ q ∈ qs, isSilent q = false → q.length = m) ∧ xs = stream N qs c ∧
    ys = stream N (((Iir.new b a).run N qs).2.map (·.1)) c

/-- Input `xs` and output `ys` of a channel of a biquad filter node with constant parameters -/
def BiquadRuns (k : Coefs) (xs ys : List ℝ) : Prop :=
  ∃ (m N : Nat) (qs : List (Quantum ℝ)) (c : Nat), c < m ∧ (∀ q ∈ qs, ∀ l, some l ∈ q → l.length = N) ∧
    (∀ q ∈ qs, isSilent q = false → q.length = m) ∧ xs = stream N qs c ∧
    ys = stream N ((biquadRun N [] (qs.map fun q => (List.replicate N k, q))).2.map (·.1)) c

/-- The filter turns, in the long run, a cosine with angle `w` per frame
into a cosine that is louder by `mag` and ahead by `phase`: for all amplitudes and phases of the input. -/
def TurnsSineInto (sat : List ℝ → List ℝ → Prop) (w mag phase : ℝ) : Prop :=
  ∀ amp φ ε : ℝ, 0 < ε → ∃ n0 : Nat, ∀ xs ys : List ℝ, sat xs ys →
    (∀ n, n < xs.length → xs.getD n 0 = amp * Real.cos (w * n + φ)) →
    ∀ n, n0 ≤ n → n < xs.length → |ys.getD n 0 - mag * (amp * Real.cos (w * n + φ + phase))| < ε

/-- All poles of the filter are inside the unit circle. -/
def PolesWithin (a : List ℝ) : Prop :=
  ∀ z : ℂ, (∑ k ∈ range a.length, (a.getD k 0 : ℂ) * z ^ (a.length - 1 - k)) = 0 → ‖z‖ < 1

/-! ## Proofs -/

theorem tendsto_first {l : ℂ} (hl : ‖l‖ < 1) {v : ℕ → ℂ}
    (h : Tendsto (fun n => v (n + 1) - l * v n) atTop (𝓝 0)) : Tendsto v atTop (𝓝 0) := by
  have h1 : 0 < 1 - ‖l‖ := by linarith
  rw [Metric.tendsto_atTop] at h ⊢
  intro ε hε
  obtain ⟨N, hN⟩ := h (ε / 2 * (1 - ‖l‖)) (by positivity)
  have hb : ∀ k, ‖v (N + k)‖ ≤ ‖l‖ ^ k * ‖v N‖ + ε / 2 := by
    intro k
    induction k with
    | zero => simp; positivity
    | succ k ih =>
      have hd := hN (N + k) (by omega)
      rw [dist_zero_right] at hd
      have e : v (N + (k + 1)) = (v (N + k + 1) - l * v (N + k)) + l * v (N + k) := by
        rw [← add_assoc]; ring
      rw [e]
      refine (norm_add_le _ _).trans ?_
      rw [norm_mul]
      have := mul_le_mul_of_nonneg_left ih (norm_nonneg l)
      rw [pow_succ]
      nlinarith
  have hp := (tendsto_pow_atTop_nhds_zero_of_lt_one (norm_nonneg l) hl).mul_const ‖v N‖
  rw [zero_mul, Metric.tendsto_atTop] at hp
  obtain ⟨K, hK⟩ := hp (ε / 2) (by positivity)
  refine ⟨N + K, fun n hn => ?_⟩
  obtain ⟨k, rfl⟩ : ∃ k, n = N + k := ⟨n - N, by omega⟩
  have hk := hK k (by omega)
  rw [dist_zero_right, Real.norm_eq_abs, abs_of_nonneg (by positivity)] at hk
  rw [dist_zero_right]
  linarith [hb k]

/-- shift of a sequence -/
noncomputable def shiftSeq : Module.End ℂ (ℕ → ℂ) := LinearMap.funLeft ℂ ℂ Nat.succ

theorem shiftSeq_pow (m : ℕ) (y : ℕ → ℂ) (n : ℕ) : (shiftSeq ^ m) y n = y (n + m) := by
  induction m generalizing n with
  | zero => rfl
  | succ m ih =>
    rw [pow_succ', Module.End.mul_apply]
    change (shiftSeq ^ m) y (n + 1) = _
    rw [ih]; congr 1; omega

open Polynomial in
theorem tendsto_roots (s : Multiset ℂ) (hs : ∀ l ∈ s, ‖l‖ < 1) (y : ℕ → ℂ)
    (h : Tendsto (aeval shiftSeq (s.map fun l => X - C l).prod y) atTop (𝓝 0)) : Tendsto y atTop (𝓝 0) := by
  induction s using Multiset.induction_on with
  | empty => simpa using h
  | cons l s ih =>
    refine ih (fun m hm => hs m (Multiset.mem_cons_of_mem hm)) ?_
    refine tendsto_first (hs l (Multiset.mem_cons_self _ _)) ?_
    refine h.congr fun n => ?_
    rw [Multiset.map_cons, Multiset.prod_cons, map_mul, Module.End.mul_apply]
    simp only [map_sub, aeval_X, aeval_C, LinearMap.sub_apply, Pi.sub_apply, Module.algebraMap_end_apply,
      Pi.smul_apply, smul_eq_mul]
    rfl

open Polynomial in
/-- All solutions of the homogeneous equation decay. -/
theorem tendsto_homogeneous {a : List ℝ} (ha : a.getD 0 0 ≠ 0) (hp : PolesWithin a) (e : ℕ → ℂ) (M : ℕ)
    (he : ∀ n, M ≤ n → ∑ k ∈ range a.length, (a.getD k 0 : ℂ) * e (n + (a.length - 1 - k)) = 0) :
    Tendsto e atTop (𝓝 0) := by
  set P : ℂ[X] := ∑ k ∈ range a.length, C (a.getD k 0 : ℂ) * X ^ (a.length - 1 - k) with hP
  have hlen : 0 < a.length := by
    rcases a with _ | ⟨x, a⟩
    · simp at ha
    · simp
  have hcoeff : P.coeff (a.length - 1) = (a.getD 0 0 : ℂ) := by
    rw [hP, finsetSum_coeff, sum_eq_single 0]
    · simp
    · intro k hk hk0
      rw [mem_range] at hk
      rw [coeff_C_mul, coeff_X_pow, if_neg (by omega), mul_zero]
    · intro h; exact absurd (mem_range.2 hlen) h
  have hP0 : P ≠ 0 := by
    intro h
    rw [h, coeff_zero] at hcoeff
    exact ha (by exact_mod_cast hcoeff.symm)
  have hsplit := (IsAlgClosed.splits P).eq_prod_roots
  have happ : ∀ n, aeval shiftSeq P e n = ∑ k ∈ range a.length, (a.getD k 0 : ℂ) * e (n + (a.length - 1 - k)) := by
    intro n
    rw [hP, map_sum, LinearMap.sum_apply, Finset.sum_apply]
    refine sum_congr rfl fun k _ => ?_
    rw [map_mul, aeval_C, map_pow, aeval_X, Module.End.mul_apply, Module.algebraMap_end_apply, Pi.smul_apply,
      shiftSeq_pow, smul_eq_mul]
  refine tendsto_roots P.roots (fun l hl => ?_) e ?_
  · refine hp l ?_
    have := (mem_roots hP0).1 hl
    rw [IsRoot.def, hP, eval_finset_sum] at this
    simpa using this
  · have hlead : P.leadingCoeff ≠ 0 := leadingCoeff_ne_zero.2 hP0
    have hz : ∀ᶠ n in atTop, aeval shiftSeq (P.roots.map fun l => X - C l).prod e n = 0 := by
      filter_upwards [eventually_ge_atTop M] with n hn
      have h1 := happ n
      rw [he n hn, hsplit, map_mul, aeval_C, Module.End.mul_apply, Module.algebraMap_end_apply, Pi.smul_apply,
        smul_eq_mul] at h1
      exact (mul_eq_zero.1 h1).resolve_left hlead
    exact Tendsto.congr' (hz.mono fun n hn => hn.symm) tendsto_const_nhds

/-- the solution of the difference equation for an endless input -/
noncomputable def sol (b a : List ℝ) (x : ℕ → ℝ) (n : ℕ) : ℝ :=
  (∑ k ∈ range (n + 1), b.getD k 0 * x (n - k) - ∑ k : Fin n, a.getD (k + 1) 0 * sol b a x (n - (k + 1))) / a.getD 0 0
termination_by n
decreasing_by have := k.2; omega

theorem sol_eq (b a : List ℝ) (ha : a.getD 0 0 ≠ 0) (x : ℕ → ℝ) (n : ℕ) :
    a.getD 0 0 * sol b a x n = ∑ k ∈ range (n + 1), b.getD k 0 * x (n - k) -
      ∑ k ∈ range n, a.getD (k + 1) 0 * sol b a x (n - (k + 1)) := by
  rw [sol, ← Fin.sum_univ_eq_sum_range (fun k => a.getD (k + 1) 0 * sol b a x (n - (k + 1)))]
  field_simp

theorem satisfies_sol {b a : List ℝ} (ha : a.getD 0 0 ≠ 0) {xs ys : List ℝ} (h : Satisfies b a xs ys) {x : ℕ → ℝ}
    (hx : ∀ n, n < xs.length → xs.getD n 0 = x n) : ∀ n, n < xs.length → ys.getD n 0 = sol b a x n := by
  intro n
  induction n using Nat.strong_induction_on with
  | _ n ih =>
    intro hn
    refine mul_left_cancel₀ ha ?_
    rw [h.2 n hn, sol_eq b a ha]
    congr 1
    · exact sum_congr rfl fun k _ => by rw [hx _ (by omega)]
    · refine sum_congr rfl fun k hk => ?_
      rw [mem_range] at hk
      rw [ih _ (by omega) (by omega)]

theorem polarSum_eq (cs : List ℝ) (z : ℝ) :
    polarSum cs z = ∑ k ∈ range cs.length, (cs.getD k 0 : ℂ) * Complex.exp (((k : ℝ) * z : ℝ) * Complex.I) := by
  have : ∀ (cs : List ℝ) (f : ℕ → ℝ → ℂ), (cs.mapIdx f).sum = ∑ k ∈ range cs.length, f k (cs.getD k 0) := by
    intro cs
    induction cs with
    | nil => intro f; simp
    | cons c cs ih =>
      intro f
      rw [List.mapIdx_cons, List.sum_cons, ih, List.length_cons, sum_range_succ']
      simp [add_comm]
  unfold polarSum
  exact this cs fun idx c => (c : ℂ) * Complex.exp ((idx * z : ℝ) * Complex.I)

/-- sums over the coefficients may run further -/
theorem sum_extend (cs : List ℝ) (f : ℕ → ℂ) {n : ℕ} (h : cs.length ≤ n) :
    ∑ k ∈ range n, (cs.getD k 0 : ℂ) * f k = ∑ k ∈ range cs.length, (cs.getD k 0 : ℂ) * f k := by
  symm
  refine sum_subset (range_subset_range.2 h) fun k _ hk => ?_
  rw [mem_range, not_lt] at hk
  simp [List.getD, List.getElem?_eq_none hk]

/-- an exponential with angle `w` per frame -/
noncomputable def wave (w φ : ℝ) (n : ℕ) : ℂ := Complex.exp ((w * n + φ : ℝ) * Complex.I)

theorem wave_sub (w φ : ℝ) {n k : ℕ} (h : k ≤ n) :
    wave w φ (n - k) = wave w φ n * Complex.exp (((k : ℝ) * -w : ℝ) * Complex.I) := by
  unfold wave
  rw [← Complex.exp_add]
  congr 1
  push_cast [Nat.cast_sub h]
  ring

theorem conv_wave (cs : List ℝ) (w φ : ℝ) {n : ℕ} (h : cs.length ≤ n + 1) :
    ∑ k ∈ range cs.length, (cs.getD k 0 : ℂ) * wave w φ (n - k) = wave w φ n * polarSum cs (-w) := by
  rw [polarSum_eq, mul_sum]
  refine sum_congr rfl fun k hk => ?_
  rw [mem_range] at hk
  rw [wave_sub w φ (by omega)]
  ring

theorem polarSum_ne {a : List ℝ} (hp : PolesWithin a) (w : ℝ) : polarSum a (-w) ≠ 0 := by
  intro h
  have hz := hp (Complex.exp ((w : ℝ) * Complex.I)) ?_
  · rw [Complex.norm_exp_ofReal_mul_I] at hz; exact lt_irrefl _ hz
  · have : ∑ k ∈ range a.length, (a.getD k 0 : ℂ) * Complex.exp ((w : ℝ) * Complex.I) ^ (a.length - 1 - k) =
        ∑ k ∈ range a.length, (a.getD k 0 : ℂ) * wave w 0 (a.length - 1 - k) := by
      refine sum_congr rfl fun k _ => ?_
      rw [wave, ← Complex.exp_nat_mul]
      congr 2
      push_cast
      ring
    rw [this, conv_wave a w 0 (by omega), h, mul_zero]

theorem long_run {b a : List ℝ} (ha : a.getD 0 0 ≠ 0) (hp : PolesWithin a) (w : ℝ) :
    TurnsSineInto (Satisfies b a) w ‖polarSum b (-w) / polarSum a (-w)‖ (polarSum b (-w) / polarSum a (-w)).arg := by
  set R := polarSum b (-w) / polarSum a (-w) with hR
  intro amp φ ε hε
  have hA := polarSum_ne hp w
  let x : ℕ → ℝ := fun n => amp * Real.cos (w * n + φ)
  let Z : ℕ → ℂ := fun n => R * (amp * wave w φ n)
  have hx : ∀ n, x n = (amp * wave w φ n : ℂ).re := by
    intro n
    simp only [x, wave, Complex.re_ofReal_mul, Complex.exp_ofReal_mul_I_re]
  have hZ : ∀ n, (Z n).re = ‖R‖ * (amp * Real.cos (w * n + φ + R.arg)) := by
    intro n
    have hpol : R = ‖R‖ * Complex.exp (R.arg * Complex.I) := (Complex.norm_mul_exp_arg_mul_I R).symm
    have : Z n = ((‖R‖ * amp : ℝ) : ℂ) * Complex.exp ((w * n + φ + R.arg : ℝ) * Complex.I) := by
      have e1 : Complex.exp ((w * n + φ + R.arg : ℝ) * Complex.I) =
          Complex.exp ((w * n + φ : ℝ) * Complex.I) * Complex.exp (R.arg * Complex.I) := by
        rw [← Complex.exp_add]; push_cast; congr 1; ring
      simp only [Z, wave]
      rw [e1]
      conv_lhs => rw [hpol]
      push_cast
      ring
    rw [this, Complex.re_ofReal_mul, Complex.exp_ofReal_mul_I_re]
    ring
  have hlen : 0 < a.length := by
    rcases a with _ | ⟨y, a⟩
    · simp at ha
    · simp
  let e : ℕ → ℝ := fun n => sol b a x n - (Z n).re
  have hhom : ∀ j, b.length ≤ j → a.length ≤ j + 1 → ∑ k ∈ range a.length, a.getD k 0 * e (j - k) = 0 := by
    intro j hbj haj
    have h1 : ∑ k ∈ range a.length, a.getD k 0 * sol b a x (j - k) = ∑ k ∈ range b.length, b.getD k 0 * x (j - k) := by
      have hs := sol_eq b a ha x j
      have e1 : ∑ k ∈ range (j + 1), a.getD k 0 * sol b a x (j - k) = ∑ k ∈ range (j + 1), b.getD k 0 * x (j - k) := by
        rw [sum_range_succ']
        simp only [Nat.sub_zero]
        linarith
      have e2 := sum_extend a (fun k => (sol b a x (j - k) : ℂ)) haj
      have e3 := sum_extend b (fun k => (x (j - k) : ℂ)) (n := j + 1) (by omega)
      have e2' : ∑ k ∈ range (j + 1), a.getD k 0 * sol b a x (j - k) =
          ∑ k ∈ range a.length, a.getD k 0 * sol b a x (j - k) := by exact_mod_cast e2
      have e3' : ∑ k ∈ range (j + 1), b.getD k 0 * x (j - k) = ∑ k ∈ range b.length, b.getD k 0 * x (j - k) := by
        exact_mod_cast e3
      rw [← e2', ← e3', e1]
    have h2 : ∑ k ∈ range a.length, a.getD k 0 * (Z (j - k)).re = ∑ k ∈ range b.length, b.getD k 0 * x (j - k) := by
      have hc : ∑ k ∈ range a.length, (a.getD k 0 : ℂ) * Z (j - k) =
          ∑ k ∈ range b.length, (b.getD k 0 : ℂ) * (amp * wave w φ (j - k)) := by
        have e1 := conv_wave a w φ haj
        have e2 := conv_wave b w φ (n := j) (by omega)
        have f1 : ∑ k ∈ range a.length, (a.getD k 0 : ℂ) * Z (j - k) =
            R * amp * ∑ k ∈ range a.length, (a.getD k 0 : ℂ) * wave w φ (j - k) := by
          rw [mul_sum]; exact sum_congr rfl fun k _ => by simp only [Z]; ring
        have f2 : ∑ k ∈ range b.length, (b.getD k 0 : ℂ) * (amp * wave w φ (j - k)) =
            amp * ∑ k ∈ range b.length, (b.getD k 0 : ℂ) * wave w φ (j - k) := by
          rw [mul_sum]; exact sum_congr rfl fun k _ => by ring
        rw [f1, f2, e1, e2, hR]
        field_simp
      have hre := congrArg Complex.re hc
      rw [Complex.re_sum, Complex.re_sum] at hre
      rw [← sum_congr rfl fun k _ => Complex.re_ofReal_mul (a.getD k 0) (Z (j - k)), hre]
      refine sum_congr rfl fun k _ => ?_
      rw [Complex.re_ofReal_mul, hx]
    simp only [e, mul_sub, sum_sub_distrib, h1, h2, sub_self]
  have ht : Tendsto (fun n => ((e n : ℝ) : ℂ)) atTop (𝓝 0) := by
    refine tendsto_homogeneous ha hp _ b.length fun n hn => ?_
    have := hhom (n + (a.length - 1)) (by omega) (by omega)
    have h2 : ∑ k ∈ range a.length, a.getD k 0 * e (n + (a.length - 1 - k)) = 0 := by
      rw [← this]
      refine sum_congr rfl fun k hk => ?_
      rw [mem_range] at hk
      congr 2; omega
    exact_mod_cast h2
  rw [Metric.tendsto_atTop] at ht
  obtain ⟨n0, hn0⟩ := ht ε hε
  refine ⟨n0, fun xs ys hsat hxs n hn hlt => ?_⟩
  have h1 := hn0 n hn
  rw [dist_zero_right, Complex.norm_real, Real.norm_eq_abs] at h1
  rw [satisfies_sol ha hsat (x := x) hxs n hlt, ← hZ]
  exact h1

theorem recursion_satisfies {k : Coefs} {xs ys : List ℝ} (h : Recursion (List.replicate xs.length k) xs ys) :
    Satisfies [k.b0, k.b1, k.b2] [1, k.a1, k.a2] xs ys := by
  refine ⟨h.1, fun n hn => ?_⟩
  obtain ⟨k', hk, e⟩ := h.2 n hn
  rw [List.getElem?_replicate_of_lt hn] at hk
  obtain rfl := Option.some.inj hk
  have hz : ∀ (f : ℕ → ℝ) (m : ℕ), (∀ i, 3 ≤ i → f i = 0) → ∑ i ∈ range (m + 3), f i = f 0 + f 1 + f 2 := by
    intro f m hf
    rw [add_comm, sum_range_add, sum_range_succ, sum_range_succ, sum_range_succ, sum_range_zero]
    rw [sum_eq_zero fun i _ => hf (3 + i) (by omega)]
    ring
  rcases n with _ | _ | n
  · simp [before] at e ⊢
    rw [e]
  · simp [sum_range_succ, before] at e ⊢
    rw [e]
  · rw [show n + 1 + 1 + 1 = n + 3 by ring, hz _ n (fun i hi => by
      simp [List.getD, List.getElem?_eq_none (l := [k.b0, k.b1, k.b2]) (i := i) (by simpa using hi)])]
    have hz2 : ∑ i ∈ range (n + 2), [1, k.a1, k.a2].getD (i + 1) 0 * ys.getD (n + 2 - (i + 1)) 0 =
        k.a1 * ys.getD (n + 1) 0 + k.a2 * ys.getD n 0 := by
      rw [add_comm n 2, sum_range_add, sum_range_succ, sum_range_succ, sum_range_zero,
        sum_eq_zero fun i _ => by simp [List.getD]]
      simp [show 2 + n - 1 = n + 1 by omega]
    rw [show n + 1 + 1 = n + 2 by ring] at e ⊢
    rw [hz2, e]
    simp [before, show n + 2 - 1 = n + 1 by omega]
    ring

theorem TurnsSineInto.mono {s t : List ℝ → List ℝ → Prop} (hst : ∀ xs ys, s xs ys → t xs ys) {w mag phase : ℝ}
    (h : TurnsSineInto t w mag phase) : TurnsSineInto s w mag phase := by
  intro amp φ ε hε
  obtain ⟨n0, hn⟩ := h amp φ ε hε
  exact ⟨n0, fun xs ys hs => hn xs ys (hst _ _ hs)⟩

theorem iirRuns_satisfies {b a : List ℝ} (ha : a.getD 0 0 ≠ 0) {xs ys : List ℝ} (h : IirRuns b a xs ys) :
    Satisfies b a xs ys := by
  obtain ⟨m, N, qs, c, hc, h1, h2, rfl, rfl⟩ := h
  exact C42_difference_equation (by rintro rfl; simp at ha) ha qs h1 h2 c hc

theorem biquadRuns_satisfies {k : Coefs} {xs ys : List ℝ} (h : BiquadRuns k xs ys) :
    Satisfies [k.b0, k.b1, k.b2] [1, k.a1, k.a2] xs ys := by
  obtain ⟨m, N, qs, c, hc, h1, h2, rfl, rfl⟩ := h
  refine recursion_satisfies ?_
  have := C43_difference_equation (N := N) (m := m) (qs.map fun q => (List.replicate N k, q))
    (by simp) (by simpa using h1) (by simpa using h2) c hc
  have hs : ∀ qs : List (Quantum ℝ), (stream N qs c).length = N * qs.length := by
    intro qs
    induction qs with
    | nil => simp [stream]
    | cons q qs ih =>
      simp only [stream, List.map_cons, List.flatten_cons, List.length_append, List.length_map, List.length_range,
        List.length_cons] at ih ⊢
      rw [ih]; ring
  have hf : ((qs.map fun q => (List.replicate N k, q)).map (·.1)).flatten = List.replicate (stream N qs c).length k := by
    rw [hs]
    induction qs with
    | nil => simp
    | cons q qs ih =>
      have ih' := ih (fun q hq => h1 q (List.mem_cons_of_mem _ hq)) (fun q hq => h2 q (List.mem_cons_of_mem _ hq))
      simp only [List.map_cons, List.flatten_cons, List.length_cons]
      rw [Nat.mul_succ, Nat.add_comm, List.replicate_add]
      congr 1
      simp [List.map_map, Function.comp_def, Nat.mul_comm]
  rw [hf] at this
  simpa [List.map_map, Function.comp_def] using this

theorem polar_of_ne {num den : ℂ} (h : den ≠ 0) : polar num den = some (‖num / den‖, (num / den).arg) := if_neg h

/-- C83: for all IIR filters with poles inside the unit circle, all frequencies from 0 to the Nyquist frequency: the
reported magnitude and phase are what the filter does, in the long run, to a sine of this frequency. For all other
frequencies NaN is reported. -/
theorem C83_iir {b a : List ℝ} (ha : a.getD 0 0 ≠ 0) (hp : PolesWithin a) (sampleRate : ℝ) (freqs : List ℝ) :
    ∃ rs, iirFrequencyResponse b a sampleRate freqs freqs.length freqs.length = some rs ∧
      rs.length = freqs.length ∧ ∀ (i : Nat) (f : ℝ), freqs[i]? = some f →
        (f < 0 ∨ sampleRate / 2 < f → rs[i]? = some none) ∧
        (0 ≤ f ∧ f ≤ sampleRate / 2 → ∃ mag phase, rs[i]? = some (some (mag, phase)) ∧
          0 ≤ mag ∧ phase ∈ Set.Ioc (-Real.pi) Real.pi ∧
          TurnsSineInto (IirRuns b a) (2 * Real.pi * f / sampleRate) mag phase) := by
  refine ⟨_, if_pos ⟨rfl, rfl⟩, by simp, fun i f hi => ⟨fun h => ?_, fun h => ?_⟩⟩
  · rw [List.getElem?_map, hi, Option.map_some, if_pos h]
  · have hn : ¬ (f < 0 ∨ sampleRate / 2 < f) := by rw [not_or, not_lt, not_lt]; exact h
    have hz : -2 * Real.pi * f / sampleRate = -(2 * Real.pi * f / sampleRate) := by ring
    refine ⟨_, _, ?_, norm_nonneg _, Complex.arg_mem_Ioc _,
      (long_run ha hp (2 * Real.pi * f / sampleRate)).mono fun xs ys h => iirRuns_satisfies ha h⟩
    rw [List.getElem?_map, hi, Option.map_some, if_neg hn]
    simp only [hz]
    rw [polar_of_ne (polarSum_ne hp _)]

theorem poles_biquad {k : Coefs} (h : PolesInside k) : PolesWithin [1, k.a1, k.a2] := by
  intro z hz
  refine h z ?_
  simpa [sum_range_succ] using hz

/-- C83: the same for the biquad filter with constant parameters, for all types and all values of the parameters,
except for the lowpass with a frequency of 0. -/
theorem C83_biquad_partial (ty : FilterType) (frequency detune gain q sampleRate : ℝ) (hr : 0 < sampleRate)
    (hlow : ty = .lowpass → 0 < frequency) (freqs : List ℝ) :
    ∃ rs, biquadFrequencyResponse ty frequency detune gain q sampleRate freqs freqs.length freqs.length = some rs ∧
      rs.length = freqs.length ∧ ∀ (i : Nat) (f : ℝ), freqs[i]? = some f →
        (f < 0 ∨ sampleRate / 2 < f → rs[i]? = some none) ∧
        (0 ≤ f ∧ f ≤ sampleRate / 2 → ∃ mag phase, rs[i]? = some (some (mag, phase)) ∧
          0 ≤ mag ∧ phase ∈ Set.Ioc (-Real.pi) Real.pi ∧
          TurnsSineInto (BiquadRuns (calculateCoefs ty sampleRate (computedFreq frequency detune) gain q))
            (2 * Real.pi * f / sampleRate) mag phase) := by
  have hpoles : PolesInside (calculateCoefs ty sampleRate (computedFreq frequency detune) gain q) := by
    have hend : ∀ k : Coefs, (∃ b0, k = ⟨b0, 0, 0, 0, 0⟩) → PolesInside k := by
      rintro k ⟨b0, rfl⟩ z hz
      have : z = 0 := by simpa using hz
      rw [this]; simp
    by_cases h1 : 1 ≤ computedFreq frequency detune / (sampleRate / 2)
    · exact hend _ (C43_ends ty _ _ _ _ (Or.inr h1))
    · by_cases h0 : 0 < computedFreq frequency detune / (sampleRate / 2)
      · exact C43_poles ty _ _ _ _ h0 (not_le.1 h1)
      · refine hend _ (C43_ends ty _ _ _ _ (Or.inl ⟨not_lt.1 h0, fun hty => h0 ?_⟩))
        have hf := hlow hty
        have : 0 < computedFreq frequency detune := by
          unfold computedFreq; split <;> positivity
        positivity
  set k := calculateCoefs ty sampleRate (computedFreq frequency detune) gain q with hk
  have hp := poles_biquad hpoles
  refine ⟨_, if_pos ⟨rfl, rfl⟩, by simp, fun i f hi => ⟨fun h => ?_, fun h => ?_⟩⟩
  · rw [List.getElem?_map, hi, Option.map_some, if_pos h]
  · have hn : ¬ (f < 0 ∨ sampleRate / 2 < f) := by rw [not_or, not_lt, not_lt]; exact h
    refine ⟨_, _, ?_, norm_nonneg _, Complex.arg_mem_Ioc _,
      (long_run (b := [k.b0, k.b1, k.b2]) (by simp) hp (2 * Real.pi * f / sampleRate)).mono
        fun xs ys h => biquadRuns_satisfies h⟩
    rw [List.getElem?_map, hi, Option.map_some, if_neg hn]
    have hz : -Real.pi * (f / (sampleRate / 2)) = -(2 * Real.pi * f / sampleRate) := by field_simp
    have key : ∀ c0 c1 c2 w : ℝ, (c0 : ℂ) + (c1 + c2 * Complex.exp (((-w : ℝ) : ℂ) * Complex.I)) *
        Complex.exp (((-w : ℝ) : ℂ) * Complex.I) = polarSum [c0, c1, c2] (-w) := by
      intro c0 c1 c2 w
      rw [polarSum_eq]
      simp only [List.length_cons, List.length_nil, sum_range_succ, sum_range_zero]
      simp only [List.getD, Nat.cast_zero, Nat.cast_one, zero_mul, Complex.ofReal_zero, Complex.exp_zero, one_mul]
      rw [show (((((1 + 1 : ℕ) : ℝ)) * -w : ℝ) : ℂ) * Complex.I = ((-w : ℝ) : ℂ) * Complex.I + ((-w : ℝ) : ℂ) * Complex.I by
        push_cast; ring, Complex.exp_add]
      simp
      ring
    simp only [hz]
    rw [key, show (1 : ℂ) = ((1 : ℝ) : ℂ) by simp, key, polar_of_ne (polarSum_ne hp _)]

/-- C83: arguments of different lengths are refused. -/
theorem C83_lengths (b a : List ℝ) (ty : FilterType) (frequency detune gain q sampleRate : ℝ) (freqs : List ℝ)
    (mags phases : Nat) (h : ¬ (freqs.length = mags ∧ mags = phases)) :
    iirFrequencyResponse b a sampleRate freqs mags phases = none ∧
      biquadFrequencyResponse ty frequency detune gain q sampleRate freqs mags phases = none :=
  ⟨if_neg h, if_neg h⟩

/-- C83 is false for the lowpass with a frequency of 0: at 0 Hz NaN is reported. -/
theorem C83_negated_lowpass (gain q sampleRate : ℝ) (hr : 0 < sampleRate) :
    biquadFrequencyResponse .lowpass 0 0 gain q sampleRate [0] 1 1 = some [none] := by
  have hf : computedFreq 0 0 = 0 := by simp [computedFreq]
  have hn : ¬ ((0 : ℝ) < 0 ∨ sampleRate / 2 < 0) := by
    rw [not_or]; exact ⟨lt_irrefl _, by rw [not_lt]; positivity⟩
  unfold biquadFrequencyResponse
  rw [if_pos (by simp), hf, (C43_negated_lowpass_zero sampleRate gain q).1]
  simp only [List.map_cons, List.map_nil, if_neg hn]
  congr 2
  refine if_pos ?_
  norm_num

/-! ### Examples -/

/-- poles of a filter of the first order, with a feedforward of two coefficients -/
example : PolesWithin [2, -1] ∧ ([2, -1] : List ℝ).getD 0 0 ≠ 0 := by
  refine ⟨fun z hz => ?_, by simp⟩
  have h2 : z = 1 / 2 := by
    simp [sum_range_succ] at hz
    linear_combination hz / 2
  rw [h2]; norm_num

/-- the filter `y[n] = (x[n] + x[n-1]) / 2` at the Nyquist frequency: reported magnitude 0, and it cancels the sine -/
example : ∃ phase, iirFrequencyResponse [1, 1] [2] 48000 [24000] 1 1 = some [some (0, phase)] := by
  refine ⟨Complex.arg 0, ?_⟩
  unfold iirFrequencyResponse
  rw [if_pos (by simp)]
  simp only [List.map_cons, List.map_nil]
  rw [if_neg (by norm_num)]
  have e1 : polarSum [1, 1] (-2 * Real.pi * 24000 / 48000) = 0 := by
    rw [polarSum_eq]
    simp [sum_range_succ]
    rw [show -(2 * (Real.pi : ℂ) * 24000) / 48000 * Complex.I = -(Real.pi * Complex.I) by ring, Complex.exp_neg,
      Complex.exp_pi_mul_I]
    norm_num
  have e2 : polarSum [2] (-2 * Real.pi * 24000 / 48000) = 2 := by
    rw [polarSum_eq]; simp
  rw [e1, e2, polar_of_ne (by norm_num)]
  simp

example : ∃ rs, biquadFrequencyResponse .peaking 440 0 6 1 48000 [100, 440, 30000] 3 3 = some rs ∧ rs.length = 3 := by
  obtain ⟨rs, h1, h2, -⟩ := C83_biquad_partial .peaking 440 0 6 1 48000 (by norm_num) (by simp) [100, 440, 30000]
  exact ⟨rs, h1, h2⟩

end Verif.Filter
