import Verif.Source.OscPhase
import Mathlib.Analysis.SpecialFunctions.Trigonometric.Bounds

/-!
# C44: wave tables

Models `PeriodicWave::new`, `generate_wavetable` and `normalize` (`/repo/src/periodic_wave.rs` l.103-209) over the reals
(the code: `f32`).
-/

namespace Verif.Source

open Real

/-- the checks and defaults of `new`, l.110-146; `none` is a panic -/
def waveCoefs : Option (List ℝ) → Option (List ℝ) → Option (List ℝ × List ℝ)
  | some r, some i => if r.length = i.length ∧ 2 ≤ r.length then some (r, i) else none
  | some r, none => if 2 ≤ r.length then some (r, List.replicate r.length 0) else none
  | none, some i => if 2 ≤ i.length then some (List.replicate i.length 0, i) else none
  | none, none => some ([0, 0], [0, 1])

/-- one sample of the table before normalisation, l.168-181: the loop over the harmonics from 1 -/
noncomputable def waveSample (reals imags : List ℝ) (size i : Nat) : ℝ :=
  (List.range (reals.length - 1)).foldl
    (fun acc j => acc + (reals.getD (j + 1) 0 * cos (2 * π * i / size * ((j + 1 : Nat) : ℝ)) +
      imags.getD (j + 1) 0 * sin (2 * π * i / size * ((j + 1 : Nat) : ℝ)))) 0

/-- the search for the peak of `normalize`, l.192-199 -/
noncomputable def peak (l : List ℝ) : ℝ := l.foldl (fun m x => if m < |x| then |x| else m) 0

/-- `normalize`, l.191-209 -/
noncomputable def normalizeWave (l : List ℝ) : List ℝ := if 0 < peak l then l.map (· * (1 / peak l)) else l

/-- `generate_wavetable`, l.164-189 -/
noncomputable def waveTable (reals imags : List ℝ) (norm : Bool) (size : Nat) : List ℝ :=
  let t := (List.range size).map (waveSample reals imags size)
  if norm then normalizeWave t else t

theorem foldl_peak (l : List ℝ) : ∀ m : ℝ,
    m ≤ l.foldl (fun m x => if m < |x| then |x| else m) m ∧
    (∀ x ∈ l, |x| ≤ l.foldl (fun m x => if m < |x| then |x| else m) m) ∧
    (l.foldl (fun m x => if m < |x| then |x| else m) m = m ∨
      ∃ x ∈ l, |x| = l.foldl (fun m x => if m < |x| then |x| else m) m) := by
  induction l with
  | nil => intro m; simp
  | cons y l ih =>
    intro m
    simp only [List.foldl_cons]
    obtain ⟨h1, h2, h3⟩ := ih (if m < |y| then |y| else m)
    have hm : m ≤ (if m < |y| then |y| else m) := by split <;> linarith
    have hy : |y| ≤ (if m < |y| then |y| else m) := by split <;> linarith
    refine ⟨le_trans hm h1, ?_, ?_⟩
    · intro x hx
      rcases List.mem_cons.1 hx with rfl | hx
      · exact le_trans hy h1
      · exact h2 x hx
    · rcases h3 with h3 | ⟨x, hx, h3⟩
      · rw [h3]
        split
        · exact .inr ⟨y, by simp, rfl⟩
        · exact .inl rfl
      · exact .inr ⟨x, by simp [hx], h3⟩

/-- C44: a normalised table has the length of the table, is within `[-1, 1]`, and reaches 1 or -1 unless all samples
are zero; it has the shape of the table: it is the table times one positive factor. -/
theorem C44_normalize (l : List ℝ) :
    (normalizeWave l).length = l.length ∧ (∀ x ∈ normalizeWave l, |x| ≤ 1) ∧
    ((∃ x ∈ l, x ≠ 0) → ∃ x ∈ normalizeWave l, |x| = 1) ∧
    ∃ k : ℝ, 0 < k ∧ normalizeWave l = l.map (· * k) := by
  obtain ⟨h1, h2, h3⟩ := foldl_peak l 0
  have hle : ∀ x ∈ l, |x| ≤ peak l := h2
  unfold normalizeWave
  split
  · rename_i hp
    refine ⟨by simp, ?_, fun _ => ?_, 1 / peak l, by positivity, rfl⟩
    · intro x hx
      obtain ⟨y, hy, rfl⟩ := List.mem_map.1 hx
      rw [abs_mul, abs_of_pos (by positivity : 0 < 1 / peak l), mul_one_div, div_le_one hp]
      exact hle y hy
    · rcases h3 with h3 | ⟨x, hx, h3⟩
      · change peak l = 0 at h3
        rw [h3] at hp
        exact absurd hp (lt_irrefl _)
      · refine ⟨_, List.mem_map.2 ⟨x, hx, rfl⟩, ?_⟩
        change |x| = peak l at h3
        rw [abs_mul, abs_of_pos (by positivity : 0 < 1 / peak l), h3]
        field_simp
  · rename_i hp
    have hz : ∀ x ∈ l, x = 0 := by
      intro x hx
      have := hle x hx
      have h0 := abs_nonneg x
      exact abs_eq_zero.1 (by linarith [not_lt.1 hp])
    refine ⟨rfl, ?_, ?_, 1, one_pos, by simp⟩
    · intro x hx; rw [hz x hx]; simp
    · rintro ⟨x, hx, hne⟩
      exact absurd (hz x hx) hne

/-- C44: a table that is made by `PeriodicWave::new` is not empty, so that an oscillator can play it, and it is within
`[-1, 1]` when it is normalised. -/
theorem C44_wave_table (reals imags : List ℝ) (norm : Bool) :
    (waveTable reals imags norm 8192).length = 8192 ∧
    (norm = true → ∀ x ∈ waveTable reals imags norm 8192, |x| ≤ 1) := by
  unfold waveTable
  simp only
  cases norm with
  | true =>
    simp only [if_true]
    refine ⟨?_, fun _ => (C44_normalize _).2.1⟩
    rw [(C44_normalize _).1]
    simp
  | false => simp

/-- C44: a wave is refused exactly if only one coefficient is given or the two lists differ in length; the coefficients
are those given, and zero for the list that is not given. -/
theorem C44_wave_coefs (r i : Option (List ℝ)) :
    (waveCoefs r i = none ↔ (∃ l, (r = some l ∨ i = some l) ∧ l.length < 2) ∨
      ∃ a b, r = some a ∧ i = some b ∧ a.length ≠ b.length) ∧
    ∀ a b, waveCoefs r i = some (a, b) → a.length = b.length ∧ 2 ≤ a.length ∧
      (∀ l, r = some l → a = l) ∧ (∀ l, i = some l → b = l) ∧
      (r = none → ∀ x ∈ a, x = 0) ∧ (r.isSome → i = none → ∀ x ∈ b, x = 0) := by
  cases r <;> cases i <;> simp only [waveCoefs]
  · refine ⟨by simp, ?_⟩
    intro a b h
    simp only [Option.some.injEq, Prod.mk.injEq] at h
    obtain ⟨rfl, rfl⟩ := h
    simp
  · rename_i l
    refine ⟨by simp, ?_⟩
    intro a b h
    split at h
    · simp only [Option.some.injEq, Prod.mk.injEq] at h
      obtain ⟨rfl, rfl⟩ := h
      simp_all
    · cases h
  · rename_i l
    refine ⟨by simp, ?_⟩
    intro a b h
    split at h
    · simp only [Option.some.injEq, Prod.mk.injEq] at h
      obtain ⟨rfl, rfl⟩ := h
      simp_all
    · cases h
  · rename_i l m
    constructor
    · simp only [ite_eq_right_iff, reduceCtorEq, imp_false, not_and, not_le, Option.some.injEq]
      constructor
      · intro h
        by_cases he : l.length = m.length
        · exact .inl ⟨l, .inl rfl, h he⟩
        · exact .inr ⟨l, m, rfl, rfl, he⟩
      · rintro (⟨x, rfl | rfl, h⟩ | ⟨a, b, rfl, rfl, h⟩) he
        · exact h
        · omega
        · exact absurd he h
    · intro a b h
      split at h
      · simp only [Option.some.injEq, Prod.mk.injEq] at h
        obtain ⟨rfl, rfl⟩ := h
        rename_i hc
        exact ⟨hc.1, hc.2, by simp, by simp, by simp, by simp⟩
      · cases h

/-- C44: without coefficients the wave is one period of the sine. -/
theorem C44_default_wave (size i : Nat) (hi : i < size) :
    (waveTable [0, 0] [0, 1] false size)[i]? = some (sin (2 * π * i / size)) := by
  unfold waveTable
  simp only [Bool.false_eq_true, if_false]
  rw [List.getElem?_map, List.getElem?_range hi]
  simp [waveSample, List.range_succ]

/-- C44: the offset, the coefficient 0, is ignored. -/
theorem C44_no_offset (r0 i0 : ℝ) (rs is : List ℝ) (norm : Bool) (size : Nat) :
    waveTable (r0 :: rs) (i0 :: is) norm size = waveTable (0 :: rs) (0 :: is) norm size := by
  unfold waveTable waveSample
  simp

example : normalizeWave [1, -4, 2] = [1 / 4, -1, 1 / 2] := by
  have : peak [1, -4, 2] = 4 := by
    simp only [peak, List.foldl_cons, List.foldl_nil]
    norm_num
  unfold normalizeWave
  rw [this]
  norm_num

/-- A sample of the sine table, looked up with linear interpolation, differs from the sine by at most the distance
between two entries, for any size of the table. (`generate_sine` with a table of exact values.) -/
theorem C44_sine_error {size : Nat} (hs : 0 < size) {phase v : ℝ} (h0 : 0 ≤ phase) (h1 : phase < 1)
    (h : lookup id ((List.range size).map fun i : Nat => sin (2 * π * i / size)) phase = some v) :
    |v - sin (2 * π * phase)| ≤ 2 * π / size := by
  have hs' : (0 : ℝ) < size := by exact_mod_cast hs
  have hpi := Real.pi_pos
  have hne : ((List.range size).map fun i : Nat => sin (2 * π * i / size)) ≠ [] := by
    intro hc
    have := congrArg List.length hc
    simp at this
    omega
  obtain ⟨i, j, a, b, k, ha, hb, hj, hk0, hk1, hp, e⟩ := lookup_spec hne h0 h1
  rw [e] at h
  obtain rfl := Option.some.inj h
  simp only [List.length_map, List.length_range] at hj hp
  have hil : i < size := by
    by_contra hc
    rw [List.getElem?_eq_none (by simpa using hc)] at ha
    cases ha
  rw [List.getElem?_map, List.getElem?_range hil] at ha
  have hjl : j < size := by rw [hj]; exact Nat.mod_lt _ hs
  rw [List.getElem?_map, List.getElem?_range hjl] at hb
  simp only [Option.map_some, Option.some.injEq] at ha hb
  -- the next entry, without the wrap
  have hb' : b = sin (2 * π * (i + 1) / size) := by
    rw [← hb, hj]
    by_cases hw : i + 1 = size
    · rw [hw, Nat.mod_self]
      have : ((i : ℝ) + 1) = size := by exact_mod_cast hw
      rw [this]
      have e2 : 2 * π * (size : ℝ) / size = 2 * π := by field_simp
      rw [e2]
      simp
    · rw [Nat.mod_eq_of_lt (by omega)]
      push_cast
      rfl
  have hx : 2 * π * phase = 2 * π * (i + k) / size := by rw [← hp]; field_simp
  have hlip : ∀ x y : ℝ, |sin x - sin y| ≤ |x - y| := by
    intro x y
    have := Real.abs_sin_sub_sin_le x y
    exact this
  have hA : |a - sin (2 * π * phase)| ≤ 2 * π / size := by
    rw [← ha]
    refine le_trans (hlip _ _) ?_
    rw [hx, show 2 * π * (i : ℝ) / size - 2 * π * (i + k) / size = -(2 * π / size * k) by ring, abs_neg,
      abs_of_nonneg (by positivity)]
    have : 0 < 2 * π / size := by positivity
    nlinarith
  have hB : |b - sin (2 * π * phase)| ≤ 2 * π / size := by
    rw [hb']
    refine le_trans (hlip _ _) ?_
    have h1k : 0 ≤ 1 - k := by linarith
    rw [hx, show 2 * π * ((i : ℝ) + 1) / size - 2 * π * (i + k) / size = 2 * π / size * (1 - k) by ring,
      abs_of_nonneg (by positivity)]
    have : 0 < 2 * π / size := by positivity
    nlinarith
  obtain ⟨A1, A2⟩ := abs_le.1 hA
  obtain ⟨B1, B2⟩ := abs_le.1 hB
  rw [abs_le]
  constructor <;> nlinarith

/-! ## The series -/

/-- Specification: the Fourier series of a wave at the time `t` (in periods); the offset is left out. -/
noncomputable def series (reals imags : List ℝ) (t : ℝ) : ℝ :=
  ∑ j ∈ Finset.Ico 1 reals.length, (reals.getD j 0 * cos (2 * π * j * t) + imags.getD j 0 * sin (2 * π * j * t))

theorem foldl_add_eq_sum (f : Nat → ℝ) (n : Nat) :
    (List.range n).foldl (fun acc j => acc + f j) 0 = ∑ j ∈ Finset.range n, f j := by
  induction n with
  | zero => simp
  | succ n ih => rw [List.range_succ, List.foldl_append, ih, Finset.sum_range_succ]; simp

theorem waveSample_eq_series (reals imags : List ℝ) (size i : Nat) :
    waveSample reals imags size i = series reals imags (i / size) := by
  unfold waveSample series
  rw [foldl_add_eq_sum (fun j => reals.getD (j + 1) 0 * cos (2 * π * i / size * ((j + 1 : Nat) : ℝ)) +
      imags.getD (j + 1) 0 * sin (2 * π * i / size * ((j + 1 : Nat) : ℝ))), Finset.sum_Ico_eq_sum_range]
  refine Finset.sum_congr rfl fun j _ => ?_
  have e : 2 * π * i / size * ((j + 1 : Nat) : ℝ) = 2 * π * ((1 + j : Nat) : ℝ) * (i / size) := by
    push_cast; ring
  rw [e, Nat.add_comm 1 j]

/-- C44: the table is the Fourier series of the coefficients, sampled at equal distances over one period, times a positive
number that is 1 without normalisation. -/
theorem C44_series (reals imags : List ℝ) (norm : Bool) (size : Nat) :
    ∃ c : ℝ, 0 < c ∧ (norm = false → c = 1) ∧ ∀ i < size,
      (waveTable reals imags norm size)[i]? = some (c * series reals imags (i / size)) := by
  unfold waveTable
  simp only
  cases norm with
  | false =>
    refine ⟨1, one_pos, fun _ => rfl, fun i hi => ?_⟩
    rw [if_neg (by simp), List.getElem?_map, List.getElem?_range hi, Option.map_some, waveSample_eq_series, one_mul]
  | true =>
    obtain ⟨_, _, _, c, hc, e⟩ := C44_normalize ((List.range size).map (waveSample reals imags size))
    refine ⟨c, hc, by simp, fun i hi => ?_⟩
    rw [if_pos rfl, e, List.getElem?_map, List.getElem?_map, List.getElem?_range hi, Option.map_some, Option.map_some,
      waveSample_eq_series, mul_comm]

example : series [7, 1] [9, 2] (1 / 4) = 2 := by
  unfold series
  have e : Finset.Ico 1 ([7, 1] : List ℝ).length = {1} := by decide
  rw [e, Finset.sum_singleton]
  have : 2 * π * ((1 : Nat) : ℝ) * (1 / 4) = π / 2 := by push_cast; ring
  rw [this]
  simp

/-- How fast the series can change. -/
noncomputable def steepness (reals imags : List ℝ) : ℝ :=
  ∑ j ∈ Finset.Ico 1 reals.length, 2 * π * j * (|reals.getD j 0| + |imags.getD j 0|)

theorem series_lipschitz (reals imags : List ℝ) (s t : ℝ) :
    |series reals imags s - series reals imags t| ≤ steepness reals imags * |s - t| := by
  unfold series steepness
  rw [← Finset.sum_sub_distrib, Finset.sum_mul]
  refine le_trans (Finset.abs_sum_le_sum_abs _ _) (Finset.sum_le_sum fun j _ => ?_)
  have hpi := Real.pi_pos
  have hc : |cos (2 * π * j * s) - cos (2 * π * j * t)| ≤ 2 * π * j * |s - t| := by
    refine le_trans (Real.abs_cos_sub_cos_le _ _) ?_
    rw [← mul_sub, abs_mul, abs_of_nonneg (by positivity : (0 : ℝ) ≤ 2 * π * j)]
  have hs : |sin (2 * π * j * s) - sin (2 * π * j * t)| ≤ 2 * π * j * |s - t| := by
    refine le_trans (Real.abs_sin_sub_sin_le _ _) ?_
    rw [← mul_sub, abs_mul, abs_of_nonneg (by positivity : (0 : ℝ) ≤ 2 * π * j)]
  calc |reals.getD j 0 * cos (2 * π * j * s) + imags.getD j 0 * sin (2 * π * j * s) -
        (reals.getD j 0 * cos (2 * π * j * t) + imags.getD j 0 * sin (2 * π * j * t))|
      = |reals.getD j 0 * (cos (2 * π * j * s) - cos (2 * π * j * t)) +
          imags.getD j 0 * (sin (2 * π * j * s) - sin (2 * π * j * t))| := by congr 1; ring
    _ ≤ |reals.getD j 0| * |cos (2 * π * j * s) - cos (2 * π * j * t)| +
          |imags.getD j 0| * |sin (2 * π * j * s) - sin (2 * π * j * t)| := by
        rw [← abs_mul, ← abs_mul]; exact abs_add_le _ _
    _ ≤ |reals.getD j 0| * (2 * π * j * |s - t|) + |imags.getD j 0| * (2 * π * j * |s - t|) := by gcongr
    _ = _ := by ring

theorem series_periodic (reals imags : List ℝ) : series reals imags 1 = series reals imags 0 := by
  unfold series
  refine Finset.sum_congr rfl fun j _ => ?_
  have e : 2 * π * (j : ℝ) * 1 = 0 + j * (2 * π) := by ring
  rw [e, Real.cos_add_nat_mul_two_pi, Real.sin_add_nat_mul_two_pi]
  simp

/-- C44: the sample that an oscillator plays with a periodic wave differs from the Fourier series at its phase (times the
factor of the normalisation) by no more than half of what the series can change between two entries of the table. -/
theorem C44_wave_error (reals imags : List ℝ) (norm : Bool) {size : Nat} (hs : 0 < size) :
    ∃ c : ℝ, 0 < c ∧ (norm = false → c = 1) ∧ ∀ phase v : ℝ, 0 ≤ phase → phase < 1 →
      lookup id (waveTable reals imags norm size) phase = some v →
      |v - c * series reals imags phase| ≤ c * (steepness reals imags / size) / 2 := by
  obtain ⟨c, hc, hn, he⟩ := C44_series reals imags norm size
  refine ⟨c, hc, hn, fun phase v h0 h1 h => ?_⟩
  have hs' : (0 : ℝ) < size := by exact_mod_cast hs
  have hlen : (waveTable reals imags norm size).length = size := by
    unfold waveTable
    simp only
    cases norm with
    | true => rw [if_pos rfl, (C44_normalize _).1]; simp
    | false => simp
  have hne : waveTable reals imags norm size ≠ [] := by
    intro hx
    rw [hx] at hlen
    simp at hlen
    omega
  obtain ⟨i, j, a, b, k, ha, hb, hj, hk0, hk1, hp, e⟩ := lookup_spec hne h0 h1
  rw [e] at h
  obtain rfl := Option.some.inj h
  rw [hlen] at hj hp
  have hil : i < size := by
    by_contra hx
    rw [List.getElem?_eq_none (by omega)] at ha
    cases ha
  have hjl : j < size := by rw [hj]; exact Nat.mod_lt _ hs
  rw [he i hil] at ha
  rw [he j hjl] at hb
  simp only [Option.some.injEq] at ha hb
  have hb' : b = c * series reals imags ((i + 1) / size) := by
    rw [← hb, hj]
    by_cases hw : i + 1 = size
    · rw [hw, Nat.mod_self]
      have : ((i : ℝ) + 1) = size := by exact_mod_cast hw
      rw [this, div_self hs'.ne', series_periodic]
      simp
    · rw [Nat.mod_eq_of_lt (by omega)]
      push_cast
      rfl
  have hx : phase = (i + k) / size := by rw [← hp]; field_simp
  have hst : 0 ≤ steepness reals imags := by
    unfold steepness
    have := Real.pi_pos
    exact Finset.sum_nonneg fun j _ => by positivity
  have hA : |a - c * series reals imags phase| ≤ c * (steepness reals imags / size) * k := by
    rw [← ha, ← mul_sub, abs_mul, abs_of_pos hc, mul_assoc]
    refine mul_le_mul_of_nonneg_left (le_trans (series_lipschitz _ _ _ _) ?_) hc.le
    rw [hx, show (i : ℝ) / size - (i + k) / size = -(k / size) by ring, abs_neg, abs_of_nonneg (by positivity)]
    exact le_of_eq (by ring)
  have hB : |b - c * series reals imags phase| ≤ c * (steepness reals imags / size) * (1 - k) := by
    have h1k : 0 ≤ 1 - k := by linarith
    rw [hb', ← mul_sub, abs_mul, abs_of_pos hc, mul_assoc]
    refine mul_le_mul_of_nonneg_left (le_trans (series_lipschitz _ _ _ _) ?_) hc.le
    rw [hx, show ((i : ℝ) + 1) / size - (i + k) / size = (1 - k) / size by ring, abs_of_nonneg (by positivity)]
    exact le_of_eq (by ring)
  have hD : 0 ≤ c * (steepness reals imags / size) := by positivity
  generalize c * (steepness reals imags / size) = D at *
  generalize c * series reals imags phase = x at *
  have hk1' : 0 ≤ 1 - k := by linarith
  calc |a * (1 - k) + b * k - x| = |(a - x) * (1 - k) + (b - x) * k| := by congr 1; ring
    _ ≤ |a - x| * (1 - k) + |b - x| * k := by
        refine le_trans (abs_add_le _ _) (le_of_eq ?_)
        rw [abs_mul, abs_mul, abs_of_nonneg hk1', abs_of_nonneg hk0]
    _ ≤ D * k * (1 - k) + D * (1 - k) * k := by gcongr
    _ ≤ D / 2 := by nlinarith [mul_nonneg hD (sq_nonneg (2 * k - 1))]

/-- the wave of the first harmonic alone: the steepness is that of the sine -/
example : steepness [0, 0] [0, 1] = 2 * π := by
  unfold steepness
  have e : Finset.Ico 1 ([0, 0] : List ℝ).length = {1} := by decide
  rw [e, Finset.sum_singleton]
  simp

end Verif.Source
