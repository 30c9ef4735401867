import Verif.Analyser.Freq

/-!
# C68, C69: theorems about the frequency data of the analyser

The model is in `Analyser/Freq.lean` (`/repo/src/analysis.rs` l.13-25, l.205-401).
-/

namespace Verif.Analyser

open Real Finset

/-! ## C68: the spectrum -/

/-- C68: a tone at the frequency of bin `m` shows in bin `m` and the two bins on each side, with the level given by the
window (0.42, 0.25 and 0.04 times half the amplitude), whatever its phase, and in no other bin. -/
theorem C68_tone (N m k : Nat) (hm : 3 ≤ m) (hm2 : m + 2 ≤ N / 2) (hk : k < N / 2) (A φ : ℝ) :
    magnitude N (fun n => some (A * cos (2 * π * m * n / N + φ))) k =
      some (if k = m then 0.42 * (|A| / 2) else if k = m + 1 ∨ m = k + 1 then 0.25 * (|A| / 2)
        else if k = m + 2 ∨ m = k + 2 then 0.04 * (|A| / 2) else 0) := by
  have hN : 0 < N := by omega
  unfold magnitude
  simp only [Option.isSome_some, implies_true, if_true, Option.getD_some]
  rw [dft_tone N hN]
  have d2 : ∀ r : ℤ, r ∈ ({-2, -1, 0, 1, 2} : Finset ℤ) → ¬ (N : ℤ) ∣ (-m + r - k : ℤ) := by
    intro r hr hd
    have hr' : -2 ≤ r ∧ r ≤ 2 := by
      simp only [Finset.mem_insert, Finset.mem_singleton] at hr; omega
    have := Int.eq_zero_of_abs_lt_dvd hd (by rw [abs_lt]; constructor <;> omega)
    omega
  have d1 : ∀ r : ℤ, r ∈ ({-2, -1, 0, 1, 2} : Finset ℤ) → ((N : ℤ) ∣ (m + r - k : ℤ) ↔ r = k - m) := by
    intro r hr
    have hr' : -2 ≤ r ∧ r ≤ 2 := by
      simp only [Finset.mem_insert, Finset.mem_singleton] at hr; omega
    constructor
    · intro hd
      have := Int.eq_zero_of_abs_lt_dvd hd (by rw [abs_lt]; constructor <;> omega)
      omega
    · intro h; rw [h]; simp
  have hsum : (∑ r ∈ ({-2, -1, 0, 1, 2} : Finset ℤ), (leak r : ℂ) * (A / 2) *
        (Complex.exp (φ * Complex.I) * (if (N : ℤ) ∣ (m + r - k : ℤ) then (N : ℂ) else 0) +
         Complex.exp (-(φ * Complex.I)) * (if (N : ℤ) ∣ (-m + r - k : ℤ) then (N : ℂ) else 0)))
      = (leak (k - m) : ℂ) * (A / 2) * Complex.exp (φ * Complex.I) * N := by
    have : ∀ r ∈ ({-2, -1, 0, 1, 2} : Finset ℤ), (leak r : ℂ) * (A / 2) *
        (Complex.exp (φ * Complex.I) * (if (N : ℤ) ∣ (m + r - k : ℤ) then (N : ℂ) else 0) +
         Complex.exp (-(φ * Complex.I)) * (if (N : ℤ) ∣ (-m + r - k : ℤ) then (N : ℂ) else 0))
        = if r = k - m then (leak (k - m) : ℂ) * (A / 2) * Complex.exp (φ * Complex.I) * N else 0 := by
      intro r hr
      rw [if_neg (d2 r hr), mul_zero, add_zero]
      by_cases h : r = k - m
      · rw [if_pos ((d1 r hr).mpr h), if_pos h, h]; ring
      · rw [if_neg (fun hc => h ((d1 r hr).mp hc)), if_neg h]; ring
    rw [Finset.sum_congr rfl this, Finset.sum_ite_eq']
    split
    · rfl
    · rename_i hnot
      have : leak ((k : ℤ) - m) = 0 := by
        unfold leak
        split <;> simp_all
      rw [this]; simp
  rw [hsum]
  have hNr : (N : ℝ) ≠ 0 := by positivity
  have hnorm : ‖(leak (k - m) : ℂ) * (A / 2) * Complex.exp (φ * Complex.I) * N‖ = |leak (k - m)| * (|A| / 2) * N := by
    rw [norm_mul, norm_mul, norm_mul, Complex.norm_exp_ofReal_mul_I, norm_div]
    simp [Complex.norm_real]
  rw [hnorm]
  congr 1
  rw [show |leak (k - m)| * (|A| / 2) * N * (1 / N) = |leak (k - m)| * (|A| / 2) by field_simp]
  by_cases h0 : k = m
  · rw [if_pos h0, h0, sub_self]; norm_num [leak]
  · rw [if_neg h0]
    by_cases h1 : k = m + 1 ∨ m = k + 1
    · rw [if_pos h1]
      rcases h1 with h1 | h1
      · rw [show (k : ℤ) - m = 1 by omega]; norm_num [leak]
      · rw [show (k : ℤ) - m = -1 by omega]; norm_num [leak]
    · rw [if_neg h1]
      by_cases h2 : k = m + 2 ∨ m = k + 2
      · rw [if_pos h2]
        rcases h2 with h2 | h2
        · rw [show (k : ℤ) - m = 2 by omega]; norm_num [leak]
        · rw [show (k : ℤ) - m = -2 by omega]; norm_num [leak]
      · rw [if_neg h2]
        have : leak ((k : ℤ) - m) = 0 := by
          unfold leak
          split <;> first | omega | rfl
        rw [this]; simp

theorem sum_blackman (N : Nat) (hN : 2 < N) : ∑ n ∈ range N, blackman N n = 0.42 * N := by
  -- the transform of the constant 1, taken as a tone of frequency 0
  have h := dft_tone N (by omega) 1 0 0 0
  have e : ∀ r : ℤ, r ∈ ({-2, -1, 0, 1, 2} : Finset ℤ) → ((N : ℤ) ∣ r ↔ r = 0) := by
    intro r hr
    have hr' : -2 ≤ r ∧ r ≤ 2 := by
      simp only [Finset.mem_insert, Finset.mem_singleton] at hr; omega
    constructor
    · intro hd; exact Int.eq_zero_of_abs_lt_dvd hd (by rw [abs_lt]; constructor <;> omega)
    · rintro rfl; exact dvd_zero _
  have hr : (∑ r ∈ ({-2, -1, 0, 1, 2} : Finset ℤ), (leak r : ℂ) * ((1 : ℝ) / 2) *
        (Complex.exp ((0 : ℝ) * Complex.I) * (if (N : ℤ) ∣ ((0 : Nat) + r - (0 : Nat) : ℤ) then (N : ℂ) else 0) +
         Complex.exp (-((0 : ℝ) * Complex.I)) * (if (N : ℤ) ∣ (-(0 : Nat) + r - (0 : Nat) : ℤ) then (N : ℂ) else 0)))
      = ∑ r ∈ ({-2, -1, 0, 1, 2} : Finset ℤ), if r = 0 then ((0.42 * N : ℝ) : ℂ) else 0 := by
    apply Finset.sum_congr rfl
    intro r hr
    have e1 : ((0 : Nat) + r - (0 : Nat) : ℤ) = r := by simp
    have e2 : (-(0 : Nat) + r - (0 : Nat) : ℤ) = r := by simp
    rw [e1, e2]
    by_cases h0 : r = 0
    · rw [if_pos ((e r hr).mpr h0), if_pos h0, h0]
      simp [leak]
      ring
    · rw [if_neg (fun hc => h0 ((e r hr).mp hc)), if_neg h0]; simp
  rw [hr, Finset.sum_ite_eq', if_pos (by decide)] at h
  have hl : dft N (fun n => 1 * cos (2 * π * (0 : Nat) * n / N + 0) * blackman N n) 0
      = ((∑ n ∈ range N, blackman N n : ℝ) : ℂ) := by
    unfold dft
    push_cast
    apply Finset.sum_congr rfl
    intro n _
    simp
  rw [hl] at h
  exact_mod_cast h

/-- C68: a signal that stays within ±`c` has no bin above 0.42 `c`. -/
theorem C68_bound (N k : Nat) (hN : 2 < N) (c : ℝ) (w : Window) (hw : ∀ n v, w n = some v → |v| ≤ c) (m : ℝ)
    (h : magnitude N w k = some m) : 0 ≤ m ∧ m ≤ 0.42 * c := by
  unfold magnitude at h
  split at h
  · rename_i hs
    injection h with h
    subst h
    have hNr : (0 : ℝ) < N := by positivity
    refine ⟨by positivity, ?_⟩
    have hb : ‖dft N (fun n => (w n).getD 0 * blackman N n) k‖ ≤ ∑ n ∈ range N, c * blackman N n := by
      unfold dft
      refine (norm_sum_le _ _).trans (Finset.sum_le_sum fun n hn => ?_)
      rw [norm_mul]
      have : ‖Complex.exp (-(2 * π * Complex.I * k * n / N))‖ = 1 := by
        rw [show -(2 * π * Complex.I * k * n / N) = ((-(2 * π * k * n / N) : ℝ) : ℂ) * Complex.I by push_cast; ring]
        exact Complex.norm_exp_ofReal_mul_I _
      rw [this, mul_one, Complex.norm_real, Real.norm_eq_abs, abs_mul, abs_of_nonneg (blackman_range N n).1]
      apply mul_le_mul_of_nonneg_right _ (blackman_range N n).1
      obtain ⟨v, hv⟩ := Option.isSome_iff_exists.mp (hs n (Finset.mem_range.mp hn))
      rw [hv]
      exact hw n v hv
    rw [← Finset.mul_sum, sum_blackman N hN] at hb
    rw [mul_one_div, div_le_iff₀ hNr]
    linarith
  · cases h

/-- C68: silence has an empty spectrum. -/
theorem C68_silence (N k : Nat) (w : Window) (hw : ∀ n, w n = some 0) : magnitude N w k = some 0 := by
  unfold magnitude
  rw [if_pos (fun n _ => by rw [hw]; rfl)]
  simp [hw, dft]

/-! ## C68: smoothing -/

/-- Specification: the analyses that count. Of the calls at `(time, tau, window)`, those at another time than the call
before; `prev` is the time of the last call. -/
noncomputable def analysed (N k : Nat) : Option ℝ → List (ℝ × ℝ × Window) → List (ℝ × Option ℝ)
  | _, [] => []
  | prev, (t, tau, w) :: rest =>
    open Classical in
    if prev = some t then analysed N k prev rest
    else (tau, magnitude N w k) :: analysed N k (some t) rest

/-- Specification: weighted mean of the magnitudes `m`, the newest last; `tau` is how much is kept of the past at each. -/
noncomputable def smoothed (l : List (ℝ × ℝ)) : ℝ :=
  ∑ j ∈ range l.length, (1 - (l.getD j (0, 0)).1) * (l.getD j (0, 0)).2 *
      ∏ i ∈ Ico (j + 1) l.length, (l.getD i (0, 0)).1

/-- The calls: set the smoothing constant, then ask for data. -/
noncomputable def An.calls (a : An) : List (ℝ × ℝ × Window) → An
  | [] => a
  | (t, tau, w) :: rest => (({ a with tau := tau } : An).update t w).calls rest

theorem smoothed_append (l : List (ℝ × ℝ)) (x : ℝ × ℝ) : smoothed (l ++ [x]) = x.1 * smoothed l + (1 - x.1) * x.2 := by
  unfold smoothed
  rw [List.length_append, List.length_singleton, Finset.sum_range_succ]
  have hlast : (l ++ [x]).getD l.length (0, 0) = x := by simp [List.getD]
  have hin : ∀ j, j < l.length → (l ++ [x]).getD j (0, 0) = l.getD j (0, 0) := by
    intro j hj
    simp [List.getD, List.getElem?_append_left hj]
  rw [hlast, Finset.Ico_self, Finset.prod_empty, mul_one, Finset.mul_sum]
  congr 1
  apply Finset.sum_congr rfl
  intro j hj
  rw [Finset.mem_range] at hj
  rw [hin j hj, Finset.prod_Ico_succ_top (by omega), hlast]
  have : ∏ i ∈ Ico (j + 1) l.length, ((l ++ [x]).getD i (0, 0)).1 = ∏ i ∈ Ico (j + 1) l.length, (l.getD i (0, 0)).1 := by
    apply Finset.prod_congr rfl
    intro i hi
    rw [hin i (Finset.mem_Ico.mp hi).2]
  rw [this]
  ring

theorem calls_aux (N k : Nat) (hk : k < N / 2) :
    ∀ (l : List (ℝ × ℝ × Window)) (a : An) (done : List (ℝ × ℝ)) (ms : List (ℝ × ℝ)), a.fftSize = N →
      a.last k = smoothed done → analysed N k a.lastTime l = ms.map (fun x => (x.1, some x.2)) →
      (a.calls l).last k = smoothed (done ++ ms) := by
  intro l
  induction l with
  | nil =>
    intro a done ms _ h1 h2
    simp only [analysed] at h2
    have : ms = [] := by
      cases ms with
      | nil => rfl
      | cons x xs => cases h2
    rw [this, List.append_nil]; exact h1
  | cons x rest ih =>
    intro a done ms hN h1 h2
    obtain ⟨t, tau, w⟩ := x
    simp only [An.calls]
    simp only [analysed] at h2
    by_cases ht : a.lastTime = some t
    · rw [if_pos ht] at h2
      have : ({ a with tau := tau } : An).update t w = { a with tau := tau } := by
        unfold An.update; exact if_pos ht
      rw [this]
      exact ih _ done ms hN h1 h2
    · rw [if_neg ht] at h2
      cases ms with
      | nil => cases h2
      | cons y ys =>
        rw [List.map_cons] at h2
        injection h2 with h3 h4
        injection h3 with h5 h6
        have hu : ({ a with tau := tau } : An).update t w
            = { ({ a with tau := tau } : An).compute w with lastTime := some t } := by
          unfold An.update; exact if_neg ht
        rw [hu, List.append_cons]
        refine ih _ (done ++ [y]) ys hN ?_ h4
        simp only [An.compute, hN]
        rw [if_pos hk, h6, smoothed_append, ← h5, h1]

/-- C68: whatever calls are made, at whatever times and with whatever smoothing constants, a bin has the exponentially
weighted mean of the magnitudes of the windows analysed since it was last 0: one window per distinct time. -/
theorem C68_smoothing (N k : Nat) (hk : k < N / 2) (a : An) (hN : a.fftSize = N) (h0 : a.last k = 0)
    (l : List (ℝ × ℝ × Window)) (ms : List (ℝ × ℝ))
    (hm : analysed N k a.lastTime l = ms.map (fun x => (x.1, some x.2))) : (a.calls l).last k = smoothed ms := by
  have := calls_aux N k hk l a [] ms hN (by simpa [smoothed] using h0) hm
  simpa using this

/-- C68: a new analyser, a change of the size and a window with NaN set every bin to 0. -/
theorem C68_reset (a : An) (N k : Nat) (hk : k < a.fftSize / 2) (tau mn mx t : ℝ) (w : Window) :
    (An.new N tau mn mx).last k = 0 ∧ (N ≠ a.fftSize → (a.setFftSize N).last k = 0) ∧
    (a.lastTime ≠ some t → (∃ n < a.fftSize, w n = none) → (a.update t w).last k = 0) := by
  refine ⟨rfl, fun h => ?_, fun ht ⟨n, hn, hw⟩ => ?_⟩
  · unfold An.setFftSize
    rw [if_pos (Ne.symm h)]
  · unfold An.update
    rw [if_neg ht]
    simp only [An.compute]
    rw [if_pos hk]
    have : magnitude a.fftSize w k = none := by
      unfold magnitude
      rw [if_neg]
      intro h
      have := h n hn
      rw [hw] at this
      cases this
    rw [this]

/-- C68: a second call at the same time returns the same data, whatever has been rendered in between. -/
theorem C68_once (a : An) (t : ℝ) (w w' : Window) (dst : List (WithBot ℝ)) (dst' : List (WithBot ℝ))
    (hl : dst'.length = dst.length) (i : Nat) (hi : i < dst.length) (hb : i < a.fftSize / 2) :
    let r := a.getFloat t w dst
    let r' := r.1.getFloat t w' dst'
    r'.1 = r.1 ∧ r'.2[i]? = r.2[i]? := by
  intro r r'
  have h1 : r.1.lastTime = some t := by
    simp only [r, An.getFloat, An.update]
    split
    · assumption
    · rfl
  have h2 : r'.1 = r.1 := by
    show r.1.update t w' = r.1
    unfold An.update
    exact if_pos h1
  have h3 : r.1.fftSize = a.fftSize := by
    simp only [r, An.getFloat, An.update]
    split
    · rfl
    · rfl
  refine ⟨h2, ?_⟩
  show (fill dst' (Min.min dst'.length (r.1.fftSize / 2)) fun i => decibel ((r.1.update t w').last i))[i]?
    = (fill dst (Min.min dst.length (a.fftSize / 2)) fun i => decibel (r.1.last i))[i]?
  have h4 : r.1.update t w' = r.1 := h2
  rw [h4, h3, hl]
  have hmin : i < Min.min dst.length (a.fftSize / 2) := lt_min hi hb
  unfold fill
  rw [List.getElem?_mapIdx, List.getElem?_mapIdx, List.getElem?_eq_getElem hi,
    List.getElem?_eq_getElem (by rw [hl]; exact hi)]
  simp [hmin, hb, hi]

/-- C68: with a signal within ±1 and smoothing constants in range no bin exceeds 0.42, so that the data are below
-7.5 dB, after any calls. -/
theorem C68_invariant (N k : Nat) (hN : 2 < N) (l : List (ℝ × ℝ × Window))
    (hl : ∀ x ∈ l, 0 ≤ x.2.1 ∧ x.2.1 ≤ 1 ∧ ∀ n v, x.2.2 n = some v → |v| ≤ 1) :
    ∀ (a : An), a.fftSize = N → 0 ≤ a.last k → a.last k ≤ 0.42 →
      0 ≤ (a.calls l).last k ∧ (a.calls l).last k ≤ 0.42 := by
  induction l with
  | nil => intro a _ h0 h1; exact ⟨h0, h1⟩
  | cons x rest ih =>
    intro a ha h0 h1
    obtain ⟨t, tau, w⟩ := x
    obtain ⟨t0, t1, hw⟩ := hl (t, tau, w) (List.mem_cons_self)
    simp only at t0 t1 hw
    simp only [An.calls]
    have hfs : (({ a with tau := tau } : An).update t w).fftSize = N := by
      unfold An.update; split <;> exact ha
    refine ih (fun x hx => hl x (List.mem_cons_of_mem _ hx)) _ hfs ?_ ?_
    all_goals
      unfold An.update
      split
      · assumption
      · simp only [An.compute, ha]
        split
        · cases hm : magnitude N w k with
          | none => norm_num
          | some m =>
            have := C68_bound N k hN 1 w hw m hm
            simp only
            nlinarith
        · assumption

/-! ## C69: conversion of the data -/

/-- C69: the float data are the levels in dB of the bins; elements beyond the bins are left alone. -/
theorem C69_float (a : An) (t : ℝ) (w : Window) (dst : List (WithBot ℝ)) (i : Nat) :
    (i < dst.length → i < a.fftSize / 2 → 0 < (a.getFloat t w dst).1.last i →
      (a.getFloat t w dst).2[i]? = some ((20 * (Real.log ((a.getFloat t w dst).1.last i) / Real.log 10) : ℝ) : WithBot ℝ)) ∧
    (i < dst.length → i < a.fftSize / 2 → (a.getFloat t w dst).1.last i = 0 → (a.getFloat t w dst).2[i]? = some ⊥) ∧
    (a.fftSize / 2 ≤ i → (a.getFloat t w dst).2[i]? = dst[i]?) := by
  simp only [An.getFloat, fill, List.getElem?_mapIdx]
  refine ⟨fun h1 h2 h3 => ?_, fun h1 h2 h3 => ?_, fun h => ?_⟩
  · rw [List.getElem?_eq_getElem h1]
    simp only [Option.map_some, if_pos (lt_min h1 h2), decibel, if_neg h3.ne', logb]
  · rw [List.getElem?_eq_getElem h1]
    simp only [Option.map_some, if_pos (lt_min h1 h2), decibel, if_pos h3]
  · cases hd : dst[i]? with
    | none => rfl
    | some v =>
      have : ¬ i < Min.min dst.length (a.fftSize / 2) := fun hc => absurd (lt_min_iff.mp hc).2 (by omega)
      simp only [Option.map_some, if_neg this]

/-- C69: the byte data map the range from `minDecibels` to `maxDecibels` linearly to 0..255, rounding down, and limit
what is outside. -/
theorem C69_byte (mn mx b : ℝ) (hmm : mn < mx) (hb : 0 < b) :
    let db := 20 * (Real.log b / Real.log 10)
    (db ≤ mn → toByte mn mx b = 0) ∧ (mx ≤ db → toByte mn mx b = 255) ∧
    (mn ≤ db → db ≤ mx → (toByte mn mx b : ℝ) ≤ 255 * ((db - mn) / (mx - mn)) ∧
      255 * ((db - mn) / (mx - mn)) < toByte mn mx b + 1) := by
  intro db
  have hd : 0 < mx - mn := sub_pos.mpr hmm
  have e : toByte mn mx b = ⌊Max.max 0 (Min.min (255 * ((db - mn) / (mx - mn))) 255)⌋₊ := by
    unfold toByte
    rw [if_neg hb.ne']
    simp only [logb]
    congr 3
    simp only [db]
    ring
  rw [e]
  refine ⟨fun h => ?_, fun h => ?_, fun h1 h2 => ?_⟩
  · have : 255 * ((db - mn) / (mx - mn)) ≤ 0 := by
      have : (db - mn) / (mx - mn) ≤ 0 := div_nonpos_of_nonpos_of_nonneg (by linarith) hd.le
      linarith
    rw [min_eq_left (by linarith), max_eq_left this]; simp
  · have : 1 ≤ (db - mn) / (mx - mn) := by rw [le_div_iff₀ hd]; linarith
    rw [min_eq_right (by linarith), max_eq_right (by norm_num)]
    exact_mod_cast Nat.floor_natCast (R := ℝ) 255
  · have a0 : 0 ≤ (db - mn) / (mx - mn) := div_nonneg (by linarith) hd.le
    have a1 : (db - mn) / (mx - mn) ≤ 1 := by rw [div_le_one hd]; linarith
    rw [min_eq_left (by linarith), max_eq_right (by linarith)]
    exact ⟨Nat.floor_le (by linarith), Nat.lt_floor_add_one _⟩

/-- C69: the byte data of an empty bin are 0, and a louder bin has no smaller byte. -/
theorem C69_byte_mono (mn mx b c : ℝ) (hmm : mn < mx) (hb : 0 ≤ b) (hbc : b ≤ c) :
    toByte mn mx 0 = 0 ∧ toByte mn mx b ≤ toByte mn mx c ∧ toByte mn mx c ≤ 255 := by
  refine ⟨by simp [toByte], ?_, ?_⟩
  · unfold toByte
    by_cases h0 : b = 0
    · rw [if_pos h0]; exact Nat.zero_le _
    · have hb' : 0 < b := lt_of_le_of_ne hb (Ne.symm h0)
      rw [if_neg h0, if_neg (hb'.trans_le hbc).ne']
      simp only
      apply Nat.floor_le_floor
      apply max_le_max le_rfl
      apply min_le_min _ le_rfl
      apply mul_le_mul_of_nonneg_left _ (div_nonneg (by norm_num) (sub_pos.mpr hmm).le)
      have : logb 10 b ≤ logb 10 c := Real.logb_le_logb_of_le (by norm_num) hb' hbc
      linarith
  · unfold toByte
    split
    · exact Nat.zero_le _
    · simp only
      apply Nat.floor_le_of_le
      push_cast
      exact max_le (by norm_num) (min_le_right _ _)

/-- C69: byte and float data of the same call agree on the bins, and bytes beyond the bins are left alone. -/
theorem C69_byte_data (a : An) (t : ℝ) (w : Window) (dst : List Nat) (dst' : List (WithBot ℝ)) (i : Nat) :
    (a.getByte t w dst).1 = (a.getFloat t w dst').1 ∧
    (i < dst.length → i < a.fftSize / 2 →
      (a.getByte t w dst).2[i]? = some (toByte a.min a.max ((a.getFloat t w dst').1.last i))) ∧
    (a.fftSize / 2 ≤ i → (a.getByte t w dst).2[i]? = dst[i]?) := by
  refine ⟨rfl, ?_⟩
  simp only [An.getByte, An.getFloat, fill, List.getElem?_mapIdx]
  refine ⟨fun h1 h2 => ?_, fun h => ?_⟩
  · rw [List.getElem?_eq_getElem h1]
    simp only [Option.map_some, if_pos (lt_min h1 h2)]
  · cases hd : dst[i]? with
    | none => rfl
    | some v =>
      have : ¬ i < Min.min dst.length (a.fftSize / 2) := fun hc => absurd (lt_min_iff.mp hc).2 (by omega)
      simp only [Option.map_some, if_neg this]

/-- C69: time domain bytes of samples within ±1: 128 stands for 0 and a step for 1/128. Partial: only for as many elements
as the window has. -/
theorem C69_byte_time_partial (a : An) (w : Nat → ℝ) (dst : List Nat) (i : Nat) (hi : i < dst.length)
    (hn : i < a.fftSize) (h0 : -1 ≤ w i) (h1 : w i < 1) :
    ∃ b : Nat, (a.getByteTime w dst)[i]? = some b ∧ b ≤ 255 ∧ ((b : ℝ) - 128) / 128 ≤ w i ∧
      w i < ((b : ℝ) - 128) / 128 + 1 / 128 := by
  have e : (a.getByteTime w dst)[i]? = some ⌊Max.max 0 (Min.min (128 * (1 + w i)) 255)⌋₊ := by
    simp only [An.getByteTime, List.getElem?_mapIdx, List.getElem?_eq_getElem hi, Option.map_some,
      if_pos (lt_min hi hn)]
  refine ⟨_, e, ?_, ?_, ?_⟩
  · apply Nat.floor_le_of_le
    push_cast
    exact max_le (by norm_num) (min_le_right _ _)
  · have h2 : (⌊Max.max 0 (Min.min (128 * (1 + w i)) 255)⌋₊ : ℝ) ≤ 128 * (1 + w i) :=
      (Nat.floor_le (le_max_left _ _)).trans (max_le (by linarith) (min_le_left _ _))
    linarith
  · have h2 : 128 * (1 + w i) < ⌊Max.max 0 (Min.min (128 * (1 + w i)) 255)⌋₊ + (1 : ℝ) := by
      rcases le_or_gt (128 * (1 + w i)) 255 with h | h
      · rw [min_eq_left h, max_eq_right (by linarith)]
        exact Nat.lt_floor_add_one _
      · rw [min_eq_right h.le, max_eq_right (by norm_num)]
        have : ⌊(255 : ℝ)⌋₊ = 255 := by exact_mod_cast Nat.floor_natCast (R := ℝ) 255
        rw [this]; push_cast; linarith
    linarith

/-- C69: samples beyond ±1 give 0 and 255. -/
theorem C69_byte_time_clip (a : An) (w : Nat → ℝ) (dst : List Nat) (i : Nat) (hi : i < dst.length) (hn : i < a.fftSize) :
    (w i ≤ -1 → (a.getByteTime w dst)[i]? = some 0) ∧ (1 ≤ w i → (a.getByteTime w dst)[i]? = some 255) := by
  have e : (a.getByteTime w dst)[i]? = some ⌊Max.max 0 (Min.min (128 * (1 + w i)) 255)⌋₊ := by
    simp only [An.getByteTime, List.getElem?_mapIdx, List.getElem?_eq_getElem hi, Option.map_some,
      if_pos (lt_min hi hn)]
  rw [e]
  refine ⟨fun h => ?_, fun h => ?_⟩
  · rw [max_eq_left ((min_le_left _ _).trans (by linarith))]; simp
  · rw [min_eq_right (by linarith), max_eq_right (by norm_num)]
    have : ⌊(255 : ℝ)⌋₊ = 255 := by exact_mod_cast Nat.floor_natCast (R := ℝ) 255
    rw [this]

/-- C69, negated: the excess elements of an array longer than the window are not left alone: they become 128, while the
float version leaves them. -/
theorem C69_byte_time_excess_negated (a : An) (w : Nat → ℝ) (dst : List Nat) (i : Nat) (hi : i < dst.length)
    (hn : a.fftSize ≤ i) : (a.getByteTime w dst)[i]? = some 128 := by
  have : ¬ i < Min.min dst.length a.fftSize := fun hc => absurd (lt_min_iff.mp hc).2 (by omega)
  simp only [An.getByteTime, List.getElem?_mapIdx, List.getElem?_eq_getElem hi, Option.map_some, if_neg this]
  rw [show (128 * (1 + 0) : ℝ) = ((128 : Nat) : ℝ) by norm_num, min_eq_left (by norm_num), max_eq_right (by norm_num),
    Nat.floor_natCast]

/-- C68, negated: after a change of the size in the quantum of the last call the data are neither those of the last call
nor the spectrum of the window: every bin is -∞, whatever the signal, and stays so until time moves on. -/
theorem C68_resize_negated (a : An) (t : ℝ) (w w' : Window) (dst dst' : List (WithBot ℝ)) (N : Nat) (hN : N ≠ a.fftSize)
    (i : Nat) (hi : i < dst'.length) (hb : i < N / 2) :
    ((((a.getFloat t w dst).1.setFftSize N).getFloat t w' dst').2)[i]? = some ⊥ := by
  have h1 : (a.getFloat t w dst).1.lastTime = some t := by
    simp only [An.getFloat, An.update]
    split
    · assumption
    · rfl
  have h3 : (a.getFloat t w dst).1.fftSize = a.fftSize := by
    simp only [An.getFloat, An.update]
    split <;> rfl
  have h4 : (a.getFloat t w dst).1.setFftSize N
      = { (a.getFloat t w dst).1 with last := fun _ => 0, fftSize := N } := by
    unfold An.setFftSize
    rw [if_pos (by rw [h3]; exact Ne.symm hN)]
  rw [h4]
  simp only [An.getFloat] at h1 ⊢
  have h5 : ∀ b : An, b.lastTime = some t → b.update t w' = b := fun b hb => by unfold An.update; exact if_pos hb
  rw [h5 { (a.update t w) with last := fun _ => 0, fftSize := N } h1]
  unfold fill
  rw [List.getElem?_mapIdx, List.getElem?_eq_getElem hi]
  simp [decibel, lt_min hi hb, hi, hb]

/-! ## Examples -/

/-- Bin 8 of 32 with a tone of amplitude 1 at its frequency. -/
example : magnitude 32 (fun n => some (1 * cos (2 * π * (8 : Nat) * n / (32 : Nat) + 1))) 8 = some 0.21 := by
  rw [C68_tone 32 8 8 (by norm_num) (by norm_num) (by norm_num)]
  norm_num

/-- The neighbour of bin 8. -/
example : magnitude 32 (fun n => some (1 * cos (2 * π * (8 : Nat) * n / (32 : Nat) + 1))) 9 = some 0.125 := by
  rw [C68_tone 32 8 9 (by norm_num) (by norm_num) (by norm_num)]
  norm_num

/-- Two analyses of the tone, with a third call at the time of the first: bin 8 has 0.25 * 0.21 + 0.5 * 0.21. -/
example : ((An.new 32 0.8 (-100) (-30)).calls
    [(1, 0.5, fun n => some (1 * cos (2 * π * (8 : Nat) * n / (32 : Nat) + 1))),
     (1, 0.5, fun _ => none),
     (2, 0.5, fun n => some (1 * cos (2 * π * (8 : Nat) * n / (32 : Nat) + 1)))]).last 8 = 0.1575 := by
  have h := C68_tone 32 8 8 (by norm_num) (by norm_num) (by norm_num) 1 1
  rw [C68_smoothing 32 8 (by norm_num) (An.new 32 0.8 (-100) (-30)) rfl rfl _ [(0.5, 0.21), (0.5, 0.21)]]
  · norm_num [smoothed, Finset.sum_range_succ, Finset.prod_Ico_succ_top]
  · simp only [analysed, An.new, h]
    norm_num
    exact fun hc => by cases hc

/-- -65 dB in the middle of the default range. -/
example : toByte (-100) (-30) 1 = 255 :=
  (C69_byte (-100) (-30) 1 (by norm_num) (by norm_num)).2.1 (by simp)

/-- A window with NaN is forgotten: the bins are 0 afterwards. -/
example : ((An.new 32 0.8 (-100) (-30)).update 1 (fun n => if n = 3 then none else some 1)).last 8 = 0 :=
  (C68_reset (An.new 32 0.8 (-100) (-30)) 64 8 (by norm_num [An.new]) 0.8 (-100) (-30) 1 _).2.2 (by simp [An.new])
    ⟨3, by norm_num [An.new], by simp⟩

end Verif.Analyser
