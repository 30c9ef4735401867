import Verif.Compressor.Gain
import Mathlib.Analysis.SpecificLimits.Basic

/-!
# C59 (compression curve, detector, gains) and C60 (makeup gain and metering)
-/

namespace Verif.Compressor

open Verif.Node

/-- Specification of a compression curve (in dB): nothing below the threshold, slope one over the ratio above the knee,
and in between, and everywhere, slopes from one over the ratio to one. -/
structure IsCurve (f : ℝ → ℝ) (T W R : ℝ) : Prop where
  below : ∀ x, x ≤ T → f x = x
  above : ∀ x y, T + W ≤ x → T + W ≤ y → f y - f x = (y - x) / R
  slope : ∀ x y, x ≤ y → (y - x) / R ≤ f y - f x ∧ f y - f x ≤ y - x

/-- shape of the attenuation -/
noncomputable def phi (W u : ℝ) : ℝ := if u ≤ 0 then 0 else if u ≤ W then u ^ 2 / (2 * W) else u - W / 2

theorem phi_slope {W : ℝ} (hW : 0 ≤ W) {u v : ℝ} (h : u ≤ v) : 0 ≤ phi W v - phi W u ∧ phi W v - phi W u ≤ v - u := by
  rcases hW.eq_or_lt with h0 | hW
  · subst h0
    unfold phi
    split <;> split <;> (try split) <;> (try split) <;> constructor <;> first | linarith | nlinarith
  · have key : ∀ w : ℝ, w ^ 2 / (2 * W) = w * (w / (2 * W)) := fun w => by ring
    unfold phi
    by_cases h1 : u ≤ 0
    · rw [if_pos h1]
      by_cases h2 : v ≤ 0
      · rw [if_pos h2]; constructor <;> linarith
      · rw [if_neg h2]
        by_cases h3 : v ≤ W
        · rw [if_pos h3]
          have : v ^ 2 / (2 * W) ≤ v := by rw [div_le_iff₀ (by linarith)]; nlinarith
          have : 0 ≤ v ^ 2 / (2 * W) := by positivity
          constructor <;> linarith
        · rw [if_neg h3]; constructor <;> linarith
    · rw [if_neg h1]
      have h2 : ¬ v ≤ 0 := by linarith
      rw [if_neg h2]
      by_cases h3 : v ≤ W
      · rw [if_pos h3, if_pos (by linarith : u ≤ W)]
        have e : v ^ 2 / (2 * W) - u ^ 2 / (2 * W) = (v - u) * ((v + u) / (2 * W)) := by ring
        rw [e]
        have h4 : (v + u) / (2 * W) ≤ 1 := by rw [div_le_iff₀ (by linarith)]; linarith
        have h5 : 0 ≤ (v + u) / (2 * W) := by
          apply div_nonneg <;> linarith
        constructor
        · apply mul_nonneg <;> linarith
        · nlinarith
      · rw [if_neg h3]
        by_cases h4 : u ≤ W
        · rw [if_pos h4]
          have h5 : u ^ 2 / (2 * W) ≤ W / 2 := by rw [div_le_iff₀ (by linarith)]; nlinarith
          have h6 : u - W / 2 ≤ u ^ 2 / (2 * W) := by rw [le_div_iff₀ (by linarith)]; nlinarith [sq_nonneg (u - W)]
          constructor <;> linarith
        · rw [if_neg h4]; constructor <;> linarith

theorem curve_eq {p : Params} (hk : 0 ≤ p.knee) (hr : 1 ≤ p.ratio) (x : ℝ) :
    p.curve x = x - (1 - 1 / p.ratio) * phi p.knee (x - p.threshold) := by
  have hr0 : p.ratio ≠ 0 := by linarith
  rcases hk.eq_or_lt with h0 | hk
  · have hc : p.center = p.threshold := by unfold Params.center; rw [if_neg (by rw [← h0]; exact lt_irrefl _)]
    unfold Params.curve phi
    rw [hc, ← h0]
    by_cases h : x ≤ p.threshold
    · rw [if_pos (by linarith), if_pos (by linarith)]; ring
    · rw [if_neg (by linarith), if_neg (by linarith), if_neg (by linarith), if_neg (by linarith)]
      field_simp
      ring
  · have hc : p.center = p.threshold + p.knee / 2 := by unfold Params.center; rw [if_pos hk]
    have hk0 : p.knee ≠ 0 := hk.ne'
    unfold Params.curve phi
    rw [hc]
    by_cases h : x ≤ p.threshold
    · rw [if_pos (by linarith), if_pos (by linarith)]; ring
    · rw [if_neg (by linarith : ¬ x ≤ p.threshold + p.knee / 2 - p.knee / 2),
        if_neg (by linarith : ¬ x - p.threshold ≤ 0)]
      by_cases h2 : x ≤ p.threshold + p.knee
      · rw [if_pos (by linarith), if_pos (by linarith)]
        field_simp
        ring
      · rw [if_neg (by linarith), if_neg (by linarith)]
        field_simp
        ring

/-- C59: the curve of the code is a compression curve with the threshold, the knee and the ratio that were asked for. -/
theorem C59_curve {p : Params} (h : p.Valid) : IsCurve p.curve p.threshold p.knee p.ratio := by
  have hk := h.knee.1
  have hr := h.ratio.1
  have hr0 : (0 : ℝ) < p.ratio := by linarith
  have hi : 1 / p.ratio ≤ 1 := by rw [div_le_one hr0]; exact hr
  have hi0 : 0 < 1 / p.ratio := by positivity
  refine ⟨fun x hx => ?_, fun x y hx hy => ?_, fun x y hxy => ?_⟩
  · rw [curve_eq hk hr, phi, if_pos (by linarith)]; ring
  · have hphi : ∀ z, p.threshold + p.knee ≤ z → phi p.knee (z - p.threshold) = z - p.threshold - p.knee / 2 := by
      intro z hz
      unfold phi
      split
      · have h1 : p.knee = 0 := by linarith
        have h2 : z = p.threshold := by linarith
        rw [h1, h2]; ring
      · split
        · have h1 : z - p.threshold = p.knee := by linarith
          have h2 : p.knee ≠ 0 := by intro h0; linarith
          rw [h1]
          field_simp
          ring
        · rfl
    rw [curve_eq hk hr, curve_eq hk hr, hphi x hx, hphi y hy]
    field_simp
    ring
  · obtain ⟨h1, h2⟩ := phi_slope hk (show x - p.threshold ≤ y - p.threshold by linarith)
    rw [curve_eq hk hr, curve_eq hk hr]
    have e : (y - x) / p.ratio = (y - x) - (1 - 1 / p.ratio) * (y - x) := by field_simp; ring
    constructor
    · rw [e]; nlinarith
    · nlinarith

/-- consequences of the specification: continuous, never louder, monotone -/
theorem IsCurve.le {f : ℝ → ℝ} {T W R : ℝ} (h : IsCurve f T W R) (x : ℝ) : f x ≤ x := by
  rcases le_total x T with hx | hx
  · exact (h.below x hx).le
  · have := (h.slope T x hx).2
    rw [h.below T le_rfl] at this
    linarith

/-- C59: the curve is monotone, continuous, and never above the identity. -/
theorem C59_never_louder {p : Params} (h : p.Valid) : Monotone p.curve ∧ (∀ x, p.curve x ≤ x) ∧ Continuous p.curve := by
  have hr0 : (0 : ℝ) < p.ratio := by linarith [h.ratio.1]
  have hc := C59_curve h
  have hm : Monotone p.curve := by
    intro x y hxy
    have := (hc.slope x y hxy).1
    have h2 : 0 ≤ (y - x) / p.ratio := div_nonneg (by linarith) hr0.le
    linarith
  refine ⟨hm, fun x => hc.le x, ?_⟩
  have hl : LipschitzWith 1 p.curve := by
    apply LipschitzWith.of_dist_le_mul
    intro x y
    rw [Real.dist_eq, Real.dist_eq]
    simp only [NNReal.coe_one, one_mul]
    rcases le_total x y with hxy | hxy
    · have := (hc.slope x y hxy).2
      rw [abs_of_nonpos (by linarith [hm hxy]), abs_of_nonpos (by linarith)]
      linarith
    · have := (hc.slope y x hxy).2
      rw [abs_of_nonneg (by linarith [hm hxy]), abs_of_nonneg (by linarith)]
      linarith
  exact hl.continuous

/-! ## The detector -/

theorem tau_mem {time sr : ℝ} (ht : 0 ≤ time) (hs : 0 < sr) : 0 ≤ tau time sr ∧ tau time sr < 1 := by
  unfold tau
  split
  · norm_num
  · rename_i h
    have : 0 < time * sr := lt_of_le_of_ne (mul_nonneg ht hs.le) (Ne.symm h)
    refine ⟨(Real.exp_pos _).le, ?_⟩
    rw [Real.exp_lt_one_iff]
    exact div_neg_of_neg_of_pos (by norm_num) this

/-- the detector moves towards the attenuation and not beyond -/
theorem detect_between {p : Params} (h : p.Valid) {sr : ℝ} (hs : 0 < sr) (d a : ℝ) :
    min d a ≤ p.detect sr d a ∧ p.detect sr d a ≤ max d a := by
  have key : ∀ t : ℝ, 0 ≤ t → t < 1 → min d a ≤ t * d + (1 - t) * a ∧ t * d + (1 - t) * a ≤ max d a := by
    intro t h0 h1
    have := min_le_left d a
    have := min_le_right d a
    have := le_max_left d a
    have := le_max_right d a
    constructor <;> nlinarith
  unfold Params.detect
  split
  · exact key _ (tau_mem h.attack.1 hs).1 (tau_mem h.attack.1 hs).2
  · exact key _ (tau_mem h.release.1 hs).1 (tau_mem h.release.1 hs).2

theorem attenuation_nonneg {p : Params} (h : p.Valid) (l : List ℝ) : 0 ≤ p.attenuation l := by
  unfold Params.attenuation
  have := (C59_never_louder h).2.1 (linToDb (level l))
  linarith

theorem frames_nonneg {p : Params} (h : p.Valid) {sr : ℝ} (hs : 0 < sr) (ls : List (List ℝ)) : ∀ d : ℝ, 0 ≤ d →
    0 ≤ (p.frames sr d ls).1 ∧ ∀ g ∈ (p.frames sr d ls).2, g ≤ p.makeup := by
  induction ls with
  | nil => intro d hd; exact ⟨hd, by simp [Params.frames]⟩
  | cons l ls ih =>
    intro d hd
    have h1 : 0 ≤ p.detect sr d (p.attenuation l) :=
      le_trans (le_min hd (attenuation_nonneg h l)) (detect_between h hs d _).1
    obtain ⟨i1, i2⟩ := ih _ h1
    refine ⟨i1, fun g hg => ?_⟩
    simp only [Params.frames, List.mem_cons] at hg
    rcases hg with hg | hg
    · rw [hg]; linarith
    · exact i2 g hg

/-- C59: over the frames of a quantum, if the curve never asks for more than `A` dB, nor was it so before, the gain stays
within `A` dB below the makeup gain, and never is above it. -/
theorem C59_gain_range {p : Params} (h : p.Valid) {sr : ℝ} (hs : 0 < sr) {A : ℝ} (ls : List (List ℝ))
    (hA : ∀ l ∈ ls, p.attenuation l ≤ A) : ∀ d : ℝ, 0 ≤ d → d ≤ A →
    (0 ≤ (p.frames sr d ls).1 ∧ (p.frames sr d ls).1 ≤ A) ∧
    ∀ g ∈ (p.frames sr d ls).2, p.makeup - A ≤ g ∧ g ≤ p.makeup := by
  induction ls with
  | nil => intro d h0 hd; exact ⟨⟨h0, hd⟩, by simp [Params.frames]⟩
  | cons l ls ih =>
    intro d h0 hd
    have h1 : 0 ≤ p.detect sr d (p.attenuation l) :=
      le_trans (le_min h0 (attenuation_nonneg h l)) (detect_between h hs d _).1
    have h2 : p.detect sr d (p.attenuation l) ≤ A :=
      le_trans (detect_between h hs d _).2 (max_le hd (hA l (by simp)))
    obtain ⟨i1, i2⟩ := ih (fun l' hl' => hA l' (by simp [hl'])) _ h1 h2
    refine ⟨i1, fun g hg => ?_⟩
    simp only [Params.frames, List.mem_cons] at hg
    rcases hg with hg | hg
    · rw [hg]; constructor <;> linarith
    · exact i2 g hg

/-- C59: a signal that stays below the threshold is not compressed: every gain is the makeup gain. -/
theorem C59_below_threshold {p : Params} (h : p.Valid) {sr : ℝ} (hs : 0 < sr) (ls : List (List ℝ))
    (hl : ∀ l ∈ ls, linToDb (level l) ≤ p.threshold) : ∀ g ∈ (p.frames sr 0 ls).2, g = p.makeup := by
  have := C59_gain_range (A := 0) h hs ls (fun l hm => by
    unfold Params.attenuation
    rw [(C59_curve h).below _ (hl l hm)]
    simp) 0 le_rfl le_rfl
  intro g hg
  obtain ⟨h1, h2⟩ := this.2 g hg
  linarith

/-- C59: a steady level. The distance of the detector to the attenuation decays with the attack time when the gain has to
go down, with the release time when it has to go up. -/
theorem C59_steady {p : Params} (h : p.Valid) {sr : ℝ} (hs : 0 < sr) (l : List ℝ) (n : Nat) : ∀ d : ℝ,
    (p.frames sr d (List.replicate n l)).1 - p.attenuation l =
      (if d < p.attenuation l then tau p.attack sr else tau p.release sr) ^ n * (d - p.attenuation l) := by
  induction n with
  | zero => intro d; simp [Params.frames]
  | succ n ih =>
    intro d
    simp only [List.replicate_succ, Params.frames]
    rw [ih]
    obtain ⟨a0, a1⟩ := tau_mem h.attack.1 hs
    obtain ⟨r0, r1⟩ := tau_mem h.release.1 hs
    unfold Params.detect
    by_cases hd : d < p.attenuation l
    · rw [if_pos hd, if_pos hd]
      by_cases h0 : tau p.attack sr = 0
      · rw [h0]
        cases n <;> simp
      · have hpos : 0 < tau p.attack sr := lt_of_le_of_ne a0 (Ne.symm h0)
        rw [if_pos (by nlinarith)]
        ring
    · rw [if_neg hd, if_neg hd, if_neg (by nlinarith)]
      ring

/-- C59: the meaning of the attack and release times: after that time the distance is down by the factor `e`. -/
theorem C59_time_constant {time sr : ℝ} (ht : 0 < time) (hs : 0 < sr) {n : Nat} (hn : (n : ℝ) = time * sr) :
    tau time sr ^ n = Real.exp (-1) := by
  have : time * sr ≠ 0 := by positivity
  unfold tau
  rw [if_neg this, ← Real.exp_nat_mul, hn]
  congr 1
  field_simp

/-- C59: with a steady level the gain converges to the one of the curve. -/
theorem C59_converges {p : Params} (h : p.Valid) {sr : ℝ} (hs : 0 < sr) (l : List ℝ) (d : ℝ) :
    Filter.Tendsto (fun n => (p.frames sr d (List.replicate n l)).1) Filter.atTop (nhds (p.attenuation l)) := by
  have e : (fun n => (p.frames sr d (List.replicate n l)).1) = fun n : Nat =>
      (if d < p.attenuation l then tau p.attack sr else tau p.release sr) ^ n * (d - p.attenuation l) +
        p.attenuation l := by
    funext n
    have := C59_steady h hs l n d
    linarith
  rw [e]
  have h0 : Filter.Tendsto (fun n : Nat =>
      (if d < p.attenuation l then tau p.attack sr else tau p.release sr) ^ n) Filter.atTop (nhds 0) := by
    split
    · exact tendsto_pow_atTop_nhds_zero_of_lt_one (tau_mem h.attack.1 hs).1 (tau_mem h.attack.1 hs).2
    · exact tendsto_pow_atTop_nhds_zero_of_lt_one (tau_mem h.release.1 hs).1 (tau_mem h.release.1 hs).2
  have h1 := (h0.mul_const (d - p.attenuation l)).add_const (p.attenuation l)
  simpa using h1

/-! ## The level -/

theorem level_foldl (l : List ℝ) : ∀ m : ℝ, m ≤ l.foldl (fun m s => if m < |s| then |s| else m) m ∧
    (∀ s ∈ l, |s| ≤ l.foldl (fun m s => if m < |s| then |s| else m) m) ∧
    (l.foldl (fun m s => if m < |s| then |s| else m) m = m ∨
      ∃ s ∈ l, l.foldl (fun m s => if m < |s| then |s| else m) m = |s|) := by
  induction l with
  | nil => intro m; simp
  | cons a l ih =>
    intro m
    simp only [List.foldl_cons]
    obtain ⟨h1, h2, h3⟩ := ih (if m < |a| then |a| else m)
    have hm : m ≤ (if m < |a| then |a| else m) ∧ |a| ≤ (if m < |a| then |a| else m) := by
      split
      · rename_i h; exact ⟨h.le, le_rfl⟩
      · rename_i h; exact ⟨le_rfl, not_lt.1 h⟩
    refine ⟨le_trans hm.1 h1, fun s hs => ?_, ?_⟩
    · rcases List.mem_cons.1 hs with hs | hs
      · rw [hs]; exact le_trans hm.2 h1
      · exact h2 s hs
    · rcases h3 with h3 | ⟨s, hs, h3⟩
      · rw [h3]
        split
        · exact Or.inr ⟨a, by simp, rfl⟩
        · exact Or.inl rfl
      · exact Or.inr ⟨s, by simp [hs], h3⟩

/-- C59: the level of a frame is the largest absolute value over its channels. -/
theorem C59_level {l : List ℝ} (h : l ≠ []) : (∀ s ∈ l, |s| ≤ level l) ∧ ∃ s ∈ l, level l = |s| := by
  obtain ⟨h1, h2, h3⟩ := level_foldl l (-((2 - 1 / 2 ^ 23) * 2 ^ 127))
  refine ⟨h2, ?_⟩
  rcases h3 with h3 | h3
  · exfalso
    obtain ⟨a, l', rfl⟩ := List.exists_cons_of_ne_nil h
    have h4 := h2 a (by simp)
    rw [h3] at h4
    have h5 := abs_nonneg a
    have h6 : (0 : ℝ) < (2 - 1 / 2 ^ 23) * 2 ^ 127 := by norm_num
    linarith
  · exact h3

/-! ## The whole node -/

theorem dbToLin_pos (v : ℝ) : 0 < dbToLin v := Real.rpow_pos_of_pos (by norm_num) _

theorem dbToLin_mono {a b : ℝ} (h : a ≤ b) : dbToLin a ≤ dbToLin b := by
  unfold dbToLin
  exact Real.rpow_le_rpow_of_exponent_le (by norm_num) (by linarith)

theorem gains_bound {p : Nat → Params} (h : ∀ t, (p t).Valid) {sr : ℝ} (hs : 0 < sr) (N : Nat)
    (qs : List (Quantum ℝ)) : ∀ (n : Nat) (d : ℝ), 0 ≤ d → ∀ (t : Nat) g,
      g ∈ (gainsOf (gainStage p sr N) (n, d) qs).getD t [] → 0 < g ∧ g ≤ dbToLin (p (n + t)).makeup := by
  induction qs with
  | nil => intro n d _ t g hg; simp [gainsOf] at hg
  | cons q qs ih =>
    intro n d hd t g hg
    cases t with
    | zero =>
      simp only [gainsOf, gainStage, List.getD_cons_zero, List.mem_map] at hg
      obtain ⟨v, hv, rfl⟩ := hg
      exact ⟨dbToLin_pos _, dbToLin_mono ((frames_nonneg (h n) hs _ d hd).2 v hv)⟩
    | succ t =>
      simp only [gainsOf, List.getD_cons_succ] at hg
      have := ih (n + 1) _ (frames_nonneg (h n) hs _ d hd).1 t g hg
      rw [show n + (t + 1) = n + 1 + t by omega]
      exact this

/-- C59: the node as a whole, with params that change from quantum to quantum: every sample of the output has the sign of
the input sample `R - 1` quanta before, and at most its size times the makeup gain. -/
theorem C59_output {p : Nat → Params} (h : ∀ t, (p t).Valid) {sr : ℝ} (hs : 0 < sr) {R N : Nat} (hR : 0 < R)
    (ins : List (Quantum ℝ)) (t : Nat) (o : Quantum ℝ × Bool)
    (ho : ((Comp.new (0, 0)).run R N (gainStage p sr N) ins).2[t]? = some o) (c f : Nat) :
    ∃ g : ℝ, 0 ≤ g ∧ g ≤ dbToLin (p t).makeup ∧
      sample o.1 c f = g * (if t < R - 1 then 0 else sample (ins.getD (t - (R - 1)) []) c f) := by
  have := (C45_delay hR (gainStage p sr N) (0, 0) ins).2 t o ho c f
  refine ⟨((gainsOf (gainStage p sr N) (0, 0) ins).getD t []).getD f 0, ?_, ?_, by rw [this, mul_comm]⟩
  all_goals
    rw [List.getD_eq_getElem?_getD]
    cases hg : ((gainsOf (gainStage p sr N) (0, 0) ins).getD t [])[f]? with
    | none => simp [(dbToLin_pos _).le]
    | some g =>
      have := gains_bound h hs N ins 0 0 le_rfl t g (List.mem_of_getElem? hg)
      simp only [Nat.zero_add] at this
      first | exact this.1.le | exact this.2

/-! ## C60: makeup gain and metering -/

theorem linToDb_dbToLin (v : ℝ) : linToDb (dbToLin v) = v := by
  unfold linToDb
  rw [if_neg (dbToLin_pos v).ne']
  unfold dbToLin
  rw [Real.logb_rpow (by norm_num) (by norm_num)]
  ring

theorem inv_pow_db (v : ℝ) : linToDb ((1 / dbToLin v) ^ (0.6 : ℝ)) = -(0.6 * v) := by
  have e : (1 / dbToLin v) ^ (0.6 : ℝ) = dbToLin (-(0.6 * v)) := by
    unfold dbToLin
    rw [one_div, ← Real.rpow_neg (by norm_num), ← Real.rpow_mul (by norm_num)]
    congr 1
    ring
  rw [e, linToDb_dbToLin]

/-- Specification (Web Audio API, "computing the makeup gain"): the 0.6 power of the inverse of what the curve makes of
full scale, in dB -/
noncomputable def makeupSpec (p : Params) : ℝ := linToDb ((1 / dbToLin (p.curve (linToDb 1))) ^ (0.6 : ℝ))

theorem makeupSpec_eq (p : Params) : makeupSpec p = -(0.6 * p.curve 0) := by
  unfold makeupSpec
  rw [inv_pow_db]
  simp [linToDb]

theorem makeup_eq (p : Params) : p.makeup = -(0.6 * (p.center - p.center / p.ratio)) := by
  unfold Params.makeup
  rw [inv_pow_db]
  ring

/-- the makeup gain of the specification never attenuates -/
theorem makeupSpec_nonneg {p : Params} (h : p.Valid) : 0 ≤ makeupSpec p := by
  rw [makeupSpec_eq]
  have := (C59_never_louder h).2.1 0
  linarith

/-- C60, partial: when the knee ends at or below full scale, the makeup gain is the one of the specification and at least
one. Missing: `threshold + knee > 0`, which the defaults are. -/
theorem C60_makeup_partial {p : Params} (h : p.Valid) (hk : p.threshold + p.knee ≤ 0) :
    p.makeup = makeupSpec p ∧ 0 ≤ p.makeup := by
  have hr0 : p.ratio ≠ 0 := by linarith [h.ratio.1]
  have hc : p.center = p.threshold + p.knee / 2 := by
    unfold Params.center
    split
    · rfl
    · have : p.knee = 0 := by linarith [h.knee.1]
      rw [this]; ring
  have e : p.makeup = makeupSpec p := by
    have hab := (C59_curve h).above (p.threshold + p.knee) 0 le_rfl hk
    have hv : p.curve (p.threshold + p.knee) = p.threshold + p.knee - (1 - 1 / p.ratio) * (p.knee / 2) := by
      rw [curve_eq h.knee.1 h.ratio.1]
      congr 2
      unfold phi
      rw [show p.threshold + p.knee - p.threshold = p.knee by ring]
      split
      · linarith [h.knee.1]
      · rename_i hpos
        rw [if_pos le_rfl]
        have : p.knee ≠ 0 := fun h0 => hpos h0.le
        field_simp
    rw [makeup_eq, makeupSpec_eq, hc, show p.curve 0 = p.curve (p.threshold + p.knee) + (0 - (p.threshold + p.knee)) / p.ratio
      by linarith, hv]
    field_simp
    ring
  exact ⟨e, by rw [e]; exact makeupSpec_nonneg h⟩

/-- meets the hypotheses, and the makeup gain is not trivial: 12 dB -/
noncomputable def sampleParams : Params := ⟨-40, 0, 2, 0.003, 0.25⟩

example : sampleParams.Valid ∧ sampleParams.threshold + sampleParams.knee ≤ 0 ∧ sampleParams.makeup = 12 := by
  refine ⟨⟨?_, ?_, ?_, ?_, ?_⟩, ?_, ?_⟩
  all_goals (try (unfold sampleParams; norm_num))
  rw [makeup_eq]
  norm_num [Params.center]

/-- the default params, l.51-55 -/
noncomputable def defaultParams : Params := ⟨-24, 30, 12, 0.003, 0.25⟩

theorem defaultParams_valid : defaultParams.Valid := by
  refine ⟨?_, ?_, ?_, ?_, ?_⟩ <;> unfold defaultParams <;> norm_num

/-- C60 fails for the defaults: 4.95 dB instead of 5.28 dB. -/
theorem C60_negated_defaults : defaultParams.makeup = 4.95 ∧ makeupSpec defaultParams = 5.28 := by
  rw [makeup_eq, makeupSpec_eq]
  unfold defaultParams Params.center Params.curve Params.center
  norm_num

/-- C60 fails: with the threshold at 0 dB and a knee of 40 dB nothing up to full scale is compressed, yet the makeup gain
makes everything 11.4 dB softer. -/
theorem C60_negated_attenuates : ∃ p : Params, p.Valid ∧ (∀ x ≤ 0, p.curve x = x) ∧ p.makeup = -11.4 := by
  refine ⟨⟨0, 40, 20, 0, 0⟩, ⟨?_, ?_, ?_, ?_, ?_⟩, fun x hx => ?_, ?_⟩
  all_goals try norm_num
  · apply (C59_curve (p := ⟨0, 40, 20, 0, 0⟩) ⟨?_, ?_, ?_, ?_, ?_⟩).below
    · exact hx
    all_goals norm_num
  · rw [makeup_eq]
    norm_num [Params.center]

theorem getLastD_mem {α : Type} (l : List α) (a : α) (h : l ≠ []) : l.getLastD a ∈ l := by
  rw [List.getLastD_eq_getLast?, List.getLast?_eq_some_getLast h]
  exact List.getLast_mem h

/-- C60, partial: metering. `reduction` is the gain of the last frame, makeup included; it is at most the makeup gain, and
without the makeup gain it is minus the detector. -/
theorem C60_reduction_partial {p : Params} (h : p.Valid) {sr : ℝ} (hs : 0 < sr) {d : ℝ} (hd : 0 ≤ d) (ls : List (List ℝ))
    (hne : ls ≠ []) : reductionOf p sr d ls ≤ p.makeup ∧ reductionOf p sr d ls = p.makeup - (p.frames sr d ls).1 := by
  have key : ∀ (ls : List (List ℝ)) (d : ℝ), ls ≠ [] → reductionOf p sr d ls = p.makeup - (p.frames sr d ls).1 := by
    intro ls
    induction ls with
    | nil => intro d hn; exact absurd rfl hn
    | cons l ls ih =>
      intro d _
      cases ls with
      | nil => simp [reductionOf, Params.frames]; ring
      | cons l' ls =>
        have := ih (p.detect sr d (p.attenuation l)) (by simp)
        unfold reductionOf at this ⊢
        simp only [Params.frames, List.getLastD_cons] at this ⊢
        exact this
  refine ⟨?_, key ls d hne⟩
  rw [key ls d hne]
  linarith [(frames_nonneg h hs ls d hd).1]

/-- C60 fails: a compressor with the default params that gets silence reports a reduction of +4.95 dB, not 0. -/
theorem C60_negated_reduction {sr : ℝ} (hs : 0 < sr) :
    reductionOf defaultParams sr 0 (List.replicate 128 [0]) = 4.95 := by
  have hne : (List.replicate 128 [(0 : ℝ)]) ≠ [] := by simp
  have hall := C59_below_threshold defaultParams_valid hs (List.replicate 128 [(0 : ℝ)]) (by
    intro l hl
    rw [List.eq_of_mem_replicate hl]
    have : level [0] = 0 := by
      obtain ⟨s, hs, h⟩ := (C59_level (l := [(0 : ℝ)]) (by simp)).2
      simp at hs
      rw [h, hs, abs_zero]
    rw [this]
    norm_num [linToDb, defaultParams])
  have hfr : (defaultParams.frames sr 0 (List.replicate 128 [0])).2 ≠ [] := by
    rw [show List.replicate 128 [(0 : ℝ)] = [0] :: List.replicate 127 [0] from rfl, Params.frames]
    exact List.cons_ne_nil _ _
  have := hall _ (getLastD_mem _ 0 hfr)
  unfold reductionOf
  rw [this, C60_negated_defaults.1]

end Verif.Compressor
