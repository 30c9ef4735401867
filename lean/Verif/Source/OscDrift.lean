import Verif.Source.OscTune
import Verif.Float.Error
import Mathlib.Data.List.GetD

/-!
# Oscillators stay in tune

How far rounding brings the phase of an oscillator away from the exact one: two oscillators with the same history, one with a rounding
`rd` of relative error `u` in the arithmetic of the phase, one exact.
-/

namespace Verif.Source

open Float

section
variable {K : Type} [Field K] [LinearOrder K] [FloorRing K] [IsStrictOrderedRing K]

/-- How far the phase may be off at time `t` for a start at `a`, where `B` bounds the increments of the phase: at first by `5 u (1 + B)`,
then by `3 u (1 + B)` per frame. -/
def drift (u B dt a t : K) : K := u * (1 + B) * (5 + 3 * ((t - a) / dt))

theorem drift_nonneg {u B dt a t : K} (hu : 0 ≤ u) (hB : 0 ≤ B) (hdt : 0 < dt) (h : a ≤ t) : 0 ≤ drift u B dt a t := by
  unfold drift
  have : 0 ≤ (t - a) / dt := div_nonneg (by linarith) hdt.le
  positivity

theorem drift_first {u B dt a t : K} (hu : 0 ≤ u) (hB : 0 ≤ B) (hdt : 0 < dt) (h : a ≤ t) : 5 * u * (1 + B) ≤ drift u B dt a t := by
  unfold drift
  have : 0 ≤ (t - a) / dt := div_nonneg (by linarith) hdt.le
  nlinarith [mul_nonneg (mul_nonneg hu (by linarith : 0 ≤ 1 + B)) this]

theorem drift_next {u B dt a t : K} (hdt : 0 < dt) : drift u B dt a (t + dt) = drift u B dt a t + 3 * u * (1 + B) := by
  unfold drift
  field_simp
  ring

theorem drift_mono {u B dt a b t t' : K} (hu : 0 ≤ u) (hB : 0 ≤ B) (hdt : 0 < dt) (h : b ≤ a) (ht : t ≤ t') :
    drift u B dt a t ≤ drift u B dt b t' := by
  unfold drift
  have : (t - a) / dt ≤ (t' - b) / dt := by gcongr
  have := mul_nonneg hu (by linarith : 0 ≤ 1 + B)
  gcongr

/-- a phase with rounding -/
theorem advance_near {rd : K → K} {u : K} (hrd : Near rd u) (hu0 : 0 ≤ u) (hu1 : u ≤ 1 / 8) {x : K} {o : Bool}
    (h : o = false → -1 ≤ x ∧ x ≤ 2) : 0 ≤ advance rd o x ∧ advance rd o x ≤ 1 + u ∧ Around u (advance rd o x) x := by
  have key : ∀ y : K, 0 ≤ y → y ≤ 1 → ∀ k : ℤ, y = x + k → 0 ≤ rd y ∧ rd y ≤ 1 + u ∧ Around u (rd y) x := by
    intro y h0 h1 k hk
    refine ⟨hrd.nonneg (by linarith) h0, (hrd.le h0).trans (by nlinarith), ⟨k, ?_⟩⟩
    rw [show rd y - x - k = rd y - y by rw [hk]; ring]
    refine (hrd y).trans ?_
    rw [abs_of_nonneg h0]
    nlinarith
  unfold advance
  split
  · unfold unrollUnbounded
    refine key _ (Int.fract_nonneg x) (Int.fract_lt_one x).le (-⌊x⌋) ?_
    push_cast
    rw [← sub_eq_add_neg, Int.self_sub_floor]
  · rename_i ho
    obtain ⟨h1, h2⟩ := h (by simpa using ho)
    unfold unroll
    split
    · exact key _ (by linarith) (by linarith) (-1) (by push_cast; ring)
    · split
      · exact key _ (by linarith) (by linarith) 1 (by push_cast; ring)
      · exact ⟨by linarith, by linarith, Around.rfl' hu0 x⟩

set_option maxHeartbeats 1000000 in
/-- the first phase -/
theorem first_near {rd : K → K} {u : K} (hrd : Near rd u) (hu0 : 0 ≤ u) (hu1 : u ≤ 1 / 8) {dt f B : K} (hdt : 0 < dt) (hB : |f * dt| ≤ B)
    {d : K} (h0 : 0 ≤ d) (h1 : d ≤ dt) :
    0 ≤ advance rd (decide (1 / dt / 2 ≤ |f|)) (rd (rd (f * dt) * rd (rd d / dt))) ∧
      advance rd (decide (1 / dt / 2 ≤ |f|)) (rd (rd (f * dt) * rd (rd d / dt))) ≤ 1 + u ∧
      Around (5 * u * (1 + B)) (advance rd (decide (1 / dt / 2 ≤ |f|)) (rd (rd (f * dt) * rd (rd d / dt)))) (f * d) := by
  set i := f * dt with hi
  set r := d / dt with hr
  have hr0 : 0 ≤ r := div_nonneg h0 hdt.le
  have hr1 : r ≤ 1 := by rw [hr, div_le_one hdt]; exact h1
  have hi0 := abs_nonneg i
  -- the ratio
  have a1 : |rd d / dt - r| ≤ u * r := by
    rw [hr, ← sub_div, abs_div, abs_of_pos hdt, ← mul_div_assoc]
    have := hrd d
    rw [abs_of_nonneg h0] at this
    gcongr
  have a2 : |rd d / dt| ≤ (1 + u) * r := by
    have := abs_add_le (rd d / dt - r) r
    rw [sub_add_cancel, abs_of_nonneg hr0] at this
    linarith
  set x2 := rd (rd d / dt) with hx2
  have a3 : |x2 - r| ≤ u * (2 + u) * r := by
    have h2 := hrd (rd d / dt)
    have := abs_add_le (x2 - rd d / dt) (rd d / dt - r)
    rw [sub_add_sub_cancel] at this
    have := mul_le_mul_of_nonneg_left a2 hu0
    rw [← hx2] at h2
    nlinarith
  have a4 : |x2| ≤ (1 + u) ^ 2 * r := by
    have := abs_add_le (x2 - r) r
    rw [sub_add_cancel, abs_of_nonneg hr0] at this
    nlinarith
  -- the increment
  have b1 : |rd i - i| ≤ u * |i| := hrd i
  have b2 : |rd i| ≤ (1 + u) * |i| := hrd.abs_le i
  set x3 := rd (rd i * x2) with hx3
  have c1 : |rd i * x2 - i * r| ≤ u * |i| * ((1 + u) ^ 2 * r) + |i| * (u * (2 + u) * r) := by
    rw [show rd i * x2 - i * r = (rd i - i) * x2 + i * (x2 - r) by ring]
    refine (abs_add_le _ _).trans ?_
    rw [abs_mul, abs_mul]
    have hp : 0 ≤ u * |i| := by positivity
    gcongr
  have c2 : |x3 - rd i * x2| ≤ u * ((1 + u) * |i| * ((1 + u) ^ 2 * r)) := by
    refine (hrd _).trans ?_
    rw [abs_mul]
    gcongr
  have c3 : |x3 - i * r| ≤ 5 * u * |i| := by
    have h2 := abs_add_le (x3 - rd i * x2) (rd i * x2 - i * r)
    rw [sub_add_sub_cancel] at h2
    have h3 : |x3 - i * r| ≤ u * |i| * (((1 + u) ^ 3 + (1 + u) ^ 2 + 2 + u) * r) := by
      refine h2.trans ((add_le_add c2 c1).trans (le_of_eq ?_))
      ring
    have h4 : (1 + u) ^ 3 + (1 + u) ^ 2 + 2 + u ≤ 5 := by
      have : (1 + u) ^ 2 ≤ (9 / 8) ^ 2 := by gcongr; linarith
      have : (1 + u) ^ 3 ≤ (9 / 8) ^ 3 := by gcongr; linarith
      norm_num at *
      linarith
    have h5 : ((1 + u) ^ 3 + (1 + u) ^ 2 + 2 + u) * r ≤ 5 := by
      have : 0 ≤ (1 + u) ^ 3 + (1 + u) ^ 2 + 2 + u := by positivity
      nlinarith
    have : 0 ≤ u * |i| := by positivity
    nlinarith
  have hir : i * r = f * d := by rw [hi, hr]; field_simp
  obtain ⟨e1, e2, e3⟩ := advance_near (x := x3) (o := decide (1 / dt / 2 ≤ |f|)) hrd hu0 hu1 (by
    intro ho
    have hb := incr_lt hdt (of_decide_eq_false ho)
    rw [← hi] at hb
    have : |i * r| ≤ 1 / 2 := by
      rw [abs_mul, abs_of_nonneg hr0]
      nlinarith
    have h6 : |x3| ≤ 1 := by
      have := abs_add_le (x3 - i * r) (i * r)
      rw [sub_add_cancel] at this
      nlinarith
    obtain ⟨h7, h8⟩ := abs_le.1 h6
    exact ⟨h7, by linarith⟩)
  refine ⟨e1, e2, ?_⟩
  rw [← hir]
  refine (e3.trans (Around.near c3)).mono ?_
  have := mul_le_mul_of_nonneg_left hB hu0
  nlinarith

/-- the next phase -/
theorem next_near {rd : K → K} {u : K} (hrd : Near rd u) (hu0 : 0 ≤ u) (hu1 : u ≤ 1 / 8) {dt f B : K} (hdt : 0 < dt) (hB : |f * dt| ≤ B)
    {p q δ : K} (h0 : 0 ≤ p) (h1 : p ≤ 1 + u) (h : Around δ p q) :
    0 ≤ advance rd (decide (1 / dt / 2 ≤ |f|)) (rd (p + rd (f * dt))) ∧
      advance rd (decide (1 / dt / 2 ≤ |f|)) (rd (p + rd (f * dt))) ≤ 1 + u ∧
      Around (δ + 3 * u * (1 + B)) (advance rd (decide (1 / dt / 2 ≤ |f|)) (rd (p + rd (f * dt)))) (Int.fract (q + f * dt)) := by
  set i := f * dt with hi
  have hi0 := abs_nonneg i
  have b1 : |rd i - i| ≤ u * |i| := hrd i
  have b2 : |rd i| ≤ (1 + u) * |i| := hrd.abs_le i
  have c0 : |p + rd i| ≤ 1 + u + (1 + u) * |i| := by
    have := abs_add_le p (rd i)
    rw [abs_of_nonneg h0] at this
    linarith
  have c1 : |rd (p + rd i) - (p + rd i)| ≤ u * (1 + u + (1 + u) * |i|) := (hrd _).trans (mul_le_mul_of_nonneg_left c0 hu0)
  obtain ⟨e1, e2, e3⟩ := advance_near (x := rd (p + rd i)) (o := decide (1 / dt / 2 ≤ |f|)) hrd hu0 hu1 (by
    intro ho
    have hb := incr_lt hdt (of_decide_eq_false ho)
    rw [← hi] at hb
    obtain ⟨h4, h5⟩ := abs_le.1 c1
    obtain ⟨h6, h7⟩ := abs_le.1 b2
    have h8 : u * (1 + u + (1 + u) * |i|) ≤ 1 / 8 * (9 / 8 + 9 / 8 * (1 / 2)) := by
      gcongr
      · linarith
      · linarith
    have h9 : (1 + u) * |i| ≤ 9 / 8 * (1 / 2) := by
      gcongr
      linarith
    norm_num at h8 h9
    constructor
    · linarith
    · linarith)
  refine ⟨e1, e2, ?_⟩
  have s1 : Around (u + u * (1 + u + (1 + u) * |i|)) (advance rd (decide (1 / dt / 2 ≤ |f|)) (rd (p + rd i))) (p + rd i) :=
    e3.trans (Around.near c1)
  have s2 : Around (δ + u * |i|) (p + rd i) (q + i) := h.add b1
  have s3 : Around 0 (q + i) (Int.fract (q + i)) := ⟨⌊q + i⌋, by rw [Int.fract]; simp⟩
  refine ((s1.trans s2).trans s3).mono ?_
  have q0 := mul_le_mul_of_nonneg_left hB hu0
  have q1 : u * u ≤ u := by nlinarith
  have q2 := mul_le_mul_of_nonneg_right q1 hi0
  nlinarith [q0, q1, q2]

/-! ## Two oscillators -/

/-- the second oscillator is the first one but for the phase, before the frame at time `t` -/
structure Osc.Drift (u B dt t : K) (s s' : Osc K) : Prop where
  same : s' = { s with phase := s'.phase }
  low : 0 ≤ s.phase
  high : s.phase ≤ 1 + u
  fresh : s.hasStart = false → s.start = ⊤ ∧ s.started = false
  wait : s.started = false → s.phase = s'.phase
  play : s.started = true → ∃ a : K, s.start = a ∧ a ≤ t ∧ Around (drift u B dt a t) s.phase s'.phase

/-- Two samples at the same time: both silent, or of the same waveform at phases that are close (`a` is the start time), with an increment
of the phase from `A` to `B`. -/
def Tone (rd : K → K) (sine : List K) (u A B dt a t : K) (ty : OscType) (wave : Option (List K)) (v v' : K) : Prop :=
  v = 0 ∧ v' = 0 ∨ ∃ f p p' : K, A ≤ f * dt ∧ |f * dt| ≤ B ∧ 0 ≤ p ∧ p ≤ 1 + u ∧ 0 ≤ p' ∧ p' < 1 ∧ a ≤ t ∧ Around (drift u B dt a t) p p' ∧
    waveform rd sine ty wave p (rd (f * dt)) = some v ∧ waveform id sine ty wave p' (f * dt) = some v'

theorem sample_drift {rd : K → K} {u : K} (hrd : Near rd u) (hu0 : 0 ≤ u) (hu1 : u ≤ 1 / 8) {dt f A B : K} (hdt : 0 < dt) (hA : A ≤ f * dt) (hB : |f * dt| ≤ B)
    {sine : List K} {s s' : Osc K} {t : K} (hd : s.Drift u B dt t s') (hi : s'.Inv) (hl : s'.Loop dt t) {v v' : K} {r r' : Osc K}
    (h : s.sample rd sine dt t f = some (v, r)) (h' : s'.sample id sine dt t f = some (v', r')) :
    r.Drift u B dt (t + dt) r' ∧ r.start = s.start ∧ r.ty = s.ty ∧ r.wave = s.wave ∧
      ∀ b : K, (b : WithTop K) ≤ s.start → Tone rd sine u A B dt b t s.ty s.wave v v' := by
  have hB0 : 0 ≤ B := (abs_nonneg _).trans hB
  have e0 : s'.start = s.start ∧ s'.stop = s.stop ∧ s'.started = s.started ∧ s'.ty = s.ty ∧ s'.wave = s.wave := by
    rw [hd.same]; exact ⟨rfl, rfl, rfl, rfl, rfl⟩
  obtain ⟨e1, e2, e3, e4, e5⟩ := e0
  have hs := sample_spec (sine := sine) (f := f) hdt hi hl
  split at hs
  · rename_i hc
    obtain ⟨a, p', ha, hat, hp', hp0', hp1', he⟩ := hs
    rw [he, e4, e5] at h'
    rw [e1] at ha hc
    rw [e2] at hc
    -- the first phase
    obtain ⟨p, hp, hp0, hp1, hpp⟩ : ∃ p, (s.first rd dt t (rd (f * dt)) (decide (1 / dt / 2 ≤ |f|))) = { s with started := true, phase := p } ∧ 0 ≤ p ∧
        p ≤ 1 + u ∧ Around (drift u B dt a t) p p' := by
      unfold Osc.first
      by_cases hst : s.started = true
      · obtain ⟨b, hb, -, hq⟩ := hd.play hst
        obtain rfl : b = a := WithTop.coe_injective (hb.symm.trans ha)
        rw [if_pos hst]
        refine ⟨s.phase, ?_, hd.low, hd.high, ?_⟩
        · cases s; simp_all
        · rw [hp', e3, if_pos hst]; exact hq
      · have hst' : s.started = false := by simpa using hst
        rw [if_neg hst]
        rw [e3, if_neg hst] at hp'
        by_cases hlt : a < t
        · rw [if_pos (by rw [ha]; exact WithTop.coe_lt_coe.2 hlt), ha, WithTop.untopD_coe]
          have hta : t - a < dt := by
            rcases hl (e3.trans hst') with h1 | h1
            · rw [e2] at h1; exact absurd hc.2 (not_lt.2 h1)
            · exact h1 a (e1.trans ha)
          obtain ⟨k1, k2, k3⟩ := first_near hrd hu0 hu1 hdt hB (d := t - a) (by linarith) hta.le
          refine ⟨_, rfl, k1, k2, ?_⟩
          have k4 : Around 0 (f * (t - a)) p' := by rw [hp']; exact ⟨⌊f * (t - a)⌋, by rw [Int.fract]; simp⟩
          refine (k3.trans k4).mono ?_
          rw [add_zero]
          exact drift_first hu0 hB0 hdt hat
        · rw [if_neg (by rw [ha]; exact fun h => hlt (WithTop.coe_lt_coe.1 h))]
          have hta : t = a := le_antisymm (not_lt.1 hlt) hat
          refine ⟨s.phase, rfl, hd.low, hd.high, ?_⟩
          rw [hp', hd.wait hst', hi.2.2 (e3.trans hst'), hta, sub_self, mul_zero, Int.fract_zero]
          exact Around.rfl' (drift_nonneg hu0 hB0 hdt le_rfl) _
    unfold Osc.sample at h
    rw [if_neg (by push Not; exact hc)] at h
    simp only [hp] at h
    obtain ⟨n1, n2, n3⟩ := next_near hrd hu0 hu1 hdt hB hp0 hp1 hpp
    rw [← drift_next hdt] at n3
    have hfin : ∀ r r' : Osc K, r = { s with started := true, phase := advance rd (decide (1 / dt / 2 ≤ |f|)) (rd (p + rd (f * dt))) } →
        r' = { s' with started := true, phase := Int.fract (p' + f * dt) } → r.Drift u B dt (t + dt) r' := by
      rintro r r' rfl rfl
      refine ⟨?_, n1, n2, fun h1 => ?_, fun h1 => by simp at h1, fun _ => ⟨a, ha, by linarith, n3⟩⟩
      · rw [hd.same]
      · have := (hd.fresh h1).1
        rw [ha] at this
        exact absurd this WithTop.coe_ne_top
    have hbnd : ∀ b : K, (b : WithTop K) ≤ s.start → b ≤ t ∧ Around (drift u B dt b t) p p' := by
      intro b hb
      rw [ha] at hb
      have hb := WithTop.coe_le_coe.1 hb
      exact ⟨hb.trans hat, hpp.mono (drift_mono hu0 hB0 hdt hb le_rfl)⟩
    by_cases ho : 1 / dt / 2 ≤ |f|
    · simp only [ho, decide_true, if_true, Option.map_some, Option.some.injEq, Prod.mk.injEq] at h h'
      obtain ⟨rfl, rfl⟩ := h
      obtain ⟨rfl, rfl⟩ := h'
      refine ⟨hfin _ _ (by rw [decide_eq_true ho]) (by rw [← e4, ← e5]), rfl, rfl, rfl, fun b hb => .inl ⟨rfl, rfl⟩⟩
    · rw [if_neg ho] at h'
      simp only [ho, decide_false, Bool.false_eq_true, if_false] at h
      cases hw : waveform rd sine s.ty s.wave p (rd (f * dt)) with
      | none => rw [hw] at h; cases h
      | some w =>
        cases hw' : waveform id sine s.ty s.wave p' (f * dt) with
        | none => rw [hw'] at h'; cases h'
        | some w' =>
          rw [hw] at h
          rw [hw'] at h'
          simp only [Option.map_some, Option.some.injEq, Prod.mk.injEq] at h h'
          obtain ⟨rfl, rfl⟩ := h
          obtain ⟨rfl, rfl⟩ := h'
          refine ⟨hfin _ _ (by rw [decide_eq_false ho]) (by rw [← e4, ← e5]), rfl, rfl, rfl, fun b hb => .inr ⟨f, p, p', hA, hB, hp0, hp1, hp0', hp1', (hbnd b hb).1, (hbnd b hb).2, hw, hw'⟩⟩
  · rename_i hc
    rw [hs] at h'
    have : s.sample rd sine dt t f = some (0, s) := by
      unfold Osc.sample
      rw [if_pos]
      by_contra hn
      push Not at hn
      rw [e1, e2] at hc
      exact hc hn
    rw [this] at h
    cases h
    cases h'
    refine ⟨⟨hd.same, hd.low, hd.high, hd.fresh, hd.wait, fun h1 => ?_⟩, rfl, rfl, rfl, fun b hb => .inl ⟨rfl, rfl⟩⟩
    obtain ⟨a, h2, h3, h4⟩ := hd.play h1
    exact ⟨a, h2, by linarith, h4.mono (drift_mono hu0 hB0 hdt le_rfl (by linarith))⟩

theorem slow_drift {rd : K → K} {u : K} (hrd : Near rd u) (hu0 : 0 ≤ u) (hu1 : u ≤ 1 / 8) {dt A B : K} (hdt : 0 < dt)
    {sine : List K} (fs : List K) : (∀ f ∈ fs, A ≤ f * dt ∧ |f * dt| ≤ B) → 0 ≤ B → ∀ {s s' : Osc K} {t : K}, s.Drift u B dt t s' → s'.Inv → s'.Loop dt t →
    ∀ {o o' : List K} {r r' : Osc K}, s.slow rd sine dt t fs = some (o, r) → s'.slow id sine dt t fs = some (o', r') →
    r.Drift u B dt (t + dt * fs.length) r' ∧ r.start = s.start ∧ r.ty = s.ty ∧ r.wave = s.wave ∧ o.length = fs.length ∧
      ∀ b : K, (b : WithTop K) ≤ s.start → ∀ (j : Nat) (v v' : K), o[j]? = some v → o'[j]? = some v' → Tone rd sine u A B dt b (t + dt * j) s.ty s.wave v v' := by
  induction fs with
  | nil =>
    intro _ _ s s' t hd _ _ o o' r r' h h'
    cases h
    cases h'
    exact ⟨by simpa using hd, rfl, rfl, rfl, rfl, by simp⟩
  | cons f fs ih =>
    intro hB hB0 s s' t hd hi hl o o' r r' h h'
    rw [Osc.slow] at h h'
    cases hs : s.sample rd sine dt t f with
    | none => rw [hs] at h; cases h
    | some x =>
      obtain ⟨v, s1⟩ := x
      cases hs' : s'.sample id sine dt t f with
      | none => rw [hs'] at h'; cases h'
      | some x' =>
        obtain ⟨v', s1'⟩ := x'
        rw [hs] at h
        rw [hs'] at h'
        simp only [Option.bind_some] at h h'
        obtain ⟨k1, k2, k3, k4, k5⟩ := sample_drift hrd hu0 hu1 hdt (hB f (by simp)).1 (hB f (by simp)).2 hd hi hl hs hs'
        obtain ⟨i1, i2, -⟩ := sample_inv hdt hi hl hs'
        cases hr : s1.slow rd sine dt (t + dt) fs with
        | none => rw [hr] at h; cases h
        | some y =>
          cases hr' : s1'.slow id sine dt (t + dt) fs with
          | none => rw [hr'] at h'; cases h'
          | some y' =>
            rw [hr] at h
            rw [hr'] at h'
            cases h
            cases h'
            obtain ⟨m1, m2, m3, m4, m5, m6⟩ := ih (fun f hf => hB f (by simp [hf])) hB0 k1 i1 i2 (o := y.1) (o' := y'.1) (r := y.2) (r' := y'.2) hr hr'
            refine ⟨?_, m2.trans k2, m3.trans k3, m4.trans k4, by simp [m5], fun b hb j => ?_⟩
            · rw [show t + dt * ((f :: fs).length : K) = t + dt + dt * (fs.length : K) by push_cast [List.length_cons]; ring]
              exact m1
            · intro w w' hw hw'
              cases j with
              | zero =>
                simp only [List.getElem?_cons_zero, Option.some.injEq] at hw hw'
                subst hw hw'
                simpa using k5 b hb
              | succ j =>
                simp only [List.getElem?_cons_succ] at hw hw'
                have := m6 b (by rw [k2]; exact hb) j w w' hw hw'
                rw [k3, k4] at this
                rw [show t + dt * ((j + 1 : Nat) : K) = t + dt + dt * (j : K) by push_cast; ring]
                exact this

theorem Osc.Drift.sendEnded {u B dt t : K} {s s' : Osc K} (h : s.Drift u B dt t s') : s.sendEnded.Drift u B dt t s'.sendEnded := by
  obtain ⟨q, rfl⟩ : ∃ q, s' = { s with phase := q } := ⟨_, h.same⟩
  unfold Osc.sendEnded
  by_cases he : s.ended = true
  · dsimp only
    rw [if_pos he, if_pos he]
    exact h
  · dsimp only
    rw [if_neg he, if_neg he]
    exact ⟨rfl, h.low, h.high, h.fresh, h.wait, h.play⟩

theorem Osc.Drift.later {u B dt t t' : K} (hu : 0 ≤ u) (hB : 0 ≤ B) (hdt : 0 < dt) {s s' : Osc K} (h : s.Drift u B dt t s') (ht : t ≤ t') :
    s.Drift u B dt t' s' := by
  refine ⟨h.same, h.low, h.high, h.fresh, h.wait, fun h1 => ?_⟩
  obtain ⟨a, h2, h3, h4⟩ := h.play h1
  exact ⟨a, h2, h3.trans ht, h4.mono (drift_mono hu hB hdt le_rfl ht)⟩

theorem Osc.Drift.frame {u B dt t : K} {s s' : Osc K} (h : s.Drift u B dt t s') (n : Nat) :
    ({ s with frame := n } : Osc K).Drift u B dt t { s' with frame := n } := by
  obtain ⟨q, rfl⟩ : ∃ q, s' = { s with phase := q } := ⟨_, h.same⟩
  exact ⟨rfl, h.low, h.high, h.fresh, h.wait, h.play⟩

theorem Osc.Drift.adjust {u B dt t : K} {s s' : Osc K} (h : s.Drift u B dt t s') : (s.adjust dt).Drift u B dt t (s'.adjust dt) := by
  obtain ⟨q, rfl⟩ : ∃ q, s' = { s with phase := q } := ⟨_, h.same⟩
  unfold Osc.adjust
  by_cases he : s.started = false ∧ s.start < ((s.frame * dt : K) : WithTop K)
  · dsimp only
    rw [if_pos he, if_pos he]
    refine ⟨rfl, h.low, h.high, fun h1 => ?_, h.wait, fun h1 => ?_⟩
    · have h1 := (h.fresh h1).1
      rw [h1] at he
      exact absurd he.2 not_top_lt
    · exact absurd (he.1.symm.trans h1) (by simp)
  · dsimp only
    rw [if_neg he, if_neg he]
    exact h

/-- one quantum -/
theorem block_drift {rd : K → K} {u : K} (hrd : Near rd u) (hu0 : 0 ≤ u) (hu1 : u ≤ 1 / 8) {dt A B : K} (hdt : 0 < dt) (hB0 : 0 ≤ B)
    {sine : List K} {comp : K → K → K} {count : Nat} {fr de : List K} (hB : ∀ f ∈ freqs comp count fr de, A ≤ f * dt ∧ |f * dt| ≤ B) {s s' : Osc K}
    (hd : s.Drift u B dt (s.frame * dt) s') (hi : s'.Inv) {o o' : List K} {r r' : Osc K}
    (h : s.step rd sine comp dt count (.block fr de) = some (o, r)) (h' : s'.step id sine comp dt count (.block fr de) = some (o', r')) :
    r.Drift u B dt (r.frame * dt) r' ∧ r.frame = s.frame + count ∧ s.start ≤ r.start ∧ r.ty = s.ty ∧ r.wave = s.wave ∧ o.length = o'.length ∧
      ∀ b : K, (b : WithTop K) ≤ s.start → ∀ (j : Nat) (v v' : K), o[j]? = some v → o'[j]? = some v' →
        Tone rd sine u A B dt b ((s.frame + j : Nat) * dt) s.ty s.wave v v' := by
  have hlate : ((s.frame : K) * dt) ≤ ((s.frame + count : Nat) : K) * dt := by
    push_cast
    have : 0 ≤ (count : K) * dt := by positivity
    linarith
  have hse : ∀ q : Osc K, q.sendEnded.start = q.start ∧ q.sendEnded.ty = q.ty ∧ q.sendEnded.wave = q.wave ∧ q.sendEnded.frame = q.frame := by
    intro q; unfold Osc.sendEnded; split <;> simp
  have hadj : s.start ≤ (s.adjust dt).start ∧ (s.adjust dt).ty = s.ty ∧ (s.adjust dt).wave = s.wave ∧ (s.adjust dt).frame = s.frame := by
    unfold Osc.adjust
    simp only
    split
    · rename_i hc; exact ⟨hc.2.le, rfl, rfl, rfl⟩
    · exact ⟨le_rfl, rfl, rfl, rfl⟩
  obtain ⟨e1, e2, e3⟩ : s'.start = s.start ∧ s'.stop = s.stop ∧ s'.frame = s.frame := by rw [hd.same]; exact ⟨rfl, rfl, rfl⟩
  simp only [Osc.step, Osc.process, e1, e2, e3] at h h'
  by_cases c1 : s.stop ≤ ((s.frame * dt : K) : WithTop K)
  · rw [if_pos c1] at h h'
    cases h
    cases h'
    exact ⟨(hd.sendEnded.frame _).later hu0 hB0 hdt hlate, rfl, by rw [(hse s).1], (hse s).2.1, (hse s).2.2.1, rfl, by simp⟩
  · rw [if_neg c1] at h h'
    by_cases c2 : ((s.frame * dt + dt * count : K) : WithTop K) ≤ s.start
    · rw [if_pos c2] at h h'
      by_cases c3 : s.stop ≤ ((s.frame * dt + dt * count : K) : WithTop K)
      · rw [if_pos c3] at h h'
        cases h
        cases h'
        exact ⟨(hd.sendEnded.frame _).later hu0 hB0 hdt hlate, rfl, by rw [(hse s).1], (hse s).2.1, (hse s).2.2.1, rfl, by simp⟩
      · rw [if_neg c3] at h h'
        cases h
        cases h'
        exact ⟨(hd.frame _).later hu0 hB0 hdt hlate, rfl, le_rfl, rfl, rfl, rfl, by simp⟩
    · rw [if_neg c2] at h h'
      have hadj' : (s'.adjust dt).frame = s.frame := by
        unfold Osc.adjust; simp only; split <;> exact e3
      rw [play_eq_slow hdt, hadj.2.2.2] at h
      rw [play_eq_slow hdt, hadj'] at h'
      obtain ⟨i1, i2⟩ := adjust_loop hdt hi
      rw [e3] at i2
      cases hs : (s.adjust dt).slow rd sine dt (s.frame * dt) (freqs comp count fr de) with
      | none => rw [hs] at h; cases h
      | some x =>
        cases hs' : (s'.adjust dt).slow id sine dt (s.frame * dt) (freqs comp count fr de) with
        | none => rw [hs'] at h'; cases h'
        | some x' =>
          obtain ⟨xo, xr⟩ := x
          obtain ⟨xo', xr'⟩ := x'
          obtain ⟨k1, k2, k3, k4, k5, k6⟩ := slow_drift hrd hu0 hu1 hdt _ hB hB0 hd.adjust i1 i2 hs hs'
          have k7 := (slow_inv hdt _ i1 i2 hs').2.2.2.2.2.2.2.2.2.2
          have hlen : (freqs comp count fr de).length = count := by simp [freqs]
          have hstop : xr'.stop = xr.stop := by rw [k1.same]
          rw [hs] at h
          rw [hs'] at h'
          simp only [Option.map_some] at h h'
          rw [hstop] at h'
          rw [show (s.frame : K) * dt + dt * ((freqs comp count fr de).length : K) = ((s.frame + count : Nat) : K) * dt by
            rw [hlen]; push_cast; ring] at k1
          have tones : ∀ b : K, (b : WithTop K) ≤ s.start → ∀ (j : Nat) (v v' : K), xo[j]? = some v → xo'[j]? = some v' →
              Tone rd sine u A B dt b ((s.frame + j : Nat) * dt) s.ty s.wave v v' := by
            intro b hb j v v' hv hv'
            have := k6 b (hb.trans hadj.1) j v v' hv hv'
            rw [hadj.2.1, hadj.2.2.1, show (s.frame : K) * dt + dt * (j : K) = ((s.frame + j : Nat) : K) * dt by push_cast; ring] at this
            exact this
          by_cases c3 : xr.stop ≤ ((s.frame * dt + dt * count : K) : WithTop K)
          · rw [if_pos c3] at h h'
            cases h
            cases h'
            exact ⟨k1.sendEnded.frame _, rfl, by simp only [(hse xr).1, k2]; exact hadj.1, by simp only [(hse xr).2.1, k3, hadj.2.1],
              by simp only [(hse xr).2.2.1, k4, hadj.2.2.1], by rw [k5, k7], tones⟩
          · rw [if_neg c3] at h h'
            cases h
            cases h'
            exact ⟨k1.frame _, rfl, by simp only [k2]; exact hadj.1, by simp only [k3, hadj.2.1], by simp only [k4, hadj.2.2.1], by rw [k5, k7], tones⟩

/-- any number of quanta -/
theorem blocks_drift {rd : K → K} {u : K} (hrd : Near rd u) (hu0 : 0 ≤ u) (hu1 : u ≤ 1 / 8) {dt A B : K} (hdt : 0 < dt) (hB0 : 0 ≤ B)
    {sine : List K} {comp : K → K → K} {count : Nat} {b : K} (bs : List (List K × List K)) :
    (∀ x ∈ bs, ∀ f ∈ freqs comp count x.1 x.2, A ≤ f * dt ∧ |f * dt| ≤ B) → ∀ {s s' : Osc K}, (b : WithTop K) ≤ s.start →
    s.Drift u B dt (s.frame * dt) s' → s'.Inv → ∀ {os os' : List (List K)} {r r' : Osc K},
    s.run rd sine comp dt count (bs.map fun x => .block x.1 x.2) = some (os, r) →
    s'.run id sine comp dt count (bs.map fun x => .block x.1 x.2) = some (os', r') →
    r.Drift u B dt (r.frame * dt) r' ∧ os.length = os'.length ∧ ∀ (k : Nat) (o o' : List K), os[k]? = some o → os'[k]? = some o' → o.length = o'.length ∧
      ∀ (j : Nat) (v v' : K), o[j]? = some v → o'[j]? = some v' →
        Tone rd sine u A B dt b ((s.frame + k * count + j : Nat) * dt) s.ty s.wave v v' := by
  induction bs with
  | nil =>
    intro _ s s' _ hd _ os os' r r' h h'
    cases h
    cases h'
    exact ⟨hd, rfl, by simp⟩
  | cons x bs ih =>
    intro hB s s' hb hd hi os os' r r' h h'
    rw [List.map_cons, Osc.run] at h h'
    cases hs : s.step rd sine comp dt count (.block x.1 x.2) with
    | none => rw [hs] at h; cases h
    | some y =>
      cases hs' : s'.step id sine comp dt count (.block x.1 x.2) with
      | none => rw [hs'] at h'; cases h'
      | some y' =>
        obtain ⟨o, s1⟩ := y
        obtain ⟨o', s1'⟩ := y'
        rw [hs] at h
        rw [hs'] at h'
        simp only [Option.bind_some] at h h'
        obtain ⟨k1, k2, k3, k4, k5, k6, k7⟩ := block_drift hrd hu0 hu1 hdt hB0 (hB x (by simp)) hd hi hs hs'
        cases hr : s1.run rd sine comp dt count (bs.map fun x => .block x.1 x.2) with
        | none => rw [hr] at h; cases h
        | some z =>
          cases hr' : s1'.run id sine comp dt count (bs.map fun x => .block x.1 x.2) with
          | none => rw [hr'] at h'; cases h'
          | some z' =>
            rw [hr] at h
            rw [hr'] at h'
            cases h
            cases h'
            obtain ⟨m0, m1, m2⟩ := ih (fun x hx => hB x (by simp [hx])) (hb.trans k3) k1 (step_inv hdt hi hs') (os := z.1) (os' := z'.1) (r := z.2) (r' := z'.2) hr hr'
            refine ⟨m0, by simp [m1], fun k p p' hp hp' => ?_⟩
            cases k with
            | zero =>
              simp only [List.getElem?_cons_zero, Option.some.injEq] at hp hp'
              subst hp hp'
              exact ⟨k6, by simpa using k7 b hb⟩
            | succ k =>
              simp only [List.getElem?_cons_succ] at hp hp'
              obtain ⟨n1, n2⟩ := m2 k p p' hp hp'
              refine ⟨n1, fun j v v' hv hv' => ?_⟩
              have := n2 j v v' hv hv'
              rw [k2, k4, k5, show s.frame + count + k * count + j = s.frame + (k + 1) * count + j by ring] at this
              exact this

/-! ## Shapes without jumps

The corrections of the sawtooth and the square at their jumps make these continuous, as long as the increment of the phase is positive. -/

/-- Specification: the steps of a table that is closed to a ring are at most `M` divided by the number of its points -/
def Ring (table : List K) (M : K) : Prop :=
  ∀ i, i < table.length → |table.getD ((i + 1) % table.length) 0 - table.getD i 0| * table.length ≤ M

/-- Specification: the shape rises or falls at most by `M` per period. For a sawtooth and a square this needs increments of the phase that
are positive, from `A` to `B`, and `M` depends on the smallest. -/
def Smooth (sine : List K) (u A B M : K) : OscType → Option (List K) → Prop
  | .sine, _ => Ring sine M
  | .custom, some w => Ring w M
  | .triangle, _ => 4 ≤ M
  | .sawtooth, _ => 0 < A ∧ 2 * u ≤ A ∧ B * (1 + u) ≤ 1 / 2 ∧ 9 ≤ M * A
  | .square, _ => 0 < A ∧ 2 * u ≤ A ∧ B * (1 + u) ≤ 1 / 2 ∧ 24 ≤ M * A
  | .custom, none => False

theorem triangle_close {δ p q : K} (h0 : 0 ≤ p) (h1 : p ≤ 9 / 8) (h2 : 0 ≤ q) (h3 : q < 1) (h : Around δ p q) :
    |triangle p - triangle q| ≤ 4 * δ := by
  have b1 : |triangle p| ≤ 1 := by
    rw [abs_le]
    simp only [triangle]
    split_ifs <;> constructor <;> linarith
  have b2 := C44_triangle h2 h3
  obtain ⟨k, hk⟩ := h
  by_cases hd : 1 / 2 ≤ δ
  · have := abs_sub (triangle p) (triangle q)
    linarith
  · push Not at hd
    obtain ⟨k1, k2⟩ := abs_le.1 hk
    have hk1 : (k : K) < 2 := by linarith
    have hk2 : (-2 : K) < k := by linarith
    have hk1 : k < 2 := by exact_mod_cast hk1
    have hk2 : -2 < k := by exact_mod_cast hk2
    obtain rfl | rfl | rfl : k = -1 ∨ k = 0 ∨ k = 1 := by omega
    all_goals
      push_cast at k1 k2
      rw [abs_le]
      simp only [triangle]
      split_ifs <;> constructor <;> linarith

/-- the corrections at the jump, on both sides -/
def bump (y : K) : K := max 0 (1 - y) ^ 2

omit [FloorRing K] in
theorem bump_lip {x y : K} (hx : -1 ≤ x) (hy : -1 ≤ y) : |bump x - bump y| ≤ 4 * |x - y| := by
  have h1 : |max 0 (1 - x) - max 0 (1 - y)| ≤ |x - y| := by
    rcases max_cases 0 (1 - x) with ⟨e, _⟩ | ⟨e, _⟩ <;> rcases max_cases 0 (1 - y) with ⟨e', _⟩ | ⟨e', _⟩ <;> rw [e, e'] <;>
      rcases abs_cases (x - y) with ⟨h, _⟩ | ⟨h, _⟩ <;> rw [h, abs_le] <;> constructor <;> linarith
  have h2 : |max 0 (1 - x) + max 0 (1 - y)| ≤ 4 := by
    rw [abs_of_nonneg (add_nonneg (le_max_left _ _) (le_max_left _ _))]
    have a1 : max 0 (1 - x) ≤ 2 := max_le (by norm_num) (by linarith)
    have a2 : max 0 (1 - y) ≤ 2 := max_le (by norm_num) (by linarith)
    linarith
  unfold bump
  rw [sq_sub_sq, abs_mul]
  exact mul_le_mul h2 h1 (abs_nonneg _) (by norm_num)

omit [FloorRing K] in
theorem blep_eq {t d : K} (hd : 0 < d) (hd2 : d ≤ 1 / 2) : polyBlep t d = bump ((1 - t) / d) - bump (t / d) := by
  unfold polyBlep bump
  by_cases c1 : t < d
  · rw [if_pos c1, max_eq_left (by rw [sub_nonpos, le_div_iff₀ hd]; linarith), max_eq_right (by rw [sub_nonneg, div_le_one hd]; exact c1.le)]
    ring
  · rw [if_neg c1]
    push Not at c1
    rw [max_eq_left (a := (0 : K)) (b := 1 - t / d) (by rw [sub_nonpos, le_div_iff₀ hd]; linarith)]
    by_cases c2 : 1 - d < t
    · rw [if_pos c2, max_eq_right (by rw [sub_nonneg, div_le_one hd]; linarith)]
      ring
    · rw [if_neg c2, max_eq_left (by rw [sub_nonpos, le_div_iff₀ hd]; linarith)]
      ring

/-- a sawtooth that jumps at phase 0, with the correction -/
def saw (x d : K) : K := 2 * x - 1 - polyBlep x d

omit [FloorRing K] in
theorem saw_lip {x y d : K} (hd : 0 < d) (hd2 : d ≤ 1 / 2) (hx : -d ≤ x) (hx1 : x ≤ 1 + d) (hy : -d ≤ y) (hy1 : y ≤ 1 + d) :
    |saw x d - saw y d| ≤ 9 / d * |x - y| := by
  unfold saw
  rw [blep_eq hd hd2, blep_eq hd hd2]
  have h1 := bump_lip (x := (1 - x) / d) (y := (1 - y) / d) (by rw [le_div_iff₀ hd]; linarith) (by rw [le_div_iff₀ hd]; linarith)
  have h2 := bump_lip (x := x / d) (y := y / d) (by rw [le_div_iff₀ hd]; linarith) (by rw [le_div_iff₀ hd]; linarith)
  rw [← sub_div, abs_div, abs_of_pos hd] at h1 h2
  rw [sub_sub_sub_cancel_left, abs_sub_comm y x] at h1
  have h3 : 2 * |x - y| ≤ |x - y| / d := by
    rw [le_div_iff₀ hd]
    nlinarith [abs_nonneg (x - y)]
  have e : 9 / d * |x - y| = 9 * (|x - y| / d) := by ring
  rw [e, abs_le]
  obtain ⟨a1, a2⟩ := abs_le.1 h1
  obtain ⟨b1, b2⟩ := abs_le.1 h2
  obtain ⟨c1, c2⟩ := abs_le.1 (le_refl |x - y|)
  constructor <;> linarith

omit [FloorRing K] in
theorem saw_ends {d : K} (hd : 0 < d) (hd2 : d ≤ 1 / 2) : saw 0 d = 0 ∧ saw 1 d = 0 := by
  have h : max 0 (1 - 1 / d) = 0 := max_eq_left (by rw [sub_nonpos, le_div_iff₀ hd]; linarith)
  unfold saw
  rw [blep_eq hd hd2, blep_eq hd hd2]
  unfold bump
  rw [sub_zero, sub_self, zero_div, h]
  norm_num

/-- the sawtooth is continuous around the period -/
theorem saw_close {x y d δ e : K} (hd : 0 < d) (hd2 : d ≤ 1 / 2) (he : 0 ≤ e) (hed : e ≤ d) (hx : 0 ≤ x) (hx1 : x ≤ 1 + e) (hy : 0 ≤ y)
    (hy1 : y < 1) (h : Around δ x y) : |saw x d - saw y d| ≤ 9 / d * (δ + 2 * e) := by
  have hq : 0 < 9 / d := by positivity
  obtain ⟨k, hk⟩ := h
  have lip : ∀ {a b : K}, 0 ≤ a → a ≤ 1 + d → 0 ≤ b → b ≤ 1 + d → |saw a d - saw b d| ≤ 9 / d * |a - b| :=
    fun h1 h2 h3 h4 => saw_lip hd hd2 (by linarith) h2 (by linarith) h4
  obtain ⟨e0, e1⟩ := saw_ends hd hd2
  obtain ⟨k1, k2⟩ := abs_le.1 hk
  have tri := abs_sub (saw x d) (saw y d)
  rcases lt_trichotomy k 0 with hn | rfl | hp
  · have hk0 : (k : K) ≤ -1 := by exact_mod_cast (by omega : k ≤ -1)
    have s1 := lip hx (by linarith) le_rfl (by linarith)
    have s2 := lip hy (by linarith) zero_le_one (by linarith)
    rw [e0, sub_zero, sub_zero, abs_of_nonneg hx] at s1
    rw [e1, sub_zero, abs_of_neg (show y - 1 < 0 by linarith)] at s2
    have := mul_le_mul_of_nonneg_left (by linarith : x + -(y - 1) ≤ δ + 2 * e) hq.le
    linarith
  · simp only [Int.cast_zero, sub_zero] at hk
    exact (lip hx (by linarith) hy (by linarith)).trans (mul_le_mul_of_nonneg_left (by linarith) hq.le)
  · have hk0 : (1 : K) ≤ k := by exact_mod_cast (by omega : 1 ≤ k)
    have s2 := lip hy (by linarith) le_rfl (by linarith)
    rw [e0, sub_zero, sub_zero, abs_of_nonneg hy] at s2
    have s1 := lip hx (by linarith) zero_le_one (by linarith)
    rw [e1, sub_zero] at s1
    have : |x - 1| + y ≤ δ + 2 * e := by
      rcases abs_cases (x - 1) with ⟨h, -⟩ | ⟨h, -⟩ <;> rw [h] <;> linarith
    have := mul_le_mul_of_nonneg_left this hq.le
    linarith

omit [FloorRing K] in
/-- the sawtooth depends little on the increment -/
theorem saw_incr {x d d' u : K} (hu0 : 0 ≤ u) (hu1 : u ≤ 1 / 8) (hd : 0 < d) (hu : 2 * u ≤ d) (hd2 : d ≤ 1 / 2) (hd3 : d' ≤ 1 / 2)
    (h : |d' - d| ≤ u * d) (hx : 0 ≤ x) (hx1 : x ≤ 1 + u) : |saw x d' - saw x d| ≤ 10 / d * u := by
  obtain ⟨a1, a2⟩ := abs_le.1 h
  have h7 : 7 / 8 * d ≤ d' := by nlinarith
  have hd' : 0 < d' := by linarith
  have hq : |1 / d' - 1 / d| ≤ 8 / 7 * (u / d) := by
    rw [div_sub_div _ _ hd'.ne' hd.ne', abs_div, abs_of_pos (mul_pos hd' hd), div_le_iff₀ (mul_pos hd' hd), one_mul, mul_one, abs_sub_comm]
    have e : 8 / 7 * (u / d) * (d' * d) = 8 / 7 * u * d' := by field_simp
    rw [e]
    nlinarith
  unfold saw
  rw [blep_eq hd hd2, blep_eq hd' hd3]
  have h1 := bump_lip (x := (1 - x) / d') (y := (1 - x) / d) (by rw [le_div_iff₀ hd']; linarith) (by rw [le_div_iff₀ hd]; linarith)
  have h2 := bump_lip (x := x / d') (y := x / d) (by rw [le_div_iff₀ hd']; linarith) (by rw [le_div_iff₀ hd]; linarith)
  rw [div_eq_mul_one_div _ d', div_eq_mul_one_div _ d, ← mul_sub, abs_mul] at h1 h2
  have h3 : |1 - x| * |1 / d' - 1 / d| ≤ 1 * (8 / 7 * (u / d)) := mul_le_mul (abs_le.2 ⟨by linarith, by linarith⟩) hq (abs_nonneg _) zero_le_one
  have h4 : |x| * |1 / d' - 1 / d| ≤ 9 / 8 * (8 / 7 * (u / d)) :=
    mul_le_mul (abs_le.2 ⟨by linarith, by linarith⟩) hq (abs_nonneg _) (by norm_num)
  have e : 10 / d * u = 10 * (u / d) := by ring
  have h5 : 0 ≤ u / d := by positivity
  rw [e, abs_le]
  rw [← div_eq_mul_one_div, ← div_eq_mul_one_div] at h1 h2
  obtain ⟨b1, b2⟩ := abs_le.1 h1
  obtain ⟨c1, c2⟩ := abs_le.1 h2
  constructor <;> linarith

/-- the phase half a period later, with rounding and without -/
theorem half_close {rd : K → K} {u : K} (hrd : Near rd u) (hu0 : 0 ≤ u) (hu1 : u ≤ 1 / 8) {δ p q : K} (h0 : 0 ≤ p) (h1 : p ≤ 1 + u)
    (h2 : 0 ≤ q) (h3 : q < 1) (h : Around δ p q) :
    0 ≤ unroll rd (p + 1 / 2) ∧ unroll rd (p + 1 / 2) ≤ 1 ∧ 0 ≤ unroll id (q + 1 / 2) ∧ unroll id (q + 1 / 2) < 1 ∧
      Around (δ + 5 / 8 * u) (unroll rd (p + 1 / 2)) (unroll id (q + 1 / 2)) ∧
      |2 * (unroll rd (p + 1 / 2) - p) - (if p < 1 / 2 then 1 else -1)| ≤ 5 / 4 * u ∧
      2 * (unroll id (q + 1 / 2) - q) = (if q < 1 / 2 then 1 else -1) := by
  have y : 0 ≤ unroll id (q + 1 / 2) ∧ unroll id (q + 1 / 2) < 1 ∧ Around 0 (q + 1 / 2) (unroll id (q + 1 / 2)) ∧
      2 * (unroll id (q + 1 / 2) - q) = (if q < 1 / 2 then 1 else -1) := by
    unfold unroll
    by_cases c : q < 1 / 2
    · rw [if_neg (by linarith), if_neg (by linarith), if_pos c]
      exact ⟨by linarith, by linarith, Around.rfl' le_rfl _, by ring⟩
    · push Not at c
      rw [if_pos (by linarith), if_neg (not_lt.2 c), id_eq]
      exact ⟨by linarith, by linarith, ⟨1, by simp⟩, by ring⟩
  have x : 0 ≤ unroll rd (p + 1 / 2) ∧ unroll rd (p + 1 / 2) ≤ 1 ∧ Around (5 / 8 * u) (unroll rd (p + 1 / 2)) (p + 1 / 2) ∧
      |2 * (unroll rd (p + 1 / 2) - p) - (if p < 1 / 2 then 1 else -1)| ≤ 5 / 4 * u := by
    unfold unroll
    by_cases c : p < 1 / 2
    · rw [if_neg (by linarith), if_neg (by linarith), if_pos c]
      refine ⟨by linarith, by linarith, Around.rfl' (by positivity) _, ?_⟩
      rw [show 2 * (p + 1 / 2 - p) - 1 = (0 : K) by ring, abs_zero]
      positivity
    · push Not at c
      rw [if_pos (by linarith), if_neg (not_lt.2 c)]
      have hr := hrd (p + 1 / 2 - 1)
      rw [abs_of_nonneg (show 0 ≤ p + 1 / 2 - 1 by linarith)] at hr
      have hr2 : u * (p + 1 / 2 - 1) ≤ 5 / 8 * u := by nlinarith
      have hr3 : u * (p + 1 / 2 - 1) ≤ p + 1 / 2 - 1 := by nlinarith
      obtain ⟨r1, r2⟩ := abs_le.1 hr
      refine ⟨by linarith, by linarith, ⟨-1, abs_le.2 ⟨?_, ?_⟩⟩, abs_le.2 ⟨?_, ?_⟩⟩
      · push_cast; linarith
      · push_cast; linarith
      · linarith
      · linarith
  refine ⟨x.1, x.2.1, y.1, y.2.1, ?_, x.2.2.2, y.2.2.2⟩
  have h4 : Around δ (p + 1 / 2) (q + 1 / 2) := by
    have := h.add (c := (1 / 2 : K)) (d := 1 / 2) (δ' := 0) (by simp)
    rwa [add_zero] at this
  exact ((x.2.2.1.trans h4).trans y.2.2.1).mono (by linarith)

theorem incr_close {rd : K → K} {u : K} (hrd : Near rd u) {A d : K} (hA : 0 < A) (hd : A ≤ d) (hu0 : 0 ≤ u) (hd2 : d * (1 + u) ≤ 1 / 2) :
    0 < d ∧ d ≤ 1 / 2 ∧ rd d ≤ 1 / 2 ∧ |rd d - d| ≤ u * d := by
  have hd0 : 0 < d := by linarith
  have h := hrd d
  rw [abs_of_pos hd0] at h
  have := (abs_le.1 h).2
  exact ⟨hd0, by nlinarith, by linarith, h⟩

/-- the sawtooth with rounding -/
theorem sawtooth_close {rd : K → K} {u : K} (hrd : Near rd u) (hu0 : 0 ≤ u) (hu1 : u ≤ 1 / 8) {A d M : K} (hA : 0 < A) (hu : 2 * u ≤ A)
    (hd : A ≤ d) (hd2 : d * (1 + u) ≤ 1 / 2) {δ p q : K} (h0 : 0 ≤ p) (h1 : p ≤ 1 + u) (h2 : 0 ≤ q) (h3 : q < 1) (h : Around δ p q) (hδ : 0 ≤ δ)
    (hM : 9 ≤ M * A) : |sawtooth rd p (rd d) - sawtooth id q d| ≤ M * (δ + 2 * u) := by
  obtain ⟨i1, i2, i3, i4⟩ := incr_close hrd hA hd hu0 hd2
  obtain ⟨x0, x1, y0, y1, hxy, -, -⟩ := half_close hrd hu0 hu1 h0 h1 h2 h3 h
  have s1 := saw_incr hu0 hu1 i1 (hu.trans hd) i2 i3 i4 x0 (by linarith)
  have s2 := saw_close i1 i2 le_rfl i1.le x0 (by linarith) y0 y1 hxy
  have hMd : 9 / d ≤ M := by
    rw [div_le_iff₀ i1]
    have : 0 < M := by by_contra hn; nlinarith
    nlinarith
  have tri := abs_add_le (saw (unroll rd (p + 1 / 2)) (rd d) - saw (unroll rd (p + 1 / 2)) d)
    (saw (unroll rd (p + 1 / 2)) d - saw (unroll id (q + 1 / 2)) d)
  rw [sub_add_sub_cancel] at tri
  have fin : 9 / d * (δ + 2 * u) ≤ M * (δ + 2 * u) := mul_le_mul_of_nonneg_right hMd (by positivity)
  have e1 : 9 / d * (δ + 2 * u) = 9 * (δ / d) + 18 * (u / d) := by ring
  have e2 : 9 / d * (δ + 5 / 8 * u + 2 * 0) = 9 * (δ / d) + 45 / 8 * (u / d) := by ring
  have e3 : 10 / d * u = 10 * (u / d) := by ring
  have : 0 ≤ u / d := by positivity
  refine le_trans (show |sawtooth rd p (rd d) - sawtooth id q d| ≤ _ from tri) ?_
  linarith

/-- the square with rounding -/
theorem square_close {rd : K → K} {u : K} (hrd : Near rd u) (hu0 : 0 ≤ u) (hu1 : u ≤ 1 / 8) {A d M : K} (hA : 0 < A) (hu : 2 * u ≤ A)
    (hd : A ≤ d) (hd2 : d * (1 + u) ≤ 1 / 2) {δ p q : K} (h0 : 0 ≤ p) (h1 : p ≤ 1 + u) (h2 : 0 ≤ q) (h3 : q < 1) (h : Around δ p q) (hδ : 0 ≤ δ)
    (hM : 24 ≤ M * A) : |square rd p (rd d) - square id q d| ≤ M * (δ + 2 * u) := by
  obtain ⟨i1, i2, i3, i4⟩ := incr_close hrd hA hd hu0 hd2
  obtain ⟨x0, x1, y0, y1, hxy, hx, hy⟩ := half_close hrd hu0 hu1 h0 h1 h2 h3 h
  have s1 := saw_incr hu0 hu1 i1 (hu.trans hd) i2 i3 i4 x0 (by linarith)
  have s2 := saw_close i1 i2 le_rfl i1.le x0 (by linarith) y0 y1 hxy
  have s3 := saw_incr hu0 hu1 i1 (hu.trans hd) i2 i3 i4 h0 h1
  have s4 := saw_close i1 i2 hu0 (by linarith) h0 h1 h2 h3 h
  have hMd : 24 / d ≤ M := by
    rw [div_le_iff₀ i1]
    have : 0 < M := by by_contra hn; nlinarith
    nlinarith
  have fin : 24 / d * (δ + 2 * u) ≤ M * (δ + 2 * u) := mul_le_mul_of_nonneg_right hMd (by positivity)
  have e1 : 24 / d * (δ + 2 * u) = 24 * (δ / d) + 48 * (u / d) := by ring
  have e2 : 9 / d * (δ + 5 / 8 * u + 2 * 0) = 9 * (δ / d) + 45 / 8 * (u / d) := by ring
  have e3 : 10 / d * u = 10 * (u / d) := by ring
  have e4 : 9 / d * (δ + 2 * u) = 9 * (δ / d) + 18 * (u / d) := by ring
  have hud : u ≤ u / d := by rw [le_div_iff₀ i1]; nlinarith
  have hdd : 0 ≤ δ / d := by positivity
  refine le_trans ?_ fin
  rw [e1]
  rw [e2] at s2
  rw [e3] at s1 s3
  rw [e4] at s4
  unfold saw at s1 s2 s3 s4
  unfold square
  rw [abs_le] at s1 s2 s3 s4 hx ⊢
  constructor <;> linarith [s1.1, s1.2, s2.1, s2.2, s3.1, s3.2, s4.1, s4.2, hx.1, hx.2]

/-- the table, repeated -/
def ring (table : List K) (n : Nat) : K := table.getD (n % table.length) 0

theorem ring_step {table : List K} {M : K} (hM : Ring table M) (hne : 0 < table.length) (n : Nat) :
    |ring table (n + 1) - ring table n| ≤ M / table.length := by
  have hl : (0 : K) < table.length := by exact_mod_cast hne
  have := hM (n % table.length) (Nat.mod_lt _ hne)
  rw [Nat.mod_add_mod] at this
  rw [le_div_iff₀ hl]
  exact this

theorem ring_steps {table : List K} {M : K} (hM : Ring table M) (hne : 0 < table.length) (n m : Nat) :
    |ring table (n + m) - ring table n| ≤ M / table.length * m := by
  induction m with
  | zero => simp
  | succ m ih =>
    have h1 := ring_step hM hne (n + m)
    have h2 := abs_add_le (ring table (n + m + 1) - ring table (n + m)) (ring table (n + m) - ring table n)
    rw [sub_add_sub_cancel] at h2
    push_cast
    rw [← add_assoc]
    linarith

/-- the value between two points -/
def ringAt (table : List K) (n : Nat) (k : K) : K := ring table n * (1 - k) + ring table (n + 1) * k

theorem ringAt_le {table : List K} {M : K} (hM : Ring table M) (hne : 0 < table.length) {n m : Nat} {k l : K} (hk0 : 0 ≤ k) (hk1 : k < 1)
    (hl0 : 0 ≤ l) (hl1 : l < 1) (h : (n : K) + k ≤ m + l) : |ringAt table m l - ringAt table n k| ≤ M / table.length * (m + l - (n + k)) := by
  have hM0 : 0 ≤ M / table.length := (abs_nonneg _).trans (ring_step hM hne 0)
  have hnm : n ≤ m := by
    have : (n : K) < (m + 1 : Nat) := by push_cast; linarith
    have : n < m + 1 := by exact_mod_cast this
    omega
  obtain ⟨d, rfl⟩ := Nat.exists_eq_add_of_le hnm
  unfold ringAt
  cases d with
  | zero =>
    rw [Nat.add_zero] at h ⊢
    have h1 := ring_step hM hne n
    rw [show ring table n * (1 - l) + ring table (n + 1) * l - (ring table n * (1 - k) + ring table (n + 1) * k) =
      (ring table (n + 1) - ring table n) * (l - k) by ring, abs_mul, abs_of_nonneg (by linarith : 0 ≤ l - k)]
    rw [show (n : K) + l - (n + k) = l - k by ring]
    have : 0 ≤ l - k := by linarith
    gcongr
  | succ d =>
    have h1 := ring_step hM hne n
    have h2 := ring_steps hM hne (n + 1) d
    have h3 := ring_step hM hne (n + (d + 1))
    rw [show n + 1 + d = n + (d + 1) by ring] at h2
    rw [show ring table (n + (d + 1)) * (1 - l) + ring table (n + (d + 1) + 1) * l - (ring table n * (1 - k) + ring table (n + 1) * k) =
      (ring table (n + (d + 1) + 1) - ring table (n + (d + 1))) * l + (ring table (n + (d + 1)) - ring table (n + 1)) +
        (ring table (n + 1) - ring table n) * (1 - k) by ring]
    refine (abs_add_three _ _ _).trans ?_
    rw [abs_mul, abs_mul, abs_of_nonneg hl0, abs_of_nonneg (by linarith : 0 ≤ 1 - k)]
    have a1 := mul_le_mul_of_nonneg_right h3 hl0
    have a2 := mul_le_mul_of_nonneg_right h1 (by linarith : 0 ≤ 1 - k)
    push_cast
    linarith

theorem ringAt_close {table : List K} {M : K} (hM : Ring table M) (hne : 0 < table.length) {n m : Nat} {k l : K} (hk0 : 0 ≤ k) (hk1 : k < 1)
    (hl0 : 0 ≤ l) (hl1 : l < 1) : |ringAt table n k - ringAt table m l| ≤ M / table.length * |(n : K) + k - (m + l)| := by
  rcases le_total ((n : K) + k) (m + l) with h | h
  · rw [abs_sub_comm, abs_sub_comm ((n : K) + k), abs_of_nonneg (by linarith : 0 ≤ (m : K) + l - (n + k))]
    exact ringAt_le hM hne hk0 hk1 hl0 hl1 h
  · rw [abs_of_nonneg (by linarith : 0 ≤ (n : K) + k - (m + l))]
    exact ringAt_le hM hne hl0 hl1 hk0 hk1 h

theorem ringAt_add (table : List K) (n c : Nat) (k : K) : ringAt table (n + table.length * c) k = ringAt table n k := by
  unfold ringAt ring
  rw [show n + table.length * c + 1 = n + 1 + table.length * c by ring, Nat.add_mul_mod_self_left, Nat.add_mul_mod_self_left]

/-- what a lookup gives -/
theorem lookup_ring {rd : K → K} {table : List K} {p v : K} (hpos : 0 ≤ rd (p * table.length)) (h : lookup rd table p = some v) :
    ∃ (i : Nat) (k : K), 0 < table.length ∧ 0 ≤ k ∧ k < 1 ∧ rd (p * table.length) = i + k ∧ v = ringAt table i k := by
  obtain ⟨i, hi⟩ : ∃ i : Nat, ⌊rd (p * (table.length : K))⌋ = i := Int.eq_ofNat_of_zero_le (Int.floor_nonneg.2 hpos)
  unfold lookup at h
  simp only [hi, Int.toNat_natCast, Int.cast_natCast] at h
  have f1 := Int.floor_le (rd (p * (table.length : K)))
  have f2 := Int.lt_floor_add_one (rd (p * (table.length : K)))
  rw [hi, Int.cast_natCast] at f1 f2
  cases ha : table[i]? with
  | none => rw [ha] at h; cases h
  | some a =>
    obtain ⟨hlt, ha'⟩ := List.getElem?_eq_some_iff.1 ha
    rw [ha] at h
    simp only [Option.bind_some] at h
    have hj : (if i + 1 = table.length then 0 else i + 1) = (i + 1) % table.length := by
      split
      · rename_i h; rw [h, Nat.mod_self]
      · rw [Nat.mod_eq_of_lt (by omega)]
    rw [hj] at h
    have hne : 0 < table.length := by omega
    have hjl := Nat.mod_lt (i + 1) hne
    rw [List.getElem?_eq_getElem hjl, Option.map_some, Option.some.injEq] at h
    refine ⟨i, rd (p * table.length) - i, hne, by linarith, by linarith, by ring, ?_⟩
    rw [← h]
    unfold ringAt ring
    rw [Nat.mod_eq_of_lt hlt, List.getD_eq_getElem _ _ hlt, List.getD_eq_getElem _ _ hjl, ha']

theorem lookup_close {rd : K → K} {u : K} (hrd : Near rd u) (hu0 : 0 ≤ u) (hu1 : u ≤ 1 / 8) {table : List K} {M : K} (hM : Ring table M)
    {p q δ v w : K} (h0 : 0 ≤ p) (h1 : p ≤ 1 + u) (h2 : 0 ≤ q) (h : Around δ p q) (hv : lookup rd table p = some v)
    (hw : lookup id table q = some w) : |v - w| ≤ M * (δ + 2 * u) := by
  have hl : (0 : K) ≤ table.length := Nat.cast_nonneg _
  have hpl : 0 ≤ p * table.length := mul_nonneg h0 hl
  obtain ⟨i, k, hne, k0, k1, e1, rfl⟩ := lookup_ring (hrd.nonneg (by linarith) hpl) hv
  obtain ⟨j, l, -, l0, l1, e2, rfl⟩ := lookup_ring (rd := id) (by simpa using mul_nonneg h2 hl) hw
  have hl' : (0 : K) < table.length := by exact_mod_cast hne
  have hM0 : 0 ≤ M / table.length := (abs_nonneg _).trans (ring_step hM hne 0)
  obtain ⟨c, hc⟩ := h
  -- the distance of the positions
  have hr := hrd (p * table.length)
  rw [e1, abs_of_nonneg hpl] at hr
  simp only [id_eq] at e2
  have hdist : |(i : K) + k - (j + l) - c * table.length| ≤ table.length * (δ + 2 * u) := by
    rw [← e2, show (i : K) + k - q * table.length - c * table.length = (i + k - p * table.length) + (p - q - c) * table.length by ring]
    refine (abs_add_le _ _).trans ?_
    rw [abs_mul, abs_of_nonneg hl]
    have a1 := mul_le_mul_of_nonneg_right hc hl
    have a2 : u * (p * table.length) ≤ 2 * u * table.length := by
      rw [← mul_assoc]
      have : u * p ≤ 2 * u := by nlinarith
      gcongr
    linarith
  have hfin : |ringAt table i k - ringAt table j l| ≤ M / table.length * |(i : K) + k - (j + l) - c * table.length| := by
    rcases Int.eq_nat_or_neg c with ⟨n, rfl | rfl⟩
    · have := ringAt_close hM hne (n := i) (m := j + table.length * n) k0 k1 l0 l1
      rw [ringAt_add] at this
      push_cast at this ⊢
      rw [show (i : K) + k - (j + l) - n * table.length = i + k - (j + table.length * n + l) by ring]
      exact this
    · have := ringAt_close hM hne (n := i + table.length * n) (m := j) k0 k1 l0 l1
      rw [ringAt_add] at this
      push_cast at this ⊢
      rw [show (i : K) + k - (j + l) - -n * table.length = i + table.length * n + k - (j + l) by ring]
      exact this
  refine hfin.trans ((mul_le_mul_of_nonneg_left hdist hM0).trans (le_of_eq ?_))
  field_simp

/-- close phases give close samples -/
theorem Tone.close {rd : K → K} {u : K} (hrd : Near rd u) (hu0 : 0 ≤ u) (hu1 : u ≤ 1 / 8) {sine : List K} {A B dt a t M : K} (hB : 0 ≤ B) (hdt : 0 < dt)
    {ty : OscType} {wave : Option (List K)} (hs : Smooth sine u A B M ty wave) {v v' : K} (h : Tone rd sine u A B dt a t ty wave v v') :
    (t < a → v = 0) ∧ (a ≤ t → 0 ≤ M → |v - v'| ≤ M * (drift u B dt a t + 2 * u)) := by
  rcases h with ⟨rfl, rfl⟩ | ⟨f, p, p', hf1, hf2, h0, h1, h2, h3, hat, hd, hv, hw⟩
  · refine ⟨fun _ => rfl, fun h hM => ?_⟩
    rw [sub_self, abs_zero]
    have := drift_nonneg hu0 hB hdt h
    positivity
  · refine ⟨fun h => absurd hat (not_le.2 h), fun h hM => ?_⟩
    cases ty with
    | sine => exact lookup_close hrd hu0 hu1 hs h0 h1 h2 hd hv hw
    | triangle =>
      simp only [waveform, Option.some.injEq] at hv hw
      subst hv hw
      have h4 : (4 : K) ≤ M := hs
      have := triangle_close h0 (by linarith) h2 h3 hd
      have := drift_nonneg hu0 hB hdt h
      nlinarith
    | custom =>
      cases wave with
      | none => cases hv
      | some w => exact lookup_close hrd hu0 hu1 hs h0 h1 h2 hd hv hw
    | square =>
      simp only [waveform, Option.some.injEq] at hv hw
      subst hv hw
      obtain ⟨s1, s2, s3, s4⟩ := hs
      exact square_close hrd hu0 hu1 s1 s2 hf1 (by nlinarith [(abs_le.1 hf2).2]) h0 h1 h2 h3 hd (drift_nonneg hu0 hB hdt h) s4
    | sawtooth =>
      simp only [waveform, Option.some.injEq] at hv hw
      subst hv hw
      obtain ⟨s1, s2, s3, s4⟩ := hs
      exact sawtooth_close hrd hu0 hu1 s1 s2 hf1 (by nlinarith [(abs_le.1 hf2).2]) h0 h1 h2 h3 hd (drift_nonneg hu0 hB hdt h) s4

/-- C117: an oscillator as in C44, whose phase is computed with a rounding of relative error `u` (`f64`: `2 ^ (-53)`, see
`Float.rnd_near`), and whose increments of the phase are at most `B` (1/2 for frequencies up to Nyquist). The shape is without jumps: it
rises or falls at most by `M` per period (triangle: 4; sawtooth: 9 divided by the smallest increment `A`, which is positive; square: 24
divided by it). If it does not panic (see `C44_negated_rounding`), every sample is that of the
exact oscillator up to `M` times `u * ((1 + B) * (5 + 3 * n) + 2)`, where `n` is the number of frames since the start time. -/
theorem C117_tune {rd : K → K} {u : K} (hrd : Near rd u) (hu0 : 0 ≤ u) (hu1 : u ≤ 1 / 8) {dt A B : K} (hdt : 0 < dt) {sine : List K}
    (hne : sine ≠ []) {comp : K → K → K} {count : Nat} (hcount : 0 < count)
    {ty : OscType} {wave : Option (List K)} (hw : ∀ w, wave = some w → w ≠ []) (hty : ty = .custom → wave ≠ none) {F : Nat → K}
    {a : K} (ha : 0 ≤ a) {z : Option K} (hz : ∀ v, z = some v → 0 ≤ v) {bs : List (List K × List K)}
    (hb : ∀ (k : Nat) (b : List K × List K), bs[k]? = some b → freqs comp count b.1 b.2 = (List.range count).map fun j => F (k * count + j))
    (hA : ∀ i, A ≤ F i * dt) (hB : ∀ i, |F i * dt| ≤ B) {M : K} (hM : 0 ≤ M) (hs : Smooth sine u A B M (if wave = none then ty else .custom) wave) {os : List (List K)} {s : Osc K}
    (h : (Osc.new ty wave).run rd sine comp dt count (.start a :: (z.toList.map .stop ++ bs.map fun b => .block b.1 b.2)) = some (os, s)) :
    ∃ outs, os = [] :: (z.toList.map (fun _ => []) ++ outs) ∧ outs.length = bs.length ∧
      ∀ (k : Nat) (o : List K), outs[k]? = some o → ∀ j, j < count →
        (((k * count + j : Nat) : K) * dt < a → o.getD j 0 = 0) ∧
        (a ≤ ((k * count + j : Nat) : K) * dt →
          |o.getD j 0 - tuneAt sine dt count (if wave = none then ty else .custom) wave F a (z.elim ⊤ fun v => (v : WithTop K)) (k * count + j)| ≤
            M * (u * (1 + B) * (5 + 3 * (((k * count + j : Nat) : K) - a / dt)) + 2 * u)) := by
  obtain ⟨outs', s', h', hlen', hval⟩ := C44_tune hdt hne hcount hw hty ha hz hb
  have hB0 : 0 ≤ B := (abs_nonneg _).trans (hB 0)
  have hnew : (Osc.new ty wave : Osc K).ty = (if wave = none then ty else .custom) ∧ (Osc.new ty wave : Osc K).wave = wave ∧
      (Osc.new ty wave : Osc K).phase = 0 ∧ (Osc.new ty wave : Osc K).started = false ∧ (Osc.new ty wave : Osc K).frame = 0 ∧
      (Osc.new ty wave : Osc K).hasStart = false := by
    cases wave <;> simp [Osc.new]
  obtain ⟨n1, n2, n3, n4, n5, n6⟩ := hnew
  have hBf : ∀ x ∈ bs, ∀ f ∈ freqs comp count x.1 x.2, A ≤ f * dt ∧ |f * dt| ≤ B := by
    intro x hx f hf
    obtain ⟨k, hk, rfl⟩ := List.getElem_of_mem hx
    rw [hb k _ (List.getElem?_eq_getElem hk)] at hf
    obtain ⟨j, -, rfl⟩ := List.mem_map.1 hf
    exact ⟨hA _, hB _⟩
  -- the state before the first quantum
  have key : ∀ (st : Osc K), st.ty = (Osc.new ty wave : Osc K).ty → st.wave = (Osc.new ty wave : Osc K).wave → st.phase = 0 → st.started = false → st.frame = 0 →
      st.hasStart = true → st.start = a → ∀ os1 : List (List K), ∀ r r' : Osc K,
      st.run rd sine comp dt count (bs.map fun b => .block b.1 b.2) = some (os1, r) →
      st.run id sine comp dt count (bs.map fun b => .block b.1 b.2) = some (outs', r') →
      os1.length = bs.length ∧ ∀ (k : Nat) (o : List K), os1[k]? = some o → ∀ j, j < count →
        (((k * count + j : Nat) : K) * dt < a → o.getD j 0 = 0) ∧
        (a ≤ ((k * count + j : Nat) : K) * dt →
          |o.getD j 0 - tuneAt sine dt count (if wave = none then ty else .custom) wave F a (z.elim ⊤ fun v => (v : WithTop K)) (k * count + j)| ≤
            M * (u * (1 + B) * (5 + 3 * (((k * count + j : Nat) : K) - a / dt)) + 2 * u)) := by
    intro st t1 t2 t3 t4 t5 t6 t7 os1 r r' hr hr'
    have hdr : st.Drift u B dt (st.frame * dt) st := by
      refine ⟨rfl, by rw [t3], by rw [t3]; linarith, (fun hc => by rw [t6] at hc; cases hc), fun _ => rfl, (fun hc => by rw [t4] at hc; cases hc)⟩
    obtain ⟨-, d1, d2⟩ := blocks_drift hrd hu0 hu1 hdt hB0 (b := a) bs hBf (by rw [t7]) hdr
      ⟨by rw [t3], by rw [t3]; exact one_pos, fun _ => t3⟩ hr hr'
    refine ⟨d1.trans hlen', fun k o ho j hj => ?_⟩
    have hk : k < outs'.length := by rw [← d1]; exact (List.getElem?_eq_some_iff.1 ho).1
    obtain ⟨d3, d4⟩ := d2 k o outs'[k] ho (List.getElem?_eq_getElem hk)
    have hv' := hval k outs'[k] (List.getElem?_eq_getElem hk) j hj
    have hsm : Smooth sine u A B M st.ty st.wave := by rw [t1, t2, n1, n2]; exact hs
    rw [← hv']
    by_cases hjl : j < o.length
    · have ht := d4 j o[j] (outs'[k][j]'(by omega)) (List.getElem?_eq_getElem hjl) (List.getElem?_eq_getElem (by omega))
      rw [t5, Nat.zero_add] at ht
      obtain ⟨c1, c2⟩ := ht.close hrd hu0 hu1 hB0 hdt hsm
      rw [List.getD_eq_getElem _ _ hjl, List.getD_eq_getElem _ _ (by omega : j < outs'[k].length)]
      refine ⟨c1, fun hat => ?_⟩
      have := c2 hat hM
      unfold drift at this
      rw [sub_div, mul_div_cancel_right₀ _ hdt.ne'] at this
      exact this
    · rw [List.getD_eq_default _ _ (by omega : o.length ≤ j), List.getD_eq_default _ _ (by omega : outs'[k].length ≤ j), sub_self, abs_zero]
      refine ⟨fun _ => rfl, fun hat => ?_⟩
      have : a / dt ≤ ((k * count + j : Nat) : K) := by rw [div_le_iff₀ hdt]; exact hat
      have : 0 ≤ ((k * count + j : Nat) : K) - a / dt := by linarith
      positivity
  simp only [Osc.run, Osc.step, n6] at h h'
  rw [if_neg (by simpa using ha), Option.bind_some] at h h'
  cases z with
  | none =>
    simp only [Option.toList_none, List.map_nil, List.nil_append] at h h' ⊢
    cases hr : ({ Osc.new ty wave with hasStart := true, start := (a : WithTop K) } : Osc K).run rd sine comp dt count (bs.map fun b => .block b.1 b.2) with
    | none => rw [hr] at h; cases h
    | some x =>
      cases hr' : ({ Osc.new ty wave with hasStart := true, start := (a : WithTop K) } : Osc K).run id sine comp dt count (bs.map fun b => .block b.1 b.2) with
      | none => rw [hr'] at h'; cases h'
      | some x' =>
        rw [hr] at h
        rw [hr'] at h'
        simp only [Option.map_some, Option.some.injEq, Prod.mk.injEq, List.cons.injEq, true_and] at h h'
        obtain ⟨rfl, rfl⟩ := h
        obtain ⟨rfl, rfl⟩ := h'
        have := key { Osc.new ty wave with hasStart := true, start := (a : WithTop K) } rfl rfl n3 n4 n5 rfl rfl x.1 x.2 x'.2 hr hr'
        exact ⟨x.1, rfl, this⟩
  | some v =>
    simp only [Option.toList_some, List.map_cons, List.map_nil, List.singleton_append, Osc.run, Osc.step] at h h' ⊢
    rw [if_neg (by simpa using hz v rfl), Option.bind_some] at h h'
    cases hr : ({ Osc.new ty wave with hasStart := true, start := (a : WithTop K), stop := (v : WithTop K) } : Osc K).run rd sine comp dt count
        (bs.map fun b => .block b.1 b.2) with
    | none => rw [hr] at h; cases h
    | some x =>
      cases hr' : ({ Osc.new ty wave with hasStart := true, start := (a : WithTop K), stop := (v : WithTop K) } : Osc K).run id sine comp dt count
          (bs.map fun b => .block b.1 b.2) with
      | none => rw [hr'] at h'; cases h'
      | some x' =>
        rw [hr] at h
        rw [hr'] at h'
        simp only [Option.map_some, Option.some.injEq, Prod.mk.injEq, List.cons.injEq, true_and] at h h'
        obtain ⟨rfl, rfl⟩ := h
        obtain ⟨rfl, rfl⟩ := h'
        have := key { Osc.new ty wave with hasStart := true, start := (a : WithTop K), stop := (v : WithTop K) } rfl rfl n3 n4 n5 rfl rfl x.1 x.2 x'.2 hr hr'
        exact ⟨x.1, rfl, this⟩

/-! ## Without a table there is no panic -/

theorem waveform_some (rd : K → K) (sine : List K) {ty : OscType} (h1 : ty ≠ .sine) (h2 : ty ≠ .custom) (wave : Option (List K)) (p f : K) :
    ∃ v, waveform rd sine ty wave p f = some v := by
  cases ty <;> simp_all [waveform]

theorem slow_some (rd : K → K) (sine : List K) (dt : K) (fs : List K) : ∀ (s : Osc K) (t : K), s.ty ≠ .sine → s.ty ≠ .custom →
    ∃ o r, s.slow rd sine dt t fs = some (o, r) ∧ r.ty = s.ty := by
  induction fs with
  | nil => exact fun s t _ _ => ⟨[], s, rfl, rfl⟩
  | cons f fs ih =>
    intro s t h1 h2
    have : ∃ v r, s.sample rd sine dt t f = some (v, r) ∧ r.ty = s.ty := by
      have hf : (s.first rd dt t (rd (f * dt)) (decide (1 / dt / 2 ≤ |f|))).ty = s.ty := by unfold Osc.first; split <;> rfl
      unfold Osc.sample
      dsimp only
      split
      · exact ⟨_, _, rfl, rfl⟩
      · by_cases ho : 1 / dt / 2 ≤ |f|
        · rw [if_pos (decide_eq_true ho)]
          exact ⟨_, _, rfl, hf⟩
        · rw [if_neg (by rw [decide_eq_false ho]; simp)]
          obtain ⟨v, hv⟩ := waveform_some rd sine (fun h => h1 (hf.symm.trans h)) (fun h => h2 (hf.symm.trans h))
            (s.first rd dt t (rd (f * dt)) (decide (1 / dt / 2 ≤ |f|))).wave (s.first rd dt t (rd (f * dt)) (decide (1 / dt / 2 ≤ |f|))).phase (rd (f * dt))
          rw [hv]
          exact ⟨_, _, rfl, hf⟩
    obtain ⟨v, r, e1, e2⟩ := this
    obtain ⟨o, q, e3, e4⟩ := ih r (t + dt) (by rw [e2]; exact h1) (by rw [e2]; exact h2)
    exact ⟨v :: o, q, by rw [Osc.slow, e1, Option.bind_some, e3, Option.map_some], e4.trans e2⟩

theorem fast_some (rd : K → K) (sine : List K) (f : K) (n : Nat) : ∀ (s : Osc K), s.ty ≠ .sine → s.ty ≠ .custom →
    ∃ o r, s.fast rd sine f n = some (o, r) ∧ r.ty = s.ty := by
  induction n with
  | zero => exact fun s _ _ => ⟨[], s, rfl, rfl⟩
  | succ n ih =>
    intro s h1 h2
    obtain ⟨v, hv⟩ := waveform_some rd sine h1 h2 s.wave s.phase f
    obtain ⟨o, q, e3, e4⟩ := ih { s with phase := unroll rd (rd (s.phase + f)) } h1 h2
    exact ⟨v :: o, q, by rw [Osc.fast, hv, Option.bind_some, e3, Option.map_some], e4⟩

theorem blocks_some (rd : K → K) (sine : List K) (comp : K → K → K) (dt : K) (count : Nat) (bs : List (List K × List K)) :
    ∀ (s : Osc K), s.ty ≠ .sine → s.ty ≠ .custom → ∃ os r, s.run rd sine comp dt count (bs.map fun b => .block b.1 b.2) = some (os, r) := by
  induction bs with
  | nil => exact fun s _ _ => ⟨[], s, rfl⟩
  | cons b bs ih =>
    intro s h1 h2
    have : ∃ o r, s.step rd sine comp dt count (.block b.1 b.2) = some (o, r) ∧ r.ty = s.ty := by
      have hse : ∀ q : Osc K, q.sendEnded.ty = q.ty := by intro q; unfold Osc.sendEnded; split <;> rfl
      have hadj : (s.adjust dt).ty = s.ty := by unfold Osc.adjust; dsimp only; split <;> rfl
      simp only [Osc.step, Osc.process]
      split
      · exact ⟨_, _, rfl, hse s⟩
      · split
        · split
          · exact ⟨_, _, rfl, hse s⟩
          · exact ⟨_, _, rfl, rfl⟩
        · have : ∃ o r, (s.adjust dt).play rd sine comp dt count b.1 b.2 = some (o, r) ∧ r.ty = s.ty := by
            rw [← hadj] at h1 h2 ⊢
            unfold Osc.play
            dsimp only
            split
            · split
              · exact fast_some _ _ _ _ _ h1 h2
              · exact slow_some _ _ _ _ _ _ h1 h2
            · exact slow_some _ _ _ _ _ _ h1 h2
          obtain ⟨o, r, e1, e2⟩ := this
          rw [e1, Option.map_some, Option.map_some]
          refine ⟨_, _, rfl, ?_⟩
          dsimp only
          split
          · exact (hse r).trans e2
          · exact e2
    obtain ⟨o, r, e1, e2⟩ := this
    obtain ⟨os, q, e3⟩ := ih r (by rw [e2]; exact h1) (by rw [e2]; exact h2)
    exact ⟨o :: os, q, by rw [List.map_cons, Osc.run, e1, Option.bind_some, e3, Option.map_some]⟩

/-- without a table an oscillator does not panic -/
theorem run_some (rd : K → K) (sine : List K) (comp : K → K → K) (dt : K) (count : Nat) (bs : List (List K × List K)) {ty : OscType}
    (h1 : ty ≠ .sine) (h2 : ty ≠ .custom) {a : K} (ha : 0 ≤ a) {z : Option K} (hz : ∀ v, z = some v → 0 ≤ v) :
    ∃ os s, (Osc.new ty none).run rd sine comp dt count (.start a :: (z.toList.map .stop ++ bs.map fun b => .block b.1 b.2)) = some (os, s) := by
  simp only [Osc.run, Osc.step]
  rw [if_neg (by simpa [Osc.new] using ha), Option.bind_some]
  cases z with
  | none =>
    obtain ⟨os, r, h⟩ := blocks_some rd sine comp dt count bs
      { (Osc.new ty none : Osc K) with hasStart := true, start := (a : WithTop K) } h1 h2
    simp only [Option.toList_none, List.map_nil, List.nil_append]
    rw [h]
    exact ⟨_, _, rfl⟩
  | some v =>
    obtain ⟨os, r, h⟩ := blocks_some rd sine comp dt count bs
      { (Osc.new ty none : Osc K) with hasStart := true, start := (a : WithTop K), stop := (v : WithTop K) } h1 h2
    simp only [Option.toList_some, List.map_cons, List.map_nil, List.singleton_append, Osc.run, Osc.step]
    rw [if_neg (by simpa using hz v rfl), Option.bind_some, h]
    exact ⟨_, _, rfl⟩

/-- C117: a triangle oscillator does not panic with any such rounding, and after `n` frames it differs from the exact one at most by
`4 * u * ((1 + B) * (5 + 3 * n) + 2)`. -/
theorem C117_triangle {rd : K → K} {u : K} (hrd : Near rd u) (hu0 : 0 ≤ u) (hu1 : u ≤ 1 / 8) {dt B : K} (hdt : 0 < dt) {sine : List K}
    (hne : sine ≠ []) {comp : K → K → K} {count : Nat} (hcount : 0 < count) {F : Nat → K}
    {a : K} (ha : 0 ≤ a) {z : Option K} (hz : ∀ v, z = some v → 0 ≤ v) {bs : List (List K × List K)}
    (hb : ∀ (k : Nat) (b : List K × List K), bs[k]? = some b → freqs comp count b.1 b.2 = (List.range count).map fun j => F (k * count + j))
    (hB : ∀ i, |F i * dt| ≤ B) :
    ∃ outs s, (Osc.new .triangle none).run rd sine comp dt count (.start a :: (z.toList.map .stop ++ bs.map fun b => .block b.1 b.2)) =
        some ([] :: (z.toList.map (fun _ => []) ++ outs), s) ∧ outs.length = bs.length ∧
      ∀ (k : Nat) (o : List K), outs[k]? = some o → ∀ j, j < count →
        (((k * count + j : Nat) : K) * dt < a → o.getD j 0 = 0) ∧
        (a ≤ ((k * count + j : Nat) : K) * dt →
          |o.getD j 0 - tuneAt sine dt count .triangle none F a (z.elim ⊤ fun v => (v : WithTop K)) (k * count + j)| ≤
            4 * (u * (1 + B) * (5 + 3 * (((k * count + j : Nat) : K) - a / dt)) + 2 * u)) := by
  have := run_some rd sine comp dt count bs (ty := .triangle) (by simp) (by simp) ha hz
  obtain ⟨os, s, h⟩ := this
  obtain ⟨outs, rfl, h1, h2⟩ := C117_tune hrd hu0 hu1 hdt hne hcount (ty := .triangle) (wave := none) (by simp) (by simp) ha hz hb
    (fun i => neg_le_of_abs_le (hB i)) hB (M := 4) (by norm_num)
    (le_refl (4 : K)) h
  exact ⟨outs, s, h, h1, h2⟩

/-- C117: the corrections at the jumps of a sawtooth make it as robust: for frequencies that are positive, with increments of the phase from
`A` to `B` (below Nyquist), it does not panic, and after `n` frames it differs from the exact one at most by
`9 / A * u * ((1 + B) * (5 + 3 * n) + 2)`; a square by `24 / A * u * ((1 + B) * (5 + 3 * n) + 2)`. -/
theorem C117_corrected {rd : K → K} {u : K} (hrd : Near rd u) (hu0 : 0 ≤ u) (hu1 : u ≤ 1 / 8) {dt A B : K} (hdt : 0 < dt) {sine : List K}
    (hne : sine ≠ []) {comp : K → K → K} {count : Nat} (hcount : 0 < count) {F : Nat → K} {ty : OscType} (hty : ty = .sawtooth ∨ ty = .square)
    {a : K} (ha : 0 ≤ a) {z : Option K} (hz : ∀ v, z = some v → 0 ≤ v) {bs : List (List K × List K)}
    (hb : ∀ (k : Nat) (b : List K × List K), bs[k]? = some b → freqs comp count b.1 b.2 = (List.range count).map fun j => F (k * count + j))
    (hA0 : 0 < A) (hAu : 2 * u ≤ A) (hA : ∀ i, A ≤ F i * dt) (hB : ∀ i, F i * dt ≤ B) (hB1 : B * (1 + u) ≤ 1 / 2) :
    ∃ outs s, (Osc.new ty none).run rd sine comp dt count (.start a :: (z.toList.map .stop ++ bs.map fun b => .block b.1 b.2)) =
        some ([] :: (z.toList.map (fun _ => []) ++ outs), s) ∧ outs.length = bs.length ∧
      ∀ (k : Nat) (o : List K), outs[k]? = some o → ∀ j, j < count →
        (((k * count + j : Nat) : K) * dt < a → o.getD j 0 = 0) ∧
        (a ≤ ((k * count + j : Nat) : K) * dt →
          |o.getD j 0 - tuneAt sine dt count ty none F a (z.elim ⊤ fun v => (v : WithTop K)) (k * count + j)| ≤
            (if ty = .sawtooth then 9 / A else 24 / A) * (u * (1 + B) * (5 + 3 * (((k * count + j : Nat) : K) - a / dt)) + 2 * u)) := by
  obtain ⟨os, s, h⟩ := run_some rd sine comp dt count bs (ty := ty) (by rcases hty with rfl | rfl <;> simp) (by rcases hty with rfl | rfl <;> simp) ha hz
  obtain ⟨outs, rfl, h1, h2⟩ := C117_tune hrd hu0 hu1 hdt hne hcount (ty := ty) (wave := none) (by simp)
    (by rcases hty with rfl | rfl <;> simp) ha hz hb hA (B := B) (fun i => abs_le.2 ⟨by linarith [hA i, hB i], hB i⟩)
    (M := if ty = .sawtooth then 9 / A else 24 / A) (by split <;> positivity)
    (by
      rcases hty with rfl | rfl
      · exact ⟨hA0, hAu, hB1, by rw [if_pos rfl, div_mul_cancel₀ _ hA0.ne']⟩
      · exact ⟨hA0, hAu, hB1, by rw [if_neg (by simp), div_mul_cancel₀ _ hA0.ne']⟩) h
  refine ⟨outs, s, h, h1, fun k o ho j hj => ?_⟩
  exact h2 k o ho j hj

/-- C117: without the lower bound on the frequency this is wrong: at a negative frequency the sawtooth is not corrected, and a phase that is
smaller by any amount can turn the sample around, from near -1 to 1. -/
theorem C117_negated_jump {e : K} (h0 : 0 < e) (h1 : e < 1 / 8) :
    sawtooth id (1 / 2) (-1 / 4) = (-1 : K) ∧ sawtooth id (1 / 2 - e) (-1 / 4) = 1 - 2 * e := by
  constructor
  · norm_num [sawtooth, unroll, polyBlep]
  · have : unroll id (1 / 2 - e + 1 / 2) = 1 - e := by
      unfold unroll
      rw [if_neg (by linarith), if_neg (by linarith)]
      ring
    unfold sawtooth
    dsimp only
    rw [this]
    unfold polyBlep
    rw [if_neg (by linarith), if_neg (by linarith)]
    ring

/-- a square with the rounding of `f64`, between 1/5 and 3/10 periods per frame, from frame 1 to frame 6 -/
example : ∃ outs s, (Osc.new .square none).run Float.f64 [0, 1, 0, -1] (fun f _ => f) (1 / 4) 4
      [.start (1 / 4), .stop (3 / 2), .block [6 / 5] [0], .block [4 / 5, 4 / 5, 6 / 5, 1] [0]] = some ([[], []] ++ outs, s) ∧ outs.length = 2 ∧
    ∀ (k : Nat) (o : List ℚ), outs[k]? = some o → ∀ j, j < 4 → 1 / 4 ≤ ((k * 4 + j : Nat) : ℚ) * (1 / 4) →
      |o.getD j 0 - tuneAt [0, 1, 0, -1] (1 / 4) 4 .square none (fun i => if i = 4 ∨ i = 5 then 4 / 5 else if i = 7 then 1 else 6 / 5) (1 / 4)
          (((3 / 2 : ℚ)) : WithTop ℚ) (k * 4 + j)| ≤
        24 / (1 / 5) * (2 ^ (-53 : ℤ) * (1 + 3 / 10) * (5 + 3 * (((k * 4 + j : Nat) : ℚ) - 1 / 4 / (1 / 4))) + 2 * 2 ^ (-53 : ℤ)) := by
  obtain ⟨outs, s, h1, h2, h3⟩ := C117_corrected (rd := Float.f64) (Float.rnd_near 53) (by positivity) (by norm_num) (dt := (1 / 4 : ℚ)) (A := 1 / 5)
    (B := 3 / 10) (by norm_num) (sine := [0, 1, 0, -1]) (by simp) (comp := fun f _ => f) (count := 4) (by norm_num)
    (F := fun i => if i = 4 ∨ i = 5 then 4 / 5 else if i = 7 then 1 else 6 / 5) (ty := .square) (.inr rfl) (a := 1 / 4) (by norm_num)
    (z := some (3 / 2)) (by simp; norm_num) (bs := [([6 / 5], [0]), ([4 / 5, 4 / 5, 6 / 5, 1], [0])])
    (by
      intro k b hk
      match k, hk with
      | 0, h => cases h; simp [freqs, Nat.mod_one, List.range_succ]
      | 1, h => cases h; simp [freqs, Nat.mod_one, List.range_succ]) (by norm_num) (by norm_num) (by intro i; split_ifs <;> norm_num)
    (by intro i; split_ifs <;> norm_num) (by norm_num)
  exact ⟨outs, s, h1, h2, fun k o ho j hj => (h3 k o ho j hj).2⟩

/-- a triangle oscillator with the rounding of `f64` that plays 3/10 periods per frame from frame 1 to frame 6, in two quanta of 4 frames -/
example : ∃ outs s, (Osc.new .triangle none).run Float.f64 [0, 1, 0, -1] (fun f _ => f) (1 / 4) 4
      [.start (1 / 4), .stop (3 / 2), .block [6 / 5] [0], .block [6 / 5] [0]] = some ([[], []] ++ outs, s) ∧ outs.length = 2 ∧
    ∀ (k : Nat) (o : List ℚ), outs[k]? = some o → ∀ j, j < 4 → 1 / 4 ≤ ((k * 4 + j : Nat) : ℚ) * (1 / 4) →
      |o.getD j 0 - tuneAt [0, 1, 0, -1] (1 / 4) 4 .triangle none (fun _ => 6 / 5) (1 / 4) (((3 / 2 : ℚ)) : WithTop ℚ) (k * 4 + j)| ≤
        4 * (2 ^ (-53 : ℤ) * (1 + 1 / 2) * (5 + 3 * (((k * 4 + j : Nat) : ℚ) - 1 / 4 / (1 / 4))) + 2 * 2 ^ (-53 : ℤ)) := by
  obtain ⟨outs, s, h1, h2, h3⟩ := C117_triangle (rd := Float.f64) (Float.rnd_near 53) (by positivity) (by norm_num) (dt := (1 / 4 : ℚ)) (B := 1 / 2)
    (by norm_num) (sine := [0, 1, 0, -1]) (by simp) (comp := fun f _ => f) (count := 4) (by norm_num) (F := fun _ => 6 / 5) (a := 1 / 4) (by norm_num)
    (z := some (3 / 2)) (by simp; norm_num) (bs := [([6 / 5], [0]), ([6 / 5], [0])])
    (by
      intro k b hk
      match k, hk with
      | 0, h => cases h; simp [freqs, Nat.mod_one]
      | 1, h => cases h; simp [freqs, Nat.mod_one]) (by intro i; norm_num [abs_of_pos])
  exact ⟨outs, s, h1, h2, fun k o ho j hj => (h3 k o ho j hj).2⟩

/-- with `f64`, an oscillator of any frequency up to Nyquist at 48 kHz that has played for an hour is off by less than 1e-7 of a period -/
example : drift ((2 : ℚ) ^ (-53 : ℤ)) (1 / 2) (1 / 48000) 0 3600 < 1 / 10 ^ 7 := by norm_num [drift]

/-- a sine table of 4 points -/
example : Smooth [0, 1, 0, -1] 0 0 (1 / 2) (4 : ℚ) .sine none := by
  intro i hi
  match i, hi with
  | 0, _ => norm_num
  | 1, _ => norm_num
  | 2, _ => norm_num
  | 3, _ => norm_num

end

end Verif.Source
