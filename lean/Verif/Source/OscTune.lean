import Verif.Source.OscPhase
import Mathlib.Algebra.BigOperators.Intervals
import Mathlib.Algebra.Order.Floor.Semiring

/-!
# C44: the wave of an oscillator with any frequencies, from the first frame to the last

The oscillator is created and its start and perhaps its stop are scheduled before the first quantum. The computed frequency of
frame `i` is `F i`, any function (with automation of frequency and detune it changes from frame to frame).
-/

namespace Verif.Source

open Finset

section
variable {K : Type} [Field K] [LinearOrder K] [FloorRing K] [IsStrictOrderedRing K]

/-! ### Specification -/

/-- the first frame at or after the time `a` -/
def firstFrame (dt a : K) : Nat := ⌈a / dt⌉₊

/-- The time at which the phase is 0: the start time `a`; but the begin of a quantum, if this is the first frame at or after `a`
(see `C44_negated_start`). -/
def onset (dt : K) (count : Nat) (a : K) : K := if count ∣ firstFrame dt a then firstFrame dt a * dt else a

/-- the phase at frame `i`, when frame `σ` is the first and the phase is 0 at time `α`: the sum of the frequencies of the frames
so far -/
def phaseAt (dt : K) (F : Nat → K) (α : K) (σ i : Nat) : K := Int.fract (F σ * (σ * dt - α) + (∑ k ∈ Ico σ i, F k) * dt)

/-- the wave at frame `i`, for a start time `a` and a stop time `z` -/
def tuneAt (sine : List K) (dt : K) (count : Nat) (ty : OscType) (wave : Option (List K)) (F : Nat → K) (a : K) (z : WithTop K) (i : Nat) :
    K :=
  if i < firstFrame dt a ∨ z ≤ ((i * dt : K) : WithTop K) ∨ 1 / dt / 2 ≤ |F i| then 0
  else (waveform id sine ty wave (phaseAt dt F (onset dt count a) (firstFrame dt a) i) (F i * dt)).getD 0

/-! ### Frames -/

theorem firstFrame_le {dt a : K} (hdt : 0 < dt) {i : Nat} : firstFrame dt a ≤ i ↔ a ≤ i * dt := by
  rw [firstFrame, Nat.ceil_le, div_le_iff₀ hdt]

theorem firstFrame_lt {dt a : K} (hdt : 0 < dt) (ha : 0 ≤ a) : firstFrame dt a * dt < a + dt := by
  have := Nat.ceil_lt_add_one (div_nonneg ha hdt.le)
  have := mul_lt_mul_of_pos_right this hdt
  rwa [add_mul, one_mul, div_mul_cancel₀ _ hdt.ne'] at this

theorem firstFrame_self {dt : K} (hdt : 0 < dt) (n : Nat) : firstFrame dt (n * dt) = n := by
  rw [firstFrame, mul_div_cancel_right₀ _ hdt.ne', Nat.ceil_natCast]

theorem phaseAt_succ {dt : K} {F : Nat → K} {α : K} {σ i : Nat} (h : σ ≤ i) :
    Int.fract (phaseAt dt F α σ i + F i * dt) = phaseAt dt F α σ (i + 1) := by
  unfold phaseAt
  rw [fract_fract_add, sum_Ico_succ_top h, add_mul, add_assoc]

/-- the state before frame `i` of a quantum in which the oscillator plays -/
structure Osc.Tune (dt : K) (F : Nat → K) (α : K) (i : Nat) (s : Osc K) : Prop where
  inv : s.Inv
  start : s.start = α
  wait : ((i * dt - dt : K) : WithTop K) < s.stop → i ≤ firstFrame dt α → s.started = false
  play : ((i * dt - dt : K) : WithTop K) < s.stop → firstFrame dt α < i → s.started = true ∧ s.phase = phaseAt dt F α (firstFrame dt α) i

/-- frame after frame -/
theorem slow_tune {dt : K} (hdt : 0 < dt) {sine : List K} (hne : sine ≠ []) {F : Nat → K} {α : K} (hα : 0 ≤ α) :
    ∀ (n : Nat) {s : Osc K} {i : Nat}, s.Tune dt F α i → Playable s.ty s.wave →
    ∃ out s', s.slow id sine dt (i * dt) ((List.range n).map fun j => F (i + j)) = some (out, s') ∧ s'.Tune dt F α (i + n) ∧
      s'.ty = s.ty ∧ s'.wave = s.wave ∧ s'.stop = s.stop ∧ s'.frame = s.frame ∧ out.length = n ∧
      ∀ j, j < n → out.getD j 0 = if i + j < firstFrame dt α ∨ s.stop ≤ (((i + j : Nat) * dt : K) : WithTop K) ∨ 1 / dt / 2 ≤ |F (i + j)| then 0
        else (waveform id sine s.ty s.wave (phaseAt dt F α (firstFrame dt α) (i + j)) (F (i + j) * dt)).getD 0 := by
  intro n
  induction n with
  | zero =>
    intro s i h _
    exact ⟨[], s, rfl, h, rfl, rfl, rfl, rfl, rfl, fun j hj => absurd hj (by omega)⟩
  | succ n ih =>
    intro s i h hp
    have hbefore : ((i * dt : K) : WithTop K) < s.stop → ((i * dt - dt : K) : WithTop K) < s.stop :=
      fun h => lt_of_le_of_lt (WithTop.coe_le_coe.2 (by linarith)) h
    have hl : s.Loop dt (i * dt) := by
      intro hst
      rcases le_or_gt s.stop ((i * dt : K) : WithTop K) with h1 | h1
      · exact .inl h1
      · refine .inr fun b hb => ?_
        rw [h.start] at hb
        obtain rfl := WithTop.coe_injective hb
        by_cases hi : i ≤ firstFrame dt α
        · have h2 := firstFrame_lt hdt hα
          have h3 : (i : K) * dt ≤ firstFrame dt α * dt := mul_le_mul_of_nonneg_right (by exact_mod_cast hi) hdt.le
          linarith
        · rw [(h.play (hbefore h1) (by omega)).1] at hst
          cases hst
    have next : ((i : K) * dt) + dt = ((i + 1 : Nat) : K) * dt := by push_cast; ring
    have same : ((i + 1 : Nat) : K) * dt - dt = i * dt := by push_cast; ring
    -- the sample
    have hsam : ∃ v s1, s.sample id sine dt (i * dt) (F i) = some (v, s1) ∧ s1.Tune dt F α (i + 1) ∧ s1.ty = s.ty ∧ s1.wave = s.wave ∧
        s1.stop = s.stop ∧ s1.frame = s.frame ∧
        v = if i < firstFrame dt α ∨ s.stop ≤ ((i * dt : K) : WithTop K) ∨ 1 / dt / 2 ≤ |F i| then 0
          else (waveform id sine s.ty s.wave (phaseAt dt F α (firstFrame dt α) i) (F i * dt)).getD 0 := by
      have hs := sample_spec (sine := sine) (f := F i) hdt h.inv hl
      by_cases hc : s.start ≤ ((i * dt : K) : WithTop K) ∧ ((i * dt : K) : WithTop K) < s.stop
      · rw [if_pos hc] at hs
        obtain ⟨b, p, hb, hbt, hpe, hp0, hp1, he⟩ := hs
        rw [h.start] at hb
        obtain rfl := WithTop.coe_injective hb
        have hσ : firstFrame dt α ≤ i := (firstFrame_le hdt).2 hbt
        have hphase : p = phaseAt dt F α (firstFrame dt α) i := by
          rw [hpe]
          rcases Nat.lt_or_eq_of_le hσ with hlt | heq
          · obtain ⟨k1, k2⟩ := h.play (hbefore hc.2) hlt
            rw [if_pos k1, k2]
          · rw [if_neg (by rw [h.wait (hbefore hc.2) (by omega)]; simp), heq]
            unfold phaseAt
            simp
        have tune : ∀ s1 : Osc K, s1 = { s with started := true, phase := Int.fract (p + F i * dt) } → s1.Tune dt F α (i + 1) := by
          rintro s1 rfl
          refine ⟨⟨Int.fract_nonneg _, Int.fract_lt_one _, by simp⟩, h.start, fun _ hi => absurd hi (by omega), fun _ _ => ⟨rfl, ?_⟩⟩
          show Int.fract (p + F i * dt) = _
          rw [hphase, phaseAt_succ hσ]
        by_cases ho : 1 / dt / 2 ≤ |F i|
        · rw [if_pos ho] at he
          exact ⟨0, _, he, tune _ rfl, rfl, rfl, rfl, rfl, (if_pos (.inr (.inr ho))).symm⟩
        · rw [if_neg ho] at he
          obtain ⟨v, hv, _⟩ := C44_waveform hne hp hp0 hp1 (incr := F i * dt) (lt_of_le_of_lt (le_abs_self _) (incr_lt hdt ho))
          rw [hv] at he
          refine ⟨v, _, he, tune _ rfl, rfl, rfl, rfl, rfl, ?_⟩
          rw [if_neg (by
            rintro (h1 | h1 | h1)
            · omega
            · exact absurd hc.2 (not_lt.2 h1)
            · exact ho h1), ← hphase, hv]
          rfl
      · rw [if_neg hc] at hs
        have hout : i < firstFrame dt α ∨ s.stop ≤ ((i * dt : K) : WithTop K) := by
          by_contra hno
          push Not at hno
          refine hc ⟨?_, hno.2⟩
          rw [h.start]
          exact WithTop.coe_le_coe.2 ((firstFrame_le hdt).1 hno.1)
        refine ⟨0, s, hs, ⟨h.inv, h.start, ?_, ?_⟩, rfl, rfl, rfl, rfl, (if_pos (by tauto)).symm⟩
        · rw [same]
          exact fun h1 h2 => h.wait (hbefore h1) (by omega)
        · rw [same]
          intro h1 h2
          rcases hout with h3 | h3
          · omega
          · exact absurd h1 (not_lt.2 h3)
    obtain ⟨v, s1, hs, ht, e1, e2, e3, e4, hv⟩ := hsam
    obtain ⟨out, s2, i1, i2, i3, i4, i5, i6, i7, i8⟩ := ih ht (by rw [e1, e2]; exact hp)
    have hlist : ((List.range (n + 1)).map fun j => F (i + j)) = F i :: (List.range n).map fun j => F (i + 1 + j) := by
      rw [List.range_succ_eq_map, List.map_cons, List.map_map, Nat.add_zero]
      congr 1
      refine List.map_congr_left fun j _ => ?_
      simp only [Function.comp_apply]
      congr 1
      omega
    refine ⟨v :: out, s2, ?_, by rw [show i + (n + 1) = i + 1 + n by omega]; exact i2, i3.trans e1, i4.trans e2, i5.trans e3, i6.trans e4,
      by simp [i7], fun j hj => ?_⟩
    · rw [hlist, Osc.slow, hs, Option.bind_some, next, i1]
      rfl
    · cases j with
      | zero => simpa using hv
      | succ j =>
        have := i8 j (by omega)
        rw [e1, e2, e3, show i + 1 + j = i + (j + 1) by omega] at this
        simpa using this

/-! ### Quanta -/

/-- the state before the quantum at frame `n` -/
structure Osc.Ready (dt : K) (count : Nat) (F : Nat → K) (a : K) (n : Nat) (s : Osc K) : Prop where
  inv : s.Inv
  wait : ((n * dt - dt : K) : WithTop K) < s.stop → n ≤ firstFrame dt a → s.started = false ∧ s.start = a
  play : ((n * dt - dt : K) : WithTop K) < s.stop → firstFrame dt a < n → s.started = true ∧ s.start = onset dt count a ∧
    s.phase = phaseAt dt F (onset dt count a) (firstFrame dt a) n

theorem firstFrame_onset {dt a : K} (hdt : 0 < dt) (count : Nat) : firstFrame dt (onset dt count a) = firstFrame dt a := by
  unfold onset
  split
  · exact firstFrame_self hdt _
  · rfl

theorem onset_nonneg {dt a : K} (hdt : 0 < dt) (ha : 0 ≤ a) (count : Nat) : 0 ≤ onset dt count a := by
  unfold onset
  split
  · positivity
  · exact ha

theorem sendEnded_keeps (s : Osc K) : s.sendEnded.start = s.start ∧ s.sendEnded.stop = s.stop ∧ s.sendEnded.started = s.started ∧
    s.sendEnded.phase = s.phase ∧ s.sendEnded.ty = s.ty ∧ s.sendEnded.wave = s.wave := by
  unfold Osc.sendEnded; split <;> simp

theorem Osc.Ready.congr {dt : K} {count : Nat} {F : Nat → K} {a : K} {n : Nat} {s s' : Osc K} (h : s.Ready dt count F a n)
    (h1 : s'.start = s.start) (h2 : s'.stop = s.stop) (h3 : s'.started = s.started) (h4 : s'.phase = s.phase) : s'.Ready dt count F a n := by
  refine ⟨?_, ?_, ?_⟩
  · have := h.inv; unfold Osc.Inv at this ⊢; rw [h3, h4]; exact this
  · rw [h1, h2, h3]; exact h.wait
  · rw [h1, h2, h3, h4]; exact h.play

/-- C44: one quantum of an oscillator, whatever the frequencies of its frames are -/
theorem tune_block {dt : K} (hdt : 0 < dt) {sine : List K} (hne : sine ≠ []) {comp : K → K → K} {count : Nat} (hcount : 0 < count) {F : Nat → K}
    {a : K} (ha : 0 ≤ a) {m : Nat} {s : Osc K} (hf : s.frame = m * count) (h : s.Ready dt count F a (m * count)) (hp : Playable s.ty s.wave)
    {freq detune : List K} (hfr : freqs comp count freq detune = (List.range count).map fun j => F (m * count + j)) :
    ∃ out s' r, s.process id sine comp dt count freq detune = some (out, s', r) ∧ s'.Ready dt count F a ((m + 1) * count) ∧ s'.ty = s.ty ∧
      s'.wave = s.wave ∧ s'.stop = s.stop ∧ (out = [] ∨ out.length = count) ∧
      ∀ j, j < count → out.getD j 0 = tuneAt sine dt count s.ty s.wave F a s.stop (m * count + j) := by
  have hcast : ((s.frame : K) * dt) = (m * count : Nat) * dt := by rw [hf]
  generalize hn : m * count = n at *
  have hsucc : (m + 1) * count = n + count := by rw [← hn]; ring
  rw [hsucc]
  have hnext : (n : K) * dt + dt * count = ((n + count : Nat) : K) * dt := by push_cast; ring
  have hdvd : count ∣ n := ⟨m, by rw [← hn, Nat.mul_comm]⟩
  simp only [Osc.process, hcast, hnext]
  have hbefore : ((n * dt : K) : WithTop K) < s.stop → ((n * dt - dt : K) : WithTop K) < s.stop :=
    fun h => lt_of_le_of_lt (WithTop.coe_le_coe.2 (by linarith)) h
  obtain ⟨q1, q2, q3, q4, q5, q6⟩ := sendEnded_keeps s
  -- past the stop time, nothing is left to show
  have past : ∀ n', n ≤ n' → s.stop ≤ ((n' * dt - dt : K) : WithTop K) → ∀ s' : Osc K, s'.Inv → s'.stop = s.stop → s'.Ready dt count F a n' := by
    intro n' _ hz s' hi hst
    rw [← hst] at hz
    exact ⟨hi, fun h => absurd h (not_lt.2 hz), fun h => absurd h (not_lt.2 hz)⟩
  have hcd : ((n : K)) * dt ≤ ((n + count : Nat) : K) * dt - dt := by
    have : (1 : K) ≤ count := by exact_mod_cast hcount
    push_cast
    nlinarith
  have silent : ∀ j, j < count → (s.stop ≤ (((n : K) * dt : K) : WithTop K) ∨ n + count ≤ firstFrame dt a) →
      ([] : List K).getD j 0 = tuneAt sine dt count s.ty s.wave F a s.stop (n + j) := by
    intro j hj hz
    unfold tuneAt
    rw [if_pos]
    · rfl
    rcases hz with hz | hz
    · refine .inr (.inl (hz.trans (WithTop.coe_le_coe.2 ?_)))
      have : (0 : K) ≤ j := by positivity
      push_cast
      nlinarith
    · exact .inl (by omega)
  by_cases hz : s.stop ≤ (((n : K) * dt : K) : WithTop K)
  · rw [if_pos hz]
    refine ⟨[], s.sendEnded, false, rfl, past _ (by omega) (hz.trans (WithTop.coe_le_coe.2 hcd)) _ ?_ q2, q5, q6, q2, .inl rfl,
      fun j hj => silent j hj (.inl hz)⟩
    have := h.inv; unfold Osc.Inv at this ⊢; rw [q3, q4]; exact this
  rw [if_neg hz]
  have hz := not_le.1 hz
  by_cases hw : (((n + count : Nat) * dt : K) : WithTop K) ≤ s.start
  · rw [if_pos hw]
    -- not yet
    have hlate : n + count ≤ firstFrame dt a ∧ s.started = false ∧ s.start = a := by
      by_cases hna : n ≤ firstFrame dt a
      · obtain ⟨k1, k2⟩ := h.wait (hbefore hz) hna
        rw [k2] at hw
        refine ⟨?_, k1, k2⟩
        by_contra hlt
        have := (firstFrame_le hdt (a := a) (i := n + count - 1)).1 (by omega)
        have h1 := WithTop.coe_le_coe.1 hw
        have h2 : ((n + count - 1 : Nat) : K) < ((n + count : Nat) : K) := by exact_mod_cast (by omega)
        have := mul_lt_mul_of_pos_right h2 hdt
        linarith
      · obtain ⟨k1, k2, _⟩ := h.play (hbefore hz) (by omega)
        rw [k2] at hw
        have h1 := WithTop.coe_le_coe.1 hw
        have h2 := (firstFrame_le hdt).1 (show firstFrame dt (onset dt count a) ≤ n by rw [firstFrame_onset hdt]; omega)
        exfalso
        linarith
    have hr : s.Ready dt count F a (n + count) := ⟨h.inv, fun _ _ => hlate.2, fun _ hlt => absurd hlt (by omega)⟩
    split
    · exact ⟨[], s.sendEnded, false, rfl, hr.congr q1 q2 q3 q4, q5, q6, q2, .inl rfl, fun j hj => silent j hj (.inr hlate.1)⟩
    · exact ⟨[], s, _, rfl, hr, rfl, rfl, rfl, .inl rfl, fun j hj => silent j hj (.inr hlate.1)⟩
  rw [if_neg hw]
  have hw := not_le.1 hw
  rw [play_eq_slow hdt]
  have hfe : (s.adjust dt).frame = s.frame ∧ (s.adjust dt).ty = s.ty ∧ (s.adjust dt).wave = s.wave ∧ (s.adjust dt).stop = s.stop ∧
      (s.adjust dt).phase = s.phase ∧ (s.adjust dt).started = s.started := by
    unfold Osc.adjust; simp only; split <;> simp
  have hinv : (s.adjust dt).Inv := by
    have := h.inv; unfold Osc.Inv at this ⊢; rw [hfe.2.2.2.2.1, hfe.2.2.2.2.2]; exact this
  rw [hfe.1, hcast, hfr]
  -- the start time in this quantum
  obtain ⟨α, hα0, hασ, htune, hfin⟩ : ∃ α, 0 ≤ α ∧ firstFrame dt α = firstFrame dt a ∧ (s.adjust dt).Tune dt F α n ∧
      ((firstFrame dt a < n + count → α = onset dt count a) ∧ (n + count ≤ firstFrame dt a → α = a)) := by
    by_cases hna : n ≤ firstFrame dt a
    · obtain ⟨k1, k2⟩ := h.wait (hbefore hz) hna
      by_cases hlt : a < n * dt
      · -- the start time was missed
        have hσ : firstFrame dt a = n := le_antisymm ((firstFrame_le hdt).2 hlt.le) hna
        refine ⟨n * dt, by positivity, by rw [firstFrame_self hdt, hσ], ⟨hinv, ?_, fun _ _ => by rw [hfe.2.2.2.2.2]; exact k1,
          fun _ hh => ?_⟩, fun _ => ?_, fun hh => absurd hh (by omega)⟩
        · unfold Osc.adjust
          simp only
          rw [hcast, if_pos ⟨k1, by rw [k2]; exact WithTop.coe_lt_coe.2 hlt⟩]
        · rw [firstFrame_self hdt] at hh; omega
        · unfold onset
          rw [hσ, if_pos hdvd]
      · refine ⟨a, ha, rfl, ⟨hinv, ?_, fun _ _ => by rw [hfe.2.2.2.2.2]; exact k1, fun _ hh => absurd hh (by omega)⟩, fun hh => ?_, fun _ => rfl⟩
        · unfold Osc.adjust
          simp only
          rw [hcast, if_neg, k2]
          rintro ⟨_, hh⟩
          rw [k2] at hh
          exact hlt (WithTop.coe_lt_coe.1 hh)
        · unfold onset
          split
          · rename_i hd
            have : firstFrame dt a = n := by
              obtain ⟨c, hc⟩ := hd
              obtain ⟨b, hb⟩ := hdvd
              have h1 : count * b ≤ count * c := by omega
              have h2 : count * c < count * (b + 1) := by rw [Nat.mul_add, Nat.mul_one]; omega
              have h3 := Nat.le_of_mul_le_mul_left h1 hcount
              have h4 := Nat.lt_of_mul_lt_mul_left h2
              have : c = b := by omega
              rw [hc, hb, this]
            rw [this]
            have h1 := (firstFrame_le hdt).1 this.le
            exact le_antisymm h1 (not_lt.1 hlt)
          · rfl
    · obtain ⟨k1, k2, k3⟩ := h.play (hbefore hz) (by omega)
      refine ⟨onset dt count a, onset_nonneg hdt ha count, firstFrame_onset hdt count, ⟨hinv, ?_, fun _ hh => ?_, fun _ _ => ?_⟩, fun _ => rfl,
        fun hh => absurd hh (by omega)⟩
      · unfold Osc.adjust
        simp only
        rw [if_neg (by rw [k1]; simp), k2]
      · rw [firstFrame_onset hdt] at hh; omega
      · rw [hfe.2.2.2.2.1, hfe.2.2.2.2.2, firstFrame_onset hdt]
        exact ⟨k1, k3⟩
  obtain ⟨out, s2, r1, r2, r3, r4, r5, r6, r7, r8⟩ := slow_tune hdt hne hα0 count htune (by rw [hfe.2.1, hfe.2.2.1]; exact hp)
  have hready : s2.Ready dt count F a (n + count) := by
    refine ⟨r2.inv, fun h1 h2 => ⟨r2.wait h1 (by rw [hασ]; exact h2), by rw [r2.start, hfin.2 h2]⟩, fun h1 h2 => ?_⟩
    obtain ⟨k1, k2⟩ := r2.play h1 (by rw [hασ]; exact h2)
    rw [hασ, hfin.1 h2] at k2
    exact ⟨k1, by rw [r2.start, hfin.1 h2], k2⟩
  have hout : ∀ j, j < count → out.getD j 0 = tuneAt sine dt count s.ty s.wave F a s.stop (n + j) := by
    intro j hj
    rw [r8 j hj, hασ, hfe.2.1, hfe.2.2.1, hfe.2.2.2.1]
    unfold tuneAt
    by_cases hc : n + j < firstFrame dt a
    · rw [if_pos (.inl hc), if_pos (.inl hc)]
    · rw [hfin.1 (by omega)]
  rw [r1, Option.map_some]
  obtain ⟨t1, t2, t3, t4, t5, t6⟩ := sendEnded_keeps s2
  dsimp only
  split
  · exact ⟨out, s2.sendEnded, false, rfl, hready.congr t1 t2 t3 t4, by rw [t5, r3, hfe.2.1], by rw [t6, r4, hfe.2.2.1],
      by rw [t2, r5, hfe.2.2.2.1], .inr r7, hout⟩
  · exact ⟨out, s2, true, rfl, hready, by rw [r3, hfe.2.1], by rw [r4, hfe.2.2.1], by rw [r5, hfe.2.2.2.1], .inr r7, hout⟩

/-- several quanta -/
theorem tune_blocks {dt : K} (hdt : 0 < dt) {sine : List K} (hne : sine ≠ []) {comp : K → K → K} {count : Nat} (hcount : 0 < count) {F : Nat → K}
    {a : K} (ha : 0 ≤ a) : ∀ (bs : List (List K × List K)) {m : Nat} {s : Osc K}, s.frame = m * count → s.Ready dt count F a (m * count) →
    Playable s.ty s.wave →
    (∀ (k : Nat) (b : List K × List K), bs[k]? = some b → freqs comp count b.1 b.2 = (List.range count).map fun j => F ((m + k) * count + j)) →
    ∃ outs s', s.run id sine comp dt count (bs.map fun b => .block b.1 b.2) = some (outs, s') ∧ outs.length = bs.length ∧
      ∀ (k : Nat) (o : List K), outs[k]? = some o → ∀ j, j < count →
        o.getD j 0 = tuneAt sine dt count s.ty s.wave F a s.stop ((m + k) * count + j) := by
  intro bs
  induction bs with
  | nil => intro m s _ _ _ _; exact ⟨[], s, rfl, rfl, fun k o h => by simp at h⟩
  | cons b bs ih =>
    intro m s hf h hp hb
    obtain ⟨out, s1, r, h1, h2, h3, h4, h5, _, h6⟩ := tune_block hdt hne hcount ha hf h hp (hb 0 b rfl)
    obtain ⟨outs, s2, k1, k2, k3⟩ := ih (m := m + 1) (s := { s1 with frame := s.frame + count })
      (by rw [hf]; ring) (h2.congr rfl rfl rfl rfl) (by rw [h3, h4]; exact hp)
      (fun k x hx => by rw [show m + 1 + k = m + (k + 1) by omega]; exact hb (k + 1) x hx)
    refine ⟨out :: outs, s2, ?_, by simp [k2], fun k o ho j hj => ?_⟩
    · simp only [List.map_cons, Osc.run, Osc.step, h1, Option.map_some, Option.bind_some, k1]
    · cases k with
      | zero =>
        simp only [List.getElem?_cons_zero, Option.some.injEq] at ho
        subst ho
        exact h6 j hj
      | succ k =>
        have := k3 k o (by simpa using ho) j hj
        simp only [h3, h4, h5] at this
        rw [show m + 1 + k = m + (k + 1) by omega] at this
        exact this

/-- C44: an oscillator with a start time, possibly a stop time, any type or wave, and any automation of its frequency and detune (so
that frame `i` has the computed frequency `F i`). It does not panic, and every sample is known: silence before the first frame
at or after the start time and from the stop time on; between them the waveform at the phase that is the sum of the frequencies
of the frames played so far (frames whose frequency is at or beyond Nyquist are silent but count). Start times between two frames
are honoured, but for those between the last frame of a quantum and the next quantum. -/
theorem C44_tune {dt : K} (hdt : 0 < dt) {sine : List K} (hne : sine ≠ []) {comp : K → K → K} {count : Nat} (hcount : 0 < count)
    {ty : OscType} {wave : Option (List K)} (hw : ∀ w, wave = some w → w ≠ []) (hty : ty = .custom → wave ≠ none) {F : Nat → K}
    {a : K} (ha : 0 ≤ a) {z : Option K} (hz : ∀ v, z = some v → 0 ≤ v) {bs : List (List K × List K)}
    (hb : ∀ (k : Nat) (b : List K × List K), bs[k]? = some b → freqs comp count b.1 b.2 = (List.range count).map fun j => F (k * count + j)) :
    ∃ outs s', (Osc.new ty wave).run id sine comp dt count (.start a :: (z.toList.map .stop ++ bs.map fun b => .block b.1 b.2)) =
        some ([] :: (z.toList.map (fun _ => []) ++ outs), s') ∧ outs.length = bs.length ∧
      ∀ (k : Nat) (o : List K), outs[k]? = some o → ∀ j, j < count →
        o.getD j 0 = tuneAt sine dt count (if wave = none then ty else .custom) wave F a (z.elim ⊤ fun v => (v : WithTop K)) (k * count + j) := by
  have hnew : (Osc.new ty wave : Osc K).ty = (if wave = none then ty else .custom) ∧ (Osc.new ty wave : Osc K).wave = wave ∧
      (Osc.new ty wave : Osc K).phase = 0 ∧ (Osc.new ty wave : Osc K).started = false ∧ (Osc.new ty wave : Osc K).stop = ⊤ ∧
      (Osc.new ty wave : Osc K).frame = 0 ∧ (Osc.new ty wave : Osc K).hasStart = false := by
    cases wave <;> simp [Osc.new]
  obtain ⟨n1, n2, n3, n4, n5, n6, n7⟩ := hnew
  have hplay : Playable (if wave = none then ty else .custom) wave := by
    intro hc
    cases wave with
    | none => exact absurd rfl (hty (by simpa using hc))
    | some w => exact ⟨w, rfl, hw w rfl⟩
  have ready : ∀ s : Osc K, s.phase = 0 → s.started = false → s.start = a → s.Ready dt count F a (0 * count) := by
    intro s h1 h2 h3
    refine ⟨⟨by rw [h1], by rw [h1]; exact one_pos, fun _ => h1⟩, fun _ _ => ⟨h2, h3⟩, fun _ hlt => absurd hlt (by omega)⟩
  simp only [Osc.run, Osc.step, n7]
  rw [if_neg (by simpa using ha), Option.bind_some]
  cases z with
  | none =>
    obtain ⟨outs, s', k1, k2, k3⟩ := tune_blocks hdt hne hcount ha bs (m := 0) (s := { Osc.new ty wave with hasStart := true, start := a })
      (by simp [n6]) (ready _ n3 n4 rfl) (by simpa only [n1, n2] using hplay) (by simpa using hb)
    refine ⟨outs, s', by simp only [Option.toList_none, List.map_nil, List.nil_append, k1, Option.map_some], k2, fun k o ho j hj => ?_⟩
    have := k3 k o ho j hj
    simp only [n1, n2, n5, Nat.zero_add] at this
    exact this
  | some v =>
    obtain ⟨outs, s', k1, k2, k3⟩ := tune_blocks hdt hne hcount ha bs (m := 0)
      (s := { Osc.new ty wave with hasStart := true, start := a, stop := v })
      (by simp [n6]) (ready _ n3 n4 rfl) (by simpa only [n1, n2] using hplay) (by simpa using hb)
    refine ⟨outs, s', ?_, k2, fun k o ho j hj => ?_⟩
    · simp only [Option.toList_some, List.map_cons, List.map_nil, List.singleton_append, Osc.run, Osc.step]
      rw [if_neg (by simpa using hz v rfl)]
      simp only [Option.bind_some, k1, Option.map_some]
    · have := k3 k o ho j hj
      simp only [n1, n2, Nat.zero_add] at this
      exact this

end

/-- Ramp of the frequency from 0 to 6 (one per frame, two frames per quantum, four frames per second), start between the first two
frames, stop at 1.5 seconds: the sum of the frequencies so far is the phase of the triangle. -/
example : ((Osc.new .triangle none : Osc ℚ).run id [0, 1] (fun f _ => f) (1 / 16) 2 (.start (1 / 32) :: .stop (3 / 8) ::
      [.block [1, 2] [0], .block [3, 4] [0], .block [5, 6] [0], .block [7, 7] [0]])).map (·.1) =
    some ([[], []] ++ (List.range 3).map (fun k => (List.range 2).map fun j =>
      tuneAt [0, 1] (1 / 16) 2 .triangle none (fun i => (i + 1 : ℚ)) (1 / 32) ((3 / 8 : ℚ) : WithTop ℚ) (k * 2 + j)) ++ [[]]) := by
  decide +kernel

example : (List.range 6).map (tuneAt [0, 1] (1 / 16) 2 .triangle none (fun i => (i + 1 : ℚ)) (1 / 32) ((3 / 8 : ℚ) : WithTop ℚ)) =
    [0, 1 / 4, 3 / 4, 1 / 2, -1 / 2, -1 / 4] := by
  decide +kernel

example := C44_tune (K := ℚ) (dt := 1 / 16) (by norm_num) (sine := [0, 1]) (by simp) (comp := fun f _ => f) (count := 2) (by norm_num)
  (ty := .triangle) (wave := none) (by simp) (by simp) (F := fun i => (i + 1 : ℚ)) (a := 1 / 32) (by norm_num) (z := some (3 / 8))
  (by intro v h; cases h; norm_num) (bs := [([1, 2], [0]), ([3, 4], [0])]) (by
    intro k b h
    match k, h with
    | 0, h => cases h; decide +kernel
    | 1, h => cases h; decide +kernel)

end Verif.Source
