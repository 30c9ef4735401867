import Verif.Source.OscProps
import Mathlib.Algebra.BigOperators.Group.List.Basic

/-!
# C44: the phase of the oscillator is the integral of its frequency
-/

namespace Verif.Source

section
variable {K : Type} [Field K] [LinearOrder K] [FloorRing K] [IsStrictOrderedRing K]

theorem fract_fract_add (x y : K) : Int.fract (Int.fract x + y) = Int.fract (x + y) := by
  rw [Int.fract_eq_fract]
  refine ⟨-⌊x⌋, ?_⟩
  rw [Int.fract]
  push_cast
  ring

/-! ### varying frequency -/

theorem slow_sum {dt : K} (hdt : 0 < dt) {sine : List K} (fs : List K) : ∀ {s s' : Osc K} {t : K} {out : List K},
    s.Inv → s.started = true → s.start ≤ (t : WithTop K) →
    (∀ i : Nat, i < fs.length → ((t + i * dt : K) : WithTop K) < s.stop) →
    s.slow id sine dt t fs = some (out, s') →
    (∀ (i : Nat) (f : K), fs[i]? = some f → (if 1 / dt / 2 ≤ |f| then some 0
      else waveform id sine s.ty s.wave (Int.fract (s.phase + (fs.take i).sum * dt)) (f * dt)) = out[i]?) ∧
    s'.phase = Int.fract (s.phase + fs.sum * dt) := by
  induction fs with
  | nil =>
    intro s s' t out hi _ _ _ h
    cases h
    refine ⟨by simp, ?_⟩
    rw [List.sum_nil, zero_mul, add_zero, fract_of_mem hi.1 hi.2.1]
  | cons f fs ih =>
    intro s s' t out hi hst h1 h2 h
    have hl : s.Loop dt t := fun hf => by rw [hst] at hf; cases hf
    have ht : (t : WithTop K) < s.stop := by simpa using h2 0 (by simp)
    have hs := sample_spec (sine := sine) (f := f) hdt hi hl
    rw [if_pos ⟨h1, ht⟩] at hs
    obtain ⟨a, p, _, _, hp, hp0, hp1, he⟩ := hs
    rw [if_pos hst] at hp
    subst hp
    rw [Osc.slow, he] at h
    cases hw : (if 1 / dt / 2 ≤ |f| then some 0 else waveform id sine s.ty s.wave s.phase (f * dt)) with
    | none => rw [hw] at h; cases h
    | some v =>
      rw [hw] at h
      simp only [Option.map_some, Option.bind_some] at h
      cases hr : Osc.slow id sine dt { s with started := true, phase := Int.fract (s.phase + f * dt) } (t + dt) fs with
      | none => rw [hr] at h; cases h
      | some q =>
        obtain ⟨o, s2⟩ := q
        rw [hr] at h
        cases h
        obtain ⟨j1, j2⟩ := ih (s := { s with started := true, phase := Int.fract (s.phase + f * dt) })
          ⟨Int.fract_nonneg _, Int.fract_lt_one _, by simp⟩ rfl (le_trans h1 (WithTop.coe_le_coe.2 (by linarith)))
          (fun i hi' => by
            have := h2 (i + 1) (by simpa using hi')
            refine lt_of_eq_of_lt ?_ this
            congr 1
            push_cast
            ring) hr
        constructor
        · intro i g hg
          cases i with
          | zero =>
            simp only [List.getElem?_cons_zero, Option.some.injEq] at hg ⊢
            subst hg
            rw [List.take_zero, List.sum_nil, zero_mul, add_zero, fract_of_mem hp0 hp1]
            exact hw
          | succ i =>
            simp only [List.getElem?_cons_succ] at hg ⊢
            rw [← j1 i g hg]
            simp only [fract_fract_add, List.take_succ_cons, List.sum_cons]
            rw [show s.phase + (f + (fs.take i).sum) * dt = s.phase + f * dt + (fs.take i).sum * dt by ring]
        · rw [j2, fract_fract_add, List.sum_cons]
          congr 1
          ring

/-- C44: a started oscillator that plays through a block. Frame `i` has the phase of the first frame plus the
frequencies of the frames before it, times the sample period, modulo 1; frames with a frequency at or beyond the
Nyquist frequency are zero, but count. The same holds for the phase that is left for the next block. -/
theorem C44_phase_sum {dt : K} (hdt : 0 < dt) {sine : List K} {comp : K → K → K} {count : Nat} {s s' : Osc K}
    {freq detune out : List K} (hi : s.Inv) (hst : s.started = true)
    (h1 : s.start ≤ ((s.frame * dt : K) : WithTop K))
    (hstop : ((s.frame * dt + dt * count : K) : WithTop K) ≤ s.stop) (hcount : 0 < count)
    (h : s.step id sine comp dt count (.block freq detune) = some (out, s')) :
    let fs := freqs comp count freq detune
    (∀ (i : Nat) (f : K), fs[i]? = some f → (if 1 / dt / 2 ≤ |f| then some 0
      else waveform id sine s.ty s.wave (Int.fract (s.phase + (fs.take i).sum * dt)) (f * dt)) = out[i]?) ∧
    s'.phase = Int.fract (s.phase + fs.sum * dt) := by
  intro fs
  have hc : (0 : K) < count := by exact_mod_cast hcount
  have hlt : ((s.frame * dt : K) : WithTop K) < ((s.frame * dt + dt * count : K) : WithTop K) :=
    WithTop.coe_lt_coe.2 (by have := mul_pos hdt hc; linarith)
  have hadj : s.adjust dt = s := by
    unfold Osc.adjust
    simp only
    rw [if_neg (by rw [hst]; simp)]
  cases hp : (s.adjust dt).slow id sine dt (s.frame * dt) fs with
  | none =>
    exfalso
    simp only [Osc.step, Osc.process] at h
    rw [if_neg (not_le.2 (lt_of_lt_of_le hlt hstop)), if_neg (not_le.2 (lt_of_le_of_lt h1 hlt)), play_eq_slow hdt] at h
    have hfe : (s.adjust dt).frame = s.frame := by rw [hadj]
    rw [hfe, hp] at h
    cases h
  | some r =>
    obtain ⟨s2, e1, e2, e3, e4⟩ := block_eq hdt hp (not_le.2 (lt_of_lt_of_le hlt hstop))
      (not_le.2 (lt_of_le_of_lt h1 hlt))
    rw [e1] at h
    cases h
    obtain ⟨o, q⟩ := r
    rw [hadj] at hp
    rw [e2]
    refine slow_sum hdt fs hi hst h1 (fun i hi' => ?_) hp
    refine lt_of_lt_of_le (WithTop.coe_lt_coe.2 ?_) hstop
    have : i < count := by simpa [fs, freqs] using hi'
    have : (i : K) < count := by exact_mod_cast this
    nlinarith

/-! ### constant frequency -/

/-- Specification: the time at which an oscillator stops: that of the last call of `stop`, if any -/
def lastStop (st : List K) : WithTop K := (st.getLast?).elim ⊤ fun v => (v : WithTop K)

theorem lt_lastStop {st : List K} {t : K} (h : ∀ v ∈ st, t < v) : (t : WithTop K) < lastStop st := by
  unfold lastStop
  cases hl : st.getLast? with
  | none => exact WithTop.coe_lt_top _
  | some v => exact WithTop.coe_lt_coe.2 (h v (List.mem_of_mem_getLast? hl))

theorem slow_const {dt : K} (hdt : 0 < dt) {sine : List K} {f a : K} (hf : ¬ 1 / dt / 2 ≤ |f|) {st : List K} (n : Nat) :
    ∀ {s s' : Osc K} {t : K} {out : List K}, s.Inv → s.stop = lastStop st → s.start = a →
    ((∀ v ∈ st, t - dt < v) → s.started = true → a ≤ t ∧ s.phase = Int.fract (f * (t - a))) →
    (((t - dt : K) : WithTop K) < s.stop → s.started = false → t - a < dt) →
    s.slow id sine dt t (List.replicate n f) = some (out, s') →
    (∀ i : Nat, i < n → ((∀ v ∈ st, t + i * dt < v) → if a ≤ t + i * dt then
        waveform id sine s.ty s.wave (Int.fract (f * (t + i * dt - a))) (f * dt) = out[i]? else out[i]? = some 0) ∧
      (s.stop ≤ ((t + i * dt : K) : WithTop K) ∨ t + i * dt < a → out[i]? = some 0)) ∧
    ((∀ v ∈ st, t + n * dt - dt < v) → s'.started = true → a ≤ t + n * dt ∧ s'.phase = Int.fract (f * (t + n * dt - a))) ∧
    (((t + n * dt - dt : K) : WithTop K) < s.stop → s'.started = false → t + n * dt - a < dt) := by
  induction n with
  | zero =>
    intro s s' t out hi _ ha h1 h2 h
    cases h
    simp only [Nat.cast_zero, zero_mul, add_zero]
    exact ⟨by simp, h1, h2⟩
  | succ n ih =>
    intro s s' t out hi hstop ha h1 h2 h
    rw [List.replicate_succ, Osc.slow] at h
    have en : t + dt + n * dt = t + ((n + 1 : Nat) : K) * dt := by push_cast; ring
    by_cases hpast : s.stop ≤ (t : WithTop K)
    · have hs : s.sample id sine dt t f = some (0, s) := by
        unfold Osc.sample
        dsimp only
        rw [if_pos (.inr hpast)]
      rw [hs] at h
      simp only [Option.bind_some] at h
      cases hr : Osc.slow id sine dt s (t + dt) (List.replicate n f) with
      | none => rw [hr] at h; cases h
      | some q =>
        obtain ⟨o, s2⟩ := q
        rw [hr] at h
        cases h
        have hnot : ¬ ∀ v ∈ st, t + dt - dt < v := fun hv => by
          have := lt_lastStop hv
          rw [← hstop, add_sub_cancel_right] at this
          exact absurd this (not_lt.2 hpast)
        obtain ⟨j1, j2, j3⟩ := ih hi hstop ha (fun hv => absurd hv hnot)
          (fun hv => by rw [add_sub_cancel_right] at hv; exact absurd hv (not_lt.2 hpast)) hr
        refine ⟨fun i hi' => ?_, ?_, ?_⟩
        · cases i with
          | zero =>
            simp only [Nat.cast_zero, zero_mul, add_zero]
            refine ⟨fun hv => ?_, fun _ => rfl⟩
            exact absurd (by rw [add_sub_cancel_right]; exact hv) hnot
          | succ i =>
            have := j1 i (by omega)
            have e : t + dt + i * dt = t + ((i + 1 : Nat) : K) * dt := by push_cast; ring
            rw [e] at this
            exact this
        · rw [en] at j2
          exact j2
        · rw [en] at j3
          exact j3
    have hpast := not_le.1 hpast
    have hbefore : ((t - dt : K) : WithTop K) < s.stop := lt_of_le_of_lt (WithTop.coe_le_coe.2 (by linarith)) hpast
    have hquiet : (∀ v ∈ st, t < v) → ∀ v ∈ st, t - dt < v := fun hv v hm => by linarith [hv v hm]
    have hl : s.Loop dt t := fun hf => .inr fun b hb => by
      rw [ha] at hb
      rw [← WithTop.coe_injective hb]
      exact h2 hbefore hf
    by_cases hat : a ≤ t
    · by_cases hq : ∀ v ∈ st, t < v
      · have hs := sample_spec (sine := sine) (f := f) hdt hi hl
        rw [if_pos ⟨by rw [ha]; exact WithTop.coe_le_coe.2 hat, hpast⟩] at hs
        obtain ⟨b, p, hb, _, hp, hp0, hp1, he⟩ := hs
        rw [ha] at hb
        obtain rfl := WithTop.coe_injective hb
        have hp' : p = Int.fract (f * (t - a)) := by
          rw [hp]
          split
          · rename_i hst; exact (h1 (hquiet hq) hst).2
          · rfl
        rw [he, if_neg hf] at h
        cases hw : waveform id sine s.ty s.wave p (f * dt) with
        | none => rw [hw] at h; cases h
        | some v =>
          rw [hw] at h
          simp only [Option.map_some, Option.bind_some] at h
          cases hr : Osc.slow id sine dt { s with started := true, phase := Int.fract (p + f * dt) } (t + dt)
              (List.replicate n f) with
          | none => rw [hr] at h; cases h
          | some q =>
            obtain ⟨o, s2⟩ := q
            rw [hr] at h
            cases h
            obtain ⟨j1, j2, j3⟩ := ih (s := { s with started := true, phase := Int.fract (p + f * dt) })
              ⟨Int.fract_nonneg _, Int.fract_lt_one _, by simp⟩ hstop ha
              (fun _ _ => ⟨by linarith, by
                simp only
                rw [hp', fract_fract_add]
                congr 1
                ring⟩) (by simp) hr
            refine ⟨fun i hi' => ?_, ?_, ?_⟩
            · cases i with
              | zero =>
                simp only [Nat.cast_zero, zero_mul, add_zero]
                refine ⟨fun _ => ?_, fun hor => ?_⟩
                · rw [if_pos hat, ← hp', hw]
                  rfl
                · rcases hor with ho | ho
                  · exact absurd ho (not_le.2 hpast)
                  · exact absurd ho (not_lt.2 hat)
              | succ i =>
                have := j1 i (by omega)
                have e : t + dt + i * dt = t + ((i + 1 : Nat) : K) * dt := by push_cast; ring
                rw [e] at this
                exact this
            · rw [en] at j2
              exact j2
            · rw [en] at j3
              exact j3
      · -- after a call of stop for an earlier time was taken back
        have hs := sample_spec (sine := sine) (f := f) hdt hi hl
        rw [if_pos ⟨by rw [ha]; exact WithTop.coe_le_coe.2 hat, hpast⟩] at hs
        obtain ⟨b, p, hb, _, hp, hp0, hp1, he⟩ := hs
        rw [he, if_neg hf] at h
        cases hw : waveform id sine s.ty s.wave p (f * dt) with
        | none => rw [hw] at h; cases h
        | some v =>
          rw [hw] at h
          simp only [Option.map_some, Option.bind_some] at h
          cases hr : Osc.slow id sine dt { s with started := true, phase := Int.fract (p + f * dt) } (t + dt)
              (List.replicate n f) with
          | none => rw [hr] at h; cases h
          | some q =>
            obtain ⟨o, s2⟩ := q
            rw [hr] at h
            cases h
            have hnot : ∀ x : K, t ≤ x → ¬ ∀ v ∈ st, x < v := fun x hx hv => hq fun v hm => lt_of_le_of_lt hx (hv v hm)
            have hle : ∀ m : Nat, t ≤ t + m * dt := fun m => by
              have : (0 : K) ≤ m * dt := by positivity
              linarith
            obtain ⟨j1, j2, j3⟩ := ih (s := { s with started := true, phase := Int.fract (p + f * dt) })
              ⟨Int.fract_nonneg _, Int.fract_lt_one _, by simp⟩ hstop ha
              (fun hv => absurd hv (hnot _ (by linarith))) (by simp) hr
            refine ⟨fun i hi' => ⟨fun hv => absurd hv (hnot _ (hle i)), fun hor => ?_⟩, fun hv => ?_, ?_⟩
            · cases i with
              | zero =>
                simp only [Nat.cast_zero, zero_mul, add_zero] at hor
                rcases hor with ho | ho
                · exact absurd ho (not_le.2 hpast)
                · exact absurd ho (not_lt.2 hat)
              | succ i =>
                have := (j1 i (by omega)).2
                have e : t + dt + i * dt = t + ((i + 1 : Nat) : K) * dt := by push_cast; ring
                rw [e] at this
                exact this hor
            · exact absurd hv (hnot _ (by push_cast; linarith [hle n]))
            · rw [en] at j3
              exact j3
    · have hs := sample_spec (sine := sine) (f := f) hdt hi hl
      rw [if_neg (by rw [ha]; rintro ⟨hc, _⟩; exact hat (WithTop.coe_le_coe.1 hc))] at hs
      rw [hs] at h
      simp only [Option.bind_some] at h
      cases hr : Osc.slow id sine dt s (t + dt) (List.replicate n f) with
      | none => rw [hr] at h; cases h
      | some q =>
        obtain ⟨o, s2⟩ := q
        rw [hr] at h
        cases h
        obtain ⟨j1, j2, j3⟩ := ih hi hstop ha
          (fun hv hst => absurd (h1 (hquiet fun v hm => by linarith [hv v hm]) hst).1 hat)
          (fun _ _ => by linarith [not_le.1 hat]) hr
        refine ⟨fun i hi' => ?_, ?_, ?_⟩
        · cases i with
          | zero =>
            simp only [Nat.cast_zero, zero_mul, add_zero]
            rw [if_neg hat]
            exact ⟨fun _ => rfl, fun _ => rfl⟩
          | succ i =>
            have := j1 i (by omega)
            have e : t + dt + i * dt = t + ((i + 1 : Nat) : K) * dt := by push_cast; ring
            rw [e] at this
            exact this
        · rw [en] at j2
          exact j2
        · rw [en] at j3
          exact j3

/-- Specification: the time at which the calls make the oscillator start: that of the call of `start`, but not before
the first frame that is rendered after it. `n` is the number of frames rendered before. -/
def startTime (dt : K) (count : Nat) : Nat → List (OscOp K) → Option K
  | _, [] => none
  | n, .start t :: _ => some (max t (n * dt))
  | n, .block _ _ :: ops => startTime dt count (n + count) ops
  | n, _ :: ops => startTime dt count n ops

/-- Specification: the times of the calls of `stop` -/
def stops : List (OscOp K) → List K
  | [] => []
  | .stop t :: ops => t :: stops ops
  | _ :: ops => stops ops

/-- Specification: number of frames rendered -/
def oscFrames (count : Nat) : List (OscOp K) → Nat
  | [] => 0
  | .block _ _ :: ops => count + oscFrames count ops
  | _ :: ops => oscFrames count ops

/-- the state after calls that make the oscillator start at `e`, with calls of `stop` for the times `st` -/
structure Osc.At (dt : K) (count : Nat) (f : K) (e : Option K) (st : List K) (s : Osc K) : Prop where
  inv : s.Inv
  stop : s.stop = lastStop st
  mult : ∃ m : Nat, s.frame = m * count
  idle : e = none → s.start = ⊤ ∧ s.started = false
  low : ∀ a, e = some a → (a : WithTop K) ≤ s.start ∨ a ≤ s.frame * dt
  wait : (∀ v ∈ st, s.frame * dt - dt < v) → ∀ a, e = some a → s.started = false →
    ∃ b : K, s.start = b ∧ a = max b (s.frame * dt)
  play : (∀ v ∈ st, s.frame * dt - dt < v) → ∀ a, e = some a → s.started = true →
    s.start = a ∧ a ≤ s.frame * dt ∧ s.phase = Int.fract (f * (s.frame * dt - a))

theorem sendEnded_fields (s : Osc K) : s.sendEnded.start = s.start ∧ s.sendEnded.stop = s.stop ∧
    s.sendEnded.started = s.started ∧ s.sendEnded.phase = s.phase ∧ s.sendEnded.frame = s.frame ∧
    s.sendEnded.ty = s.ty ∧ s.sendEnded.wave = s.wave ∧ s.sendEnded.hasStart = s.hasStart := by
  unfold Osc.sendEnded; split <;> simp

theorem At.sendEnded {dt : K} {count : Nat} {f : K} {e : Option K} {st : List K} {s : Osc K} (h : s.At dt count f e st) :
    s.sendEnded.At dt count f e st := by
  unfold Osc.sendEnded
  split
  · exact h
  · exact ⟨h.inv, h.stop, h.mult, h.idle, h.low, h.wait, h.play⟩

/-- a block does not change the sound -/
theorem block_keeps {dt : K} (hdt : 0 < dt) {sine : List K} {comp : K → K → K} {count : Nat} {s s' : Osc K}
    {freq detune out : List K} (hi : s.Inv) (hs : s.step id sine comp dt count (.block freq detune) = some (out, s')) :
    s'.ty = s.ty ∧ s'.wave = s.wave ∧ s'.hasStart = s.hasStart := by
  obtain ⟨n1, n2, n3, n4, n5, n6, n7, n8⟩ := sendEnded_fields s
  simp only [Osc.step, Osc.process] at hs
  split at hs
  · cases hs; exact ⟨n6, n7, n8⟩
  split at hs
  · split at hs
    · cases hs; exact ⟨n6, n7, n8⟩
    · cases hs; exact ⟨rfl, rfl, rfl⟩
  have hfe : (s.adjust dt).frame = s.frame ∧ (s.adjust dt).ty = s.ty ∧ (s.adjust dt).wave = s.wave ∧
      (s.adjust dt).hasStart = s.hasStart := by
    unfold Osc.adjust; simp only; split <;> simp
  rw [play_eq_slow hdt, hfe.1] at hs
  obtain ⟨a1, a2⟩ := adjust_loop hdt hi
  cases hp : (s.adjust dt).slow id sine dt (s.frame * dt) (freqs comp count freq detune) with
  | none => rw [hp] at hs; cases hs
  | some r =>
    obtain ⟨o, q⟩ := r
    obtain ⟨q0, q1, q2, q3, q4, q5, q6, q7, q8, q9, q10⟩ := slow_inv hdt _ a1 a2 hp
    rw [hp] at hs
    simp only [Option.map_some] at hs
    obtain ⟨m1, m2, m3, m4, m5, m6, m7, m8⟩ := sendEnded_fields q
    rw [hfe.2.1] at q3
    rw [hfe.2.2.1] at q4
    rw [hfe.2.2.2] at q6
    split at hs
    · cases hs; exact ⟨m6.trans q3, m7.trans q4, m8.trans q6⟩
    · cases hs; exact ⟨q3, q4, q6⟩

/-- A block keeps this, and has the samples. -/
theorem At.block {dt : K} (hdt : 0 < dt) {sine : List K} {comp : K → K → K} {count : Nat} (hcount : 0 < count) {f : K}
    (hf : |f| < 1 / dt / 2) {e : Option K} {st : List K} {s s' : Osc K} {freq detune out : List K}
    (h : s.At dt count f e st)
    (hgap : ∀ a, e = some a → ∀ m : Nat, ¬ ((m * count : Nat) * dt - dt < a ∧ a < (m * count : Nat) * dt))
    (hfs : ∀ x ∈ freqs comp count freq detune, x = f)
    (hs : s.step id sine comp dt count (.block freq detune) = some (out, s')) :
    s'.At dt count f e st ∧ ∀ i : Nat, i < count →
      (∀ a, e = some a → a ≤ s.frame * dt + i * dt → (∀ v ∈ st, s.frame * dt + i * dt < v) →
        waveform id sine s.ty s.wave (Int.fract (f * (s.frame * dt + i * dt - a))) (f * dt) = some ((out[i]?).getD 0)) ∧
      ((∀ a, e = some a → s.frame * dt + i * dt < a) ∨ lastStop st ≤ ((s.frame * dt + i * dt : K) : WithTop K) →
        (out[i]?).getD 0 = 0) := by
  have hf := not_le.2 hf
  have hc : (0 : K) < count := by exact_mod_cast hcount
  have hcdt : 0 < dt * count := mul_pos hdt hc
  have hc1 : (1 : K) ≤ count := by exact_mod_cast hcount
  have hrep : freqs comp count freq detune = List.replicate count f := by
    rw [List.eq_replicate_iff]
    exact ⟨by simp [freqs], hfs⟩
  obtain ⟨m, hm⟩ := h.mult
  have hmult : s.frame + count = (m + 1) * count := by rw [hm]; ring
  have hfr : ((s.frame + count : Nat) : K) * dt = s.frame * dt + dt * count := by push_cast; ring
  have hnext : (((m + 1) * count : Nat) : K) * dt = s.frame * dt + dt * count := by
    rw [← hmult, hfr]
  -- the state with the next frame, if nothing else changes
  have later : ∀ q : Osc K, (q.start = s.start ∧ q.stop = s.stop ∧ q.started = s.started ∧ q.phase = s.phase) → (s.stop ≤ ((s.frame * dt : K) : WithTop K) ∨
      ((s.frame * dt + dt * count : K) : WithTop K) ≤ s.start) →
      Osc.At dt count f e st { q with frame := s.frame + count } := by
    intro q hq hor
    obtain ⟨g1, g2, g3, g4⟩ := hq
    refine ⟨?_, ?_, ⟨m + 1, hmult⟩, ?_, ?_, ?_, ?_⟩
    · have := h.inv
      unfold Osc.Inv at this ⊢
      simp only [g3, g4]
      exact this
    · simp only [g2]; exact h.stop
    · simp only [g1, g3]; exact h.idle
    · intro a he
      simp only [g1, hfr]
      rcases h.low a he with hl | hl
      · exact .inl hl
      · exact .inr (by linarith)
    · intro hv a he hns
      simp only [g1, g3, hfr] at hns hv ⊢
      rcases hor with hor | hor
      · exfalso
        have := lt_lastStop (st := st) (t := s.frame * dt) fun v hm' => by nlinarith [hv v hm']
        rw [← h.stop] at this
        exact absurd this (not_lt.2 hor)
      · obtain ⟨b, hb, ha⟩ := h.wait (fun v hm' => by linarith [hv v hm']) a he hns
        refine ⟨b, hb, ?_⟩
        rw [hb] at hor
        have hor := WithTop.coe_le_coe.1 hor
        rw [ha, max_eq_left (by linarith), max_eq_left hor]
    · intro hv a he hst
      simp only [g1, g3, g4, hfr] at hst hv ⊢
      exfalso
      rcases hor with hor | hor
      · have := lt_lastStop (st := st) (t := s.frame * dt) fun v hm' => by nlinarith [hv v hm']
        rw [← h.stop] at this
        exact absurd this (not_lt.2 hor)
      · obtain ⟨e1, e2, _⟩ := h.play (fun v hm' => by linarith [hv v hm']) a he hst
        rw [e1] at hor
        have := WithTop.coe_le_coe.1 hor
        linarith
  have nothing : (s.stop ≤ ((s.frame * dt : K) : WithTop K) ∨ ((s.frame * dt + dt * count : K) : WithTop K) ≤ s.start) →
      ∀ i : Nat, i < count → ∀ a, e = some a → a ≤ s.frame * dt + i * dt → ¬ ∀ v ∈ st, s.frame * dt + i * dt < v := by
    intro hor i hi a he hle hv
    have hi' : (i : K) < count := by exact_mod_cast hi
    have hi0 : (0 : K) ≤ i * dt := by positivity
    rcases hor with hor | hor
    · have := lt_lastStop (st := st) (t := s.frame * dt) fun v hm' => by linarith [hv v hm']
      rw [← h.stop] at this
      exact absurd this (not_lt.2 hor)
    · have hv' : ∀ v ∈ st, s.frame * dt - dt < v := fun v hm' => by linarith [hv v hm']
      cases hsd : s.started with
      | false =>
        obtain ⟨b, hb, ha⟩ := h.wait hv' a he hsd
        rw [hb] at hor
        have hor := WithTop.coe_le_coe.1 hor
        have hab : b ≤ a := by rw [ha]; exact le_max_left _ _
        nlinarith
      | true =>
        obtain ⟨e1, e2, _⟩ := h.play hv' a he hsd
        rw [e1] at hor
        have := WithTop.coe_le_coe.1 hor
        linarith
  obtain ⟨n1, n2, n3, n4, n5, n6, n7, n8⟩ := sendEnded_fields s
  simp only [Osc.step, Osc.process] at hs
  by_cases h0 : s.stop ≤ ((s.frame * dt : K) : WithTop K)
  · rw [if_pos h0] at hs
    cases hs
    exact ⟨later s.sendEnded ⟨n1, n2, n3, n4⟩ (.inl h0), fun i hi =>
      ⟨fun a he hle hv => absurd hv (nothing (.inl h0) i hi a he hle), fun _ => by simp⟩⟩
  rw [if_neg h0] at hs
  by_cases h2 : ((s.frame * dt + dt * count : K) : WithTop K) ≤ s.start
  · rw [if_pos h2] at hs
    split at hs
    · cases hs
      exact ⟨later s.sendEnded ⟨n1, n2, n3, n4⟩ (.inr h2), fun i hi =>
        ⟨fun a he hle hv => absurd hv (nothing (.inr h2) i hi a he hle), fun _ => by simp⟩⟩
    · cases hs
      exact ⟨later s ⟨rfl, rfl, rfl, rfl⟩ (.inr h2), fun i hi =>
        ⟨fun a he hle hv => absurd hv (nothing (.inr h2) i hi a he hle), fun _ => by simp⟩⟩
  · rw [if_neg h2] at hs
    -- a start time
    obtain ⟨a, he⟩ : ∃ a, e = some a := by
      cases he : e with
      | none => rw [(h.idle he).1] at h2; exact absurd le_top h2
      | some a => exact ⟨a, rfl⟩
    obtain ⟨b0, hb0⟩ : ∃ b : K, s.start = b := by
      cases hb : s.start with
      | top => rw [hb] at h2; exact absurd le_top h2
      | coe b => exact ⟨b, rfl⟩
    have hfe : (s.adjust dt).frame = s.frame ∧ (s.adjust dt).ty = s.ty ∧ (s.adjust dt).wave = s.wave ∧
        (s.adjust dt).stop = s.stop ∧ (s.adjust dt).started = s.started ∧ (s.adjust dt).phase = s.phase := by
      unfold Osc.adjust; simp only; split <;> simp
    obtain ⟨a', hst', hlow⟩ : ∃ a' : K, (s.adjust dt).start = a' ∧ ((a ≤ a' ∨ a ≤ s.frame * dt) ∧ b0 ≤ a' ∧
        (s.started = false → s.frame * dt ≤ a')) := by
      have hl := h.low a he
      unfold Osc.adjust
      simp only
      split
      · rename_i hcn
        rw [hb0] at hcn
        have hlt := WithTop.coe_lt_coe.1 hcn.2
        refine ⟨s.frame * dt, rfl, ?_, le_of_lt hlt, fun _ => le_refl _⟩
        rcases hl with hl | hl
        · rw [hb0] at hl
          exact .inl (by linarith [WithTop.coe_le_coe.1 hl])
        · exact .inr hl
      · rename_i hcn
        refine ⟨b0, hb0, ?_, le_refl _, fun hsd => ?_⟩
        · rcases hl with hl | hl
          · rw [hb0] at hl
            exact .inl (WithTop.coe_le_coe.1 hl)
          · exact .inr hl
        · by_contra hlt
          exact hcn ⟨hsd, by rw [hb0]; exact WithTop.coe_lt_coe.2 (not_le.1 hlt)⟩
    have hst : (∀ v ∈ st, s.frame * dt - dt < v) →
        a' = a ∧ (s.started = false → s.frame * dt ≤ a ∧ a < s.frame * dt + dt * count) := by
      intro hv
      have hsame : (s.adjust dt).start = a ∧ (s.started = false → s.frame * dt ≤ a ∧ a < s.frame * dt + dt * count) := by
        unfold Osc.adjust
        simp only
        cases hstd : s.started with
        | true =>
          rw [if_neg (by simp)]
          exact ⟨(h.play hv a he hstd).1, by simp⟩
        | false =>
          obtain ⟨b, hb, ha⟩ := h.wait hv a he hstd
          have hbn : b < s.frame * dt + dt * count := by
            rw [hb] at h2; exact WithTop.coe_lt_coe.1 (not_le.1 h2)
          by_cases hlt : b < s.frame * dt
          · rw [if_pos ⟨rfl, by rw [hb]; exact WithTop.coe_lt_coe.2 hlt⟩]
            rw [max_eq_right (le_of_lt hlt)] at ha
            exact ⟨by rw [ha], fun _ => ⟨le_of_eq ha.symm, by linarith⟩⟩
          · rw [if_neg (by rw [hb]; exact fun hcn => hlt (WithTop.coe_lt_coe.1 hcn.2))]
            rw [max_eq_left (not_lt.1 hlt)] at ha
            exact ⟨by rw [hb, ha], fun _ => ⟨by linarith [not_lt.1 hlt], by linarith⟩⟩
      refine ⟨?_, hsame.2⟩
      have := hsame.1
      rw [hst'] at this
      exact WithTop.coe_injective this
    rw [play_eq_slow hdt, hrep, hfe.1] at hs
    obtain ⟨a1, a2⟩ := adjust_loop hdt h.inv
    cases hp : (s.adjust dt).slow id sine dt (s.frame * dt) (List.replicate count f) with
    | none => rw [hp] at hs; cases hs
    | some r =>
      obtain ⟨o, q⟩ := r
      obtain ⟨k1, k2, k3⟩ := slow_const (st := st) hdt hf count a1 (by rw [hfe.2.2.2.1]; exact h.stop) hst'
        (fun hv hsd => by
          rw [hfe.2.2.2.2.1] at hsd
          rw [hfe.2.2.2.2.2, (hst hv).1]
          exact (h.play hv a he hsd).2)
        (fun _ hsd => by
          rw [hfe.2.2.2.2.1] at hsd
          linarith [hlow.2.2 hsd]) hp
      obtain ⟨q0, q1, q2, q3, q4, q5, q6, q7, q8, q9, q10⟩ := slow_inv hdt _ a1 a2 hp
      rw [hp] at hs
      simp only [Option.map_some] at hs
      have hqstop : q.stop = lastStop st := by rw [q2, hfe.2.2.2.1]; exact h.stop
      have hat : Osc.At dt count f e st { q with frame := s.frame + count } := by
        refine ⟨q0, hqstop, ⟨m + 1, hmult⟩, fun hn => ?_, fun a2 he' => ?_, fun hv a2 he' hns => ?_, fun hv a2 he' hsd => ?_⟩
        · rw [he] at hn; cases hn
        · rw [he] at he'
          obtain rfl := Option.some.inj he'
          simp only [hfr, q1, hst']
          rcases hlow.1 with hl | hl
          · exact .inl (WithTop.coe_le_coe.2 hl)
          · exact .inr (by linarith)
        · -- not started within the block: impossible
          exfalso
          simp only [hfr] at hv
          have hv0 : ∀ v ∈ st, s.frame * dt - dt < v := fun v hm' => by linarith [hv v hm']
          obtain ⟨rfl, hst2⟩ := hst hv0
          have h3 := k3 (by
            rw [hfe.2.2.2.1, h.stop]
            exact lt_lastStop fun v hm' => by rw [mul_comm (count : K)]; exact hv v hm') hns
          have hnst : s.started = false := by
            by_contra hcn
            have hcn : s.started = true := by simpa using hcn
            have h4 := (h.play hv0 a' he hcn).2.1
            have h5 : (count : K) * dt ≥ dt := by nlinarith
            linarith
          have h4 := (hst2 hnst).2
          refine hgap a' he (m + 1) ⟨?_, ?_⟩
          · rw [hnext]; linarith
          · rw [hnext]; exact h4
        · rw [he] at he'
          obtain rfl := Option.some.inj he'
          simp only [hfr] at hv
          have hv0 : ∀ v ∈ st, s.frame * dt - dt < v := fun v hm' => by linarith [hv v hm']
          obtain ⟨rfl, hst2⟩ := hst hv0
          obtain ⟨h4, h5⟩ := k2 (fun v hm' => by rw [mul_comm (count : K)]; exact hv v hm') hsd
          refine ⟨by change q.start = _; rw [q1]; exact hst', ?_, ?_⟩
          · simp only [hfr]
            linarith
          · simp only [hfr]
            rw [mul_comm dt]
            exact h5
      have hout : ∀ i : Nat, i < count →
          (∀ a, e = some a → a ≤ s.frame * dt + i * dt → (∀ v ∈ st, s.frame * dt + i * dt < v) →
            waveform id sine s.ty s.wave (Int.fract (f * (s.frame * dt + i * dt - a))) (f * dt) = some ((o[i]?).getD 0)) ∧
          ((∀ a, e = some a → s.frame * dt + i * dt < a) ∨ lastStop st ≤ ((s.frame * dt + i * dt : K) : WithTop K) →
            (o[i]?).getD 0 = 0) := by
        intro i hi
        obtain ⟨h4, h5⟩ := k1 i hi
        have hi0 : (0 : K) ≤ i * dt := by positivity
        have hlen : i < o.length := by rw [q10]; simpa using hi
        constructor
        · intro a2 he' hle hv
          rw [he] at he'
          obtain rfl := Option.some.inj he'
          have h4 := h4 hv
          obtain ⟨rfl, _⟩ := hst fun v hm' => by linarith [hv v hm']
          rw [if_pos hle, hfe.2.1, hfe.2.2.1] at h4
          rw [h4, List.getElem?_eq_getElem hlen]
          rfl
        · intro hor
          have : o[i]? = some 0 := by
            apply h5
            rcases hor with ho | ho
            · have := ho a he
              rcases hlow.1 with hl | hl
              · exact .inr (by linarith)
              · exact absurd this (not_lt.2 (by linarith))
            · exact .inl (by rw [hfe.2.2.2.1, h.stop]; exact ho)
          rw [this]
          rfl
      split at hs
      · cases hs
        refine ⟨?_, hout⟩
        have := At.sendEnded hat
        obtain ⟨m1, m2, m3, m4, m5, m6, m7, m8⟩ := sendEnded_fields q
        unfold Osc.sendEnded at this ⊢
        split
        · exact hat
        · exact ⟨hat.inv, hat.stop, hat.mult, hat.idle, hat.low, hat.wait, hat.play⟩
      · cases hs
        exact ⟨hat, hout⟩

/-- a call of `start` -/
theorem At.startMsg {dt : K} {count : Nat} {f : K} {st : List K} {s : Osc K} (h : s.At dt count f none st) (t : K) :
    Osc.At dt count f (some (max t (s.frame * dt))) st { s with start := (t : WithTop K) } := by
  refine ⟨h.inv, h.stop, h.mult, by simp, fun a ha => ?_, fun _ a ha _ => ⟨t, rfl, (Option.some.inj ha).symm⟩, ?_⟩
  · obtain rfl := Option.some.inj ha
    rcases le_total t (s.frame * dt) with hl | hl
    · exact .inr (by rw [max_eq_right hl])
    · exact .inl (by rw [max_eq_left hl])
  · intro _ a _ hst
    simp only at hst
    rw [(h.idle rfl).2] at hst
    cases hst

/-- a call of `stop` -/
theorem At.stopMsg {dt : K} {count : Nat} {f : K} {e : Option K} {st : List K} {s : Osc K} (h : s.At dt count f e st) (t : K) :
    Osc.At dt count f e (st ++ [t]) { s with stop := (t : WithTop K) } := by
  refine ⟨h.inv, by simp [lastStop], h.mult, h.idle, h.low, fun hv => h.wait fun v hm => hv v (by simp [hm]),
    fun hv => h.play fun v hm => hv v (by simp [hm])⟩

/-- the whole history -/
theorem At.run {dt : K} (hdt : 0 < dt) {sine : List K} {comp : K → K → K} {count : Nat} (hcount : 0 < count) {f : K}
    (hf : |f| < 1 / dt / 2) (ops : List (OscOp K)) : ∀ {e : Option K} {st : List K} {s s' : Osc K} {out : List (List K)},
    s.At dt count f e st → s.hasStart = e.isSome →
    (∀ a, (e.orElse fun _ => startTime dt count s.frame ops) = some a →
      ∀ m : Nat, ¬ ((m * count : Nat) * dt - dt < a ∧ a < (m * count : Nat) * dt)) →
    (∀ freq detune, .block freq detune ∈ ops → ∀ x ∈ freqs comp count freq detune, x = f) →
    s.run id sine comp dt count ops = some (out, s') →
    s'.At dt count f (e.orElse fun _ => startTime dt count s.frame ops) (st ++ stops ops) ∧
      s'.frame = s.frame + oscFrames count ops := by
  induction ops with
  | nil =>
    intro e st s s' out h hhas _ _ hr
    cases hr
    refine ⟨?_, rfl⟩
    rw [stops, List.append_nil]
    cases e <;> exact h
  | cons op ops ih =>
    intro e st s s' out h hhas hgap hblk hr
    rw [Osc.run] at hr
    cases hs : s.step id sine comp dt count op with
    | none => rw [hs] at hr; cases hr
    | some r =>
      obtain ⟨o, s1⟩ := r
      rw [hs] at hr
      simp only [Option.bind_some] at hr
      cases hr2 : s1.run id sine comp dt count ops with
      | none => rw [hr2] at hr; cases hr
      | some q =>
        obtain ⟨q1, q2⟩ := q
        rw [hr2] at hr
        cases hr
        have hblk' : ∀ freq detune, .block freq detune ∈ ops → ∀ x ∈ freqs comp count freq detune, x = f :=
          fun a b hm => hblk a b (by simp [hm])
        cases op with
        | start t =>
          simp only [Osc.step] at hs
          split at hs
          · cases hs
          · rename_i hc
            push Not at hc
            cases hs
            have hen : e = none := by
              rw [Bool.eq_false_of_not_eq_true hc.1] at hhas
              cases e with
              | none => rfl
              | some a => cases hhas
            subst hen
            have h1 := At.startMsg h t
            have h1 : Osc.At dt count f (some (max t (s.frame * dt))) st { s with hasStart := true, start := (t : WithTop K) } :=
              ⟨h1.inv, h1.stop, h1.mult, h1.idle, h1.low, h1.wait, h1.play⟩
            exact ih h1 rfl hgap hblk' hr2
        | stop t =>
          simp only [Osc.step] at hs
          split at hs
          · cases hs
          · cases hs
            have := ih (At.stopMsg h t) hhas hgap hblk' hr2
            rw [List.append_assoc] at this
            exact this
        | setType ty =>
          simp only [Osc.step] at hs
          have key : s1.At dt count f e st ∧ s1.frame = s.frame ∧ s1.hasStart = s.hasStart := by
            split at hs
            · cases hs
            · split at hs
              · cases hs; exact ⟨h, rfl, rfl⟩
              · cases hs; exact ⟨⟨h.inv, h.stop, h.mult, h.idle, h.low, h.wait, h.play⟩, rfl, rfl⟩
          have := ih key.1 (by rw [key.2.2]; exact hhas) (by rw [key.2.1]; exact hgap) hblk' hr2
          rw [key.2.1] at this
          exact this
        | setWave w =>
          simp only [Osc.step] at hs
          cases hs
          have h1 : Osc.At dt count f e st { s with ctrlType := .custom, ty := .custom, wave := some w } :=
            ⟨h.inv, h.stop, h.mult, h.idle, h.low, h.wait, h.play⟩
          have := ih h1 hhas hgap hblk' hr2
          exact this
        | block freq detune =>
          have hfr : s1.frame = s.frame + count ∧ s1.hasStart = s.hasStart := by
            refine ⟨?_, (block_keeps hdt h.inv hs).2.2⟩
            simp only [Osc.step] at hs
            cases hpr : s.process id sine comp dt count freq detune with
            | none => rw [hpr] at hs; cases hs
            | some r => rw [hpr] at hs; cases hs; rfl
          have h1 : s1.At dt count f e st := by
            refine (At.block hdt hcount hf h (fun a ha m => ?_) (hblk freq detune (by simp)) hs).1
            exact hgap a (by rw [ha]; rfl) m
          have := ih h1 (by rw [hfr.2]; exact hhas) (by rw [hfr.1]; exact hgap) hblk' hr2
          rw [hfr.1] at this
          refine ⟨this.1, ?_⟩
          rw [this.2, oscFrames]
          omega

/-- a new oscillator -/
theorem At.new {dt : K} {count : Nat} {f : K} (ty : OscType) (wave : Option (List K)) (m : Nat) :
    Osc.At dt count f none [] { (Osc.new ty wave : Osc K) with frame := m * count } := by
  unfold Osc.new
  cases wave <;>
    exact ⟨⟨le_refl _, zero_lt_one, fun _ => rfl⟩, rfl, ⟨m, rfl⟩, fun _ => ⟨rfl, rfl⟩, by simp, by simp, by simp⟩

/-- C44: an oscillator with constant frequency `f` below the Nyquist frequency that is started for the time `a`. After any
history of calls and blocks, the sample at time `t` is that of the waveform at the phase `f * (t - a)`, modulo 1, for `t`
between `a` and the times of all calls of `stop`; it is zero before `a` and from the time of the last call of `stop` on: the
oscillator is sample accurate, also between frames and across blocks. Missing from the full claim: start times within less
than one frame before the begin of a block, see `C44_negated_start`. -/
theorem C44_constant_partial {dt : K} (hdt : 0 < dt) {sine : List K} {comp : K → K → K} {count : Nat} (hcount : 0 < count)
    {f : K} (hf : |f| < 1 / dt / 2) {ty : OscType} {wave : Option (List K)} {ops : List (OscOp K)} {s s' : Osc K}
    {outs : List (List K)} {freq detune out : List K}
    (h : (Osc.new ty wave).run id sine comp dt count ops = some (outs, s))
    (hconst : ∀ freq' detune', .block freq' detune' ∈ ops ++ [.block freq detune] →
      ∀ x ∈ freqs comp count freq' detune', x = f)
    (hgap : ∀ a, startTime dt count 0 ops = some a → ∀ m : Nat,
      ¬ ((m * count : Nat) * dt - dt < a ∧ a < (m * count : Nat) * dt))
    (hb : s.step id sine comp dt count (.block freq detune) = some (out, s')) (i : Nat) (hi : i < count) :
    let t : K := oscFrames count ops * dt + i * dt
    (∀ a, startTime dt count 0 ops = some a → a ≤ t → (∀ v, .stop v ∈ ops → t < v) →
      waveform id sine s.ty s.wave (Int.fract (f * (t - a))) (f * dt) = some ((out[i]?).getD 0)) ∧
    ((∀ a, startTime dt count 0 ops = some a → t < a) → (out[i]?).getD 0 = 0) ∧
    (∀ v, (stops ops).getLast? = some v → v ≤ t → (out[i]?).getD 0 = 0) := by
  have hnew := At.new (dt := dt) (count := count) (f := f) ty wave 0
  have h0 : ({ (Osc.new ty wave : Osc K) with frame := 0 * count } : Osc K) = Osc.new ty wave := by
    rw [Nat.zero_mul]; unfold Osc.new; cases wave <;> rfl
  rw [h0] at hnew
  have h2 : (Osc.new ty wave : Osc K).frame = 0 := by unfold Osc.new; cases wave <;> rfl
  have h3 := At.run hdt hcount hf ops hnew (by unfold Osc.new; cases wave <;> rfl) (by rw [h2]; exact hgap)
    (fun a b hm => hconst a b (by simp [hm])) h
  rw [h2, Nat.zero_add, List.nil_append] at h3
  obtain ⟨h3, h4⟩ := h3
  have h5 := (At.block hdt hcount hf h3 hgap (hconst freq detune (by simp)) hb).2 i hi
  rw [h4] at h5
  have hst : ∀ v, v ∈ stops ops → .stop v ∈ ops := by
    intro v
    clear h hconst hgap h3 h4 h5
    induction ops with
    | nil => simp [stops]
    | cons op ops ih =>
      cases op with
      | stop t =>
        simp only [stops, List.mem_cons]
        rintro (rfl | hm)
        · exact .inl rfl
        · exact .inr (ih hm)
      | _ => exact fun hm => List.mem_cons_of_mem _ (ih hm)
  refine ⟨fun a ha hle hv => h5.1 a ha hle fun v hm => hv v (hst v hm), fun ha => h5.2 (.inl ha), fun v hv hle => h5.2 (.inr ?_)⟩
  unfold lastStop
  rw [hv]
  exact WithTop.coe_le_coe.2 hle

/-! ### ended event -/

omit [IsStrictOrderedRing K] in
theorem run_events {rd : K → K} {dt : K} {sine : List K} {comp : K → K → K} {count : Nat} (ops : List (OscOp K)) :
    ∀ {s s' : Osc K} {out : List (List K)}, s.events = s.ended.toNat → s.run rd sine comp dt count ops = some (out, s') →
    s'.events = s'.ended.toNat := by
  have hsend : ∀ q : Osc K, q.events = q.ended.toNat → q.sendEnded.events = q.sendEnded.ended.toNat := by
    intro q hq
    unfold Osc.sendEnded
    split
    · exact hq
    · rename_i he
      have he : q.ended = false := by simpa using he
      rw [he] at hq
      simp [hq]
  have hsam : ∀ {s s' : Osc K} {t f v : K}, s.sample rd sine dt t f = some (v, s') →
      s'.events = s.events ∧ s'.ended = s.ended := by
    intro s s' t f v h
    unfold Osc.sample at h
    simp only at h
    split at h
    · cases h; exact ⟨rfl, rfl⟩
    · rename_i hc
      cases hw : (if decide (1 / dt / 2 ≤ |f|) = true then some 0 else
          waveform rd sine (s.first rd dt t (rd (f * dt)) (decide (1 / dt / 2 ≤ |f|))).ty
            (s.first rd dt t (rd (f * dt)) (decide (1 / dt / 2 ≤ |f|))).wave
            (s.first rd dt t (rd (f * dt)) (decide (1 / dt / 2 ≤ |f|))).phase (rd (f * dt))) with
      | none => rw [hw] at h; cases h
      | some w =>
        rw [hw] at h
        cases h
        unfold Osc.first
        split <;> exact ⟨rfl, rfl⟩
  have hslow : ∀ (fs : List K) {s s' : Osc K} {t : K} {out : List K}, s.slow rd sine dt t fs = some (out, s') →
      s'.events = s.events ∧ s'.ended = s.ended := by
    intro fs
    induction fs with
    | nil => intro s s' t out h; cases h; exact ⟨rfl, rfl⟩
    | cons f fs ih =>
      intro s s' t out h
      rw [Osc.slow] at h
      cases hs : s.sample rd sine dt t f with
      | none => rw [hs] at h; cases h
      | some r =>
        obtain ⟨v, s1⟩ := r
        rw [hs] at h
        simp only [Option.bind_some] at h
        cases hr : Osc.slow rd sine dt s1 (t + dt) fs with
        | none => rw [hr] at h; cases h
        | some q =>
          obtain ⟨o, s2⟩ := q
          rw [hr] at h
          cases h
          obtain ⟨i1, i2⟩ := ih hr
          obtain ⟨j1, j2⟩ := hsam hs
          exact ⟨i1.trans j1, i2.trans j2⟩
  have hfast : ∀ (n : Nat) (x : K) {s s' : Osc K} {out : List K}, s.fast rd sine x n = some (out, s') →
      s'.events = s.events ∧ s'.ended = s.ended := by
    intro n x
    induction n with
    | zero => intro s s' out h; cases h; exact ⟨rfl, rfl⟩
    | succ n ih =>
      intro s s' out h
      rw [Osc.fast] at h
      cases hs : waveform rd sine s.ty s.wave s.phase x with
      | none => rw [hs] at h; cases h
      | some v =>
        rw [hs] at h
        simp only [Option.bind_some] at h
        cases hr : Osc.fast rd sine x { s with phase := unroll rd (rd (s.phase + x)) } n with
        | none => rw [hr] at h; cases h
        | some q =>
          obtain ⟨o, s2⟩ := q
          rw [hr] at h
          cases h
          exact ih (s := { s with phase := unroll rd (rd (s.phase + x)) }) hr
  induction ops with
  | nil => intro s s' out hi h; cases h; exact hi
  | cons op ops ih =>
    intro s s' out hi h
    rw [Osc.run] at h
    cases hs : s.step rd sine comp dt count op with
    | none => rw [hs] at h; cases h
    | some r =>
      obtain ⟨o, s1⟩ := r
      rw [hs] at h
      simp only [Option.bind_some] at h
      cases hr : s1.run rd sine comp dt count ops with
      | none => rw [hr] at h; cases h
      | some q =>
        rw [hr] at h
        cases h
        refine ih ?_ hr
        cases op with
        | start t =>
          simp only [Osc.step] at hs
          split at hs <;> cases hs
          exact hi
        | stop t =>
          simp only [Osc.step] at hs
          split at hs <;> cases hs
          exact hi
        | setType ty =>
          simp only [Osc.step] at hs
          split at hs
          · cases hs
          · split at hs <;> cases hs <;> exact hi
        | setWave w => simp only [Osc.step] at hs; cases hs; exact hi
        | block freq detune =>
          simp only [Osc.step, Osc.process] at hs
          split at hs
          · cases hs; exact hsend s hi
          · split at hs
            · split at hs
              · cases hs; exact hsend s hi
              · cases hs; exact hi
            · have hadj : (s.adjust dt).events = s.events ∧ (s.adjust dt).ended = s.ended := by
                unfold Osc.adjust; simp only; split <;> simp
              cases hp : (s.adjust dt).play rd sine comp dt count freq detune with
              | none => rw [hp] at hs; cases hs
              | some r =>
                obtain ⟨o', q'⟩ := r
                rw [hp] at hs
                have hq : q'.events = q'.ended.toNat := by
                  have : q'.events = (s.adjust dt).events ∧ q'.ended = (s.adjust dt).ended := by
                    unfold Osc.play at hp
                    simp only at hp
                    split at hp
                    · split at hp
                      · exact hfast _ _ hp
                      · exact hslow _ hp
                    · exact hslow _ hp
                  rw [this.1, this.2, hadj.1, hadj.2]
                  exact hi
                simp only [Option.map_some] at hs
                split at hs
                · cases hs; exact hsend q' hq
                · cases hs; exact hq

omit [IsStrictOrderedRing K] in
/-- C44: the ended event of an oscillator is sent at most once, whatever calls are made. -/
theorem C44_ended_once {rd : K → K} {dt : K} {sine : List K} {comp : K → K → K} {count : Nat} {ty : OscType}
    {wave : Option (List K)} {ops : List (OscOp K)} {s : Osc K} {outs : List (List K)}
    (h : (Osc.new ty wave).run rd sine comp dt count ops = some (outs, s)) : s.events ≤ 1 := by
  have h0 : (Osc.new ty wave : Osc K).events = (Osc.new ty wave : Osc K).ended.toNat := by
    unfold Osc.new; cases wave <;> rfl
  rw [run_events ops h0 h]
  cases s.ended <;> simp

end

/-! ### examples and counterexamples -/

/-- four samples per quantum, sample rate 4, a table of four values -/
def demo (rd : ℚ → ℚ) (ty : OscType) (w : Option (List ℚ)) (ops : List (OscOp ℚ)) : Option (List (List ℚ)) :=
  ((Osc.new ty w).run rd [0, 1, 0, -1] (fun f _ => f) (1 / 4) 4 ops).map (·.1)

/-- An oscillator of 1/2 Hz that starts between two frames, in the second block. -/
example : demo id .sine none [.start (9 / 8), .block [1 / 2] [0], .block [1 / 2] [0], .block [1 / 2] [0]] =
    some [[], [], [0, 1 / 4, 3 / 4, 3 / 4], [1 / 4, -1 / 4, -3 / 4, -3 / 4]] := by decide +kernel

example : ∃ out s', ((Osc.new .sawtooth none : Osc ℚ).step id [0, 1, 0, -1] (fun f _ => f) (1 / 4) 4
    (.block [1 / 2] [0])) = some (out, s') ∧ out.length ≤ 4 := by
  obtain ⟨o, s, h1, h2, _⟩ := C44_no_panic (K := ℚ) (dt := 1 / 4) (sine := [0, 1, 0, -1]) (comp := fun f _ => f)
    (count := 4) (ty := .sawtooth) (wave := none) (ops := []) (by norm_num) (by simp) (by simp) (by simp) (by simp) rfl
    [1 / 2] [0]
  exact ⟨o, s, h1, by rcases h2 with h2 | h2 <;> simp [h2]⟩

/-- a sawtooth at an eighth of its period, of an eighth of the sample rate -/
example : waveform id [] .sawtooth none (1 / 8 : ℚ) (1 / 8) = some (1 / 4) :=
  C44_shapes (by norm_num) (by norm_num) (by norm_num) (by simp [jumps]; norm_num [abs_of_neg]) (by norm_num [ideal])

/-- C44 is false for a custom type without a wave, which the constructor accepts: the first block panics. -/
theorem C44_negated_custom : demo id .custom none [.start 0, .block [1] [0]] = none := by decide +kernel

/-- C44 is false for the default wave, which is empty. -/
theorem C44_negated_empty : demo id .sine none [.setWave [], .start 0, .block [1] [0]] = none := by decide +kernel

/-- C44 is false with the rounding of `f64`: a small negative frequency makes the phase 1, and the next lookup is out
of bounds. -/
theorem C44_negated_rounding :
    demo Float.f64 .sine none [.start 0, .block [-1 / 10 ^ 18] [0]] = none ∧
    unroll Float.f64 (Float.f64 (0 + -1 / 10 ^ 18)) = 1 := by
  constructor
  · decide +kernel
  · decide +kernel

/-- The phase of an oscillator whose start time is within less than a frame before the begin of a block is wrong: the
oscillator starts with phase 0 at the begin of the block, while at a place within a block it is sample accurate. -/
theorem C44_negated_start :
    demo id .sine none [.start (1 - 1 / 8), .block [1 / 2] [0], .block [1 / 2] [0]] =
      some [[], [0, 0, 0, 0], [0, 1 / 2, 1, 1 / 2]] ∧
    waveform id [0, 1, 0, -1] .sine none (Int.fract (1 / 2 * (1 - (1 - 1 / 8)))) (1 / 2 * (1 / 4) : ℚ) = some (1 / 4) := by
  constructor <;> decide +kernel

/-- An oscillator of 1/2 Hz that is stopped within the second block. -/
example : demo id .sine none [.start 0, .block [1 / 2] [0], .stop (3 / 2), .block [1 / 2] [0], .block [1 / 2] [0]] =
    some [[], [0, 1 / 2, 1, 1 / 2], [], [0, -1 / 2, 0, 0], []] := by decide +kernel

/-- An oscillator that has ended plays again after another call of `stop` with a later time, with the phase at which it
stopped. In the Web Audio specification such a call has no effect. -/
theorem C44_negated_restart :
    demo id .sine none [.start 0, .stop (1 / 4), .block [1 / 2] [0], .block [1 / 2] [0], .stop 9, .block [1 / 2] [0]] =
      some [[], [], [0, 0, 0, 0], [], [], [1 / 2, 1, 1 / 2, 0]] ∧
    demo id .sine none [.start 0, .stop 9, .block [1 / 2] [0], .block [1 / 2] [0], .block [1 / 2] [0]] =
      some [[], [], [0, 1 / 2, 1, 1 / 2], [0, -1 / 2, -1, -1 / 2], [0, 1 / 2, 1, 1 / 2]] := by
  constructor <;> decide +kernel

end Verif.Source
