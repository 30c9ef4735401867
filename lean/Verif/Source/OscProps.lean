import Verif.Source.OscModel
import Verif.Float.Round
import Mathlib.Algebra.Order.Field.Rat
import Mathlib.Data.Rat.Floor
import Mathlib.Tactic.Linarith
import Mathlib.Tactic.Positivity
import Mathlib.Tactic.Ring
import Mathlib.Tactic.FieldSimp
import Mathlib.Tactic.NormNum

/-!
# C44: phase, table lookups and range of the oscillator
-/

namespace Verif.Source

section
variable {K : Type} [Field K] [LinearOrder K] [FloorRing K] [IsStrictOrderedRing K]

/-! ### phase -/

theorem fract_of_mem {p : K} (h0 : 0 ≤ p) (h1 : p < 1) : Int.fract p = p := by
  rw [Int.fract_eq_iff]
  exact ⟨h0, h1, 0, by simp⟩

theorem unroll_eq {p : K} (h0 : -1 ≤ p) (h1 : p < 2) : unroll id p = Int.fract p := by
  unfold unroll
  simp only [id]
  split
  · symm
    rw [Int.fract_eq_iff]
    exact ⟨by linarith, by linarith, 1, by push_cast; ring⟩
  · split
    · symm
      rw [Int.fract_eq_iff]
      exact ⟨by linarith, by linarith, -1, by push_cast; ring⟩
    · rename_i h2 h3
      exact (fract_of_mem (not_lt.1 h3) (not_le.1 h2)).symm

theorem advance_eq {p : K} {o : Bool} (h : o = false → -1 ≤ p ∧ p < 2) : advance id o p = Int.fract p := by
  unfold advance
  cases o with
  | true => rfl
  | false => exact unroll_eq (h rfl).1 (h rfl).2

theorem incr_lt {dt f : K} (hdt : 0 < dt) (h : ¬ 1 / dt / 2 ≤ |f|) : |f * dt| < 1 / 2 := by
  rw [abs_mul, abs_of_pos hdt]
  have h := not_le.1 h
  calc |f| * dt < 1 / dt / 2 * dt := mul_lt_mul_of_pos_right h hdt
    _ = 1 / 2 := by field_simp

/-! ### one sample -/

/-- the phase is a phase; and an oscillator that is not started has phase zero -/
def Osc.Inv (s : Osc K) : Prop := 0 ≤ s.phase ∧ s.phase < 1 ∧ (s.started = false → s.phase = 0)

/-- an oscillator that has not been started at time `t` will not be, or its start is less than a frame away -/
def Osc.Loop (dt : K) (s : Osc K) (t : K) : Prop :=
  s.started = false → s.stop ≤ (t : WithTop K) ∨ ∀ a : K, s.start = a → t - a < dt

/-- the phase of the first sample, and no change afterwards -/
theorem first_phase {dt : K} (hdt : 0 < dt) {s : Osc K} {t f : K} (hi : s.Inv) (hl : s.Loop dt t)
    (h1 : s.start ≤ (t : WithTop K)) (h2 : (t : WithTop K) < s.stop) :
    ∃ a : K, s.start = a ∧ a ≤ t ∧
    s.first id dt t (f * dt) (decide (1 / dt / 2 ≤ |f|)) =
      { s with started := true, phase := if s.started then s.phase else Int.fract (f * (t - a)) } := by
  obtain ⟨a, ha⟩ : ∃ a : K, s.start = a := by
    cases hs : s.start with
    | top => rw [hs] at h1; exact absurd (top_le_iff.1 h1) (WithTop.coe_ne_top)
    | coe a => exact ⟨a, rfl⟩
  have hat : a ≤ t := by rw [ha] at h1; exact WithTop.coe_le_coe.1 h1
  refine ⟨a, ha, hat, ?_⟩
  unfold Osc.first
  by_cases hst : s.started = true
  · rw [if_pos hst, if_pos hst]
    cases s
    simp_all
  · have hst' : s.started = false := by simpa using hst
    rw [if_neg hst, if_neg hst]
    congr 1
    have hta : t - a < dt := by
      rcases hl hst' with h | h
      · exact absurd h2 (not_lt.2 h)
      · exact h a ha
    have he : f * dt * ((t - a) / dt) = f * (t - a) := by field_simp
    by_cases hlt : a < t
    · rw [if_pos (by rw [ha]; exact WithTop.coe_lt_coe.2 hlt), ha, WithTop.untopD_coe]
      simp only [id_eq]
      rw [advance_eq, he]
      intro ho
      have hb := incr_lt hdt (of_decide_eq_false ho)
      have hr0 : 0 ≤ (t - a) / dt := div_nonneg (by linarith) (le_of_lt hdt)
      have hr1 : (t - a) / dt ≤ 1 := by rw [div_le_one hdt]; linarith
      have : |f * dt * ((t - a) / dt)| ≤ 1 / 2 := by
        rw [abs_mul, abs_of_nonneg hr0]
        have := abs_nonneg (f * dt)
        nlinarith
      obtain ⟨h3, h4⟩ := abs_le.1 this
      constructor <;> linarith
    · have : t = a := le_antisymm (not_lt.1 hlt) hat
      rw [if_neg (by rw [ha]; exact fun h => hlt (WithTop.coe_lt_coe.1 h)), this, hi.2.2 hst']
      simp

/-- one sample: the output and the next state -/
theorem sample_spec {dt : K} (hdt : 0 < dt) {sine : List K} {s : Osc K} {t f : K} (hi : s.Inv) (hl : s.Loop dt t) :
    if s.start ≤ (t : WithTop K) ∧ (t : WithTop K) < s.stop then
      ∃ a p : K, s.start = a ∧ a ≤ t ∧ p = (if s.started then s.phase else Int.fract (f * (t - a))) ∧ 0 ≤ p ∧ p < 1 ∧
        s.sample id sine dt t f =
          (if 1 / dt / 2 ≤ |f| then some 0 else waveform id sine s.ty s.wave p (f * dt)).map fun v =>
            (v, { s with started := true, phase := Int.fract (p + f * dt) })
    else s.sample id sine dt t f = some (0, s) := by
  split
  · rename_i h
    obtain ⟨h1, h2⟩ := h
    obtain ⟨a, ha, hat, he⟩ := first_phase (f := f) hdt hi hl h1 h2
    have hp : 0 ≤ (if s.started then s.phase else Int.fract (f * (t - a))) ∧
        (if s.started then s.phase else Int.fract (f * (t - a))) < 1 := by
      split
      · exact ⟨hi.1, hi.2.1⟩
      · exact ⟨Int.fract_nonneg _, Int.fract_lt_one _⟩
    refine ⟨a, _, ha, hat, rfl, hp.1, hp.2, ?_⟩
    unfold Osc.sample
    rw [if_neg (by
      push Not
      exact ⟨h1, h2⟩)]
    simp only [he, id]
    have hadv : advance id (decide (1 / dt / 2 ≤ |f|))
        ((if s.started then s.phase else Int.fract (f * (t - a))) + f * dt) =
        Int.fract ((if s.started then s.phase else Int.fract (f * (t - a))) + f * dt) := by
      apply advance_eq
      intro ho
      obtain ⟨h3, h4⟩ := abs_lt.1 (incr_lt hdt (of_decide_eq_false ho))
      constructor <;> linarith [hp.1, hp.2]
    rw [hadv]
    by_cases ho : 1 / dt / 2 ≤ |f|
    · simp [ho]
    · simp only [ho, decide_false, Bool.false_eq_true, if_false]
  · rename_i h
    unfold Osc.sample
    rw [if_pos]
    by_contra hc
    push Not at hc
    exact h hc

theorem sample_inv {dt : K} (hdt : 0 < dt) {sine : List K} {s s' : Osc K} {t f v : K} (hi : s.Inv) (hl : s.Loop dt t)
    (h : s.sample id sine dt t f = some (v, s')) : s'.Inv ∧ s'.Loop dt (t + dt) ∧ s'.start = s.start ∧
      s'.stop = s.stop ∧ s'.ty = s.ty ∧ s'.wave = s.wave ∧ s'.frame = s.frame ∧ s'.hasStart = s.hasStart ∧
      s'.ctrlType = s.ctrlType ∧ s'.events = s.events ∧ s'.ended = s.ended ∧ (s.started = true → s'.started = true) ∧
      (s'.started = true → s.started = true ∨ s.start ≤ (t : WithTop K)) := by
  have hs := sample_spec (sine := sine) (f := f) hdt hi hl
  split at hs
  · rename_i hc
    obtain ⟨a, p, ha, hat, hp, hp0, hp1, he⟩ := hs
    rw [he] at h
    cases hw : (if 1 / dt / 2 ≤ |f| then some 0 else waveform id sine s.ty s.wave p (f * dt)) with
    | none => rw [hw] at h; cases h
    | some w =>
      rw [hw] at h
      cases h
      refine ⟨⟨Int.fract_nonneg _, Int.fract_lt_one _, by simp⟩, by intro h; simp at h, rfl, rfl, rfl, rfl, rfl, rfl, rfl,
        rfl, rfl, by simp, fun _ => .inr hc.1⟩
  · rename_i hc
    rw [hs] at h
    cases h
    refine ⟨hi, ?_, rfl, rfl, rfl, rfl, rfl, rfl, rfl, rfl, rfl, id, fun h => .inl h⟩
    intro hst
    rcases hl hst with h | h
    · left
      exact le_trans h (WithTop.coe_le_coe.2 (by linarith))
    · by_cases h2 : s.stop ≤ (t : WithTop K)
      · left
        exact le_trans h2 (WithTop.coe_le_coe.2 (by linarith))
      · right
        intro a ha
        have : ¬ s.start ≤ (t : WithTop K) := fun h1 => hc ⟨h1, not_le.1 h2⟩
        rw [ha] at this
        have := WithTop.coe_lt_coe.1 (not_le.1 this)
        linarith

/-! ### blocks -/

theorem slow_inv {dt : K} (hdt : 0 < dt) {sine : List K} (fs : List K) : ∀ {s s' : Osc K} {t : K} {out : List K},
    s.Inv → s.Loop dt t → s.slow id sine dt t fs = some (out, s') → s'.Inv ∧ s'.start = s.start ∧
      s'.stop = s.stop ∧ s'.ty = s.ty ∧ s'.wave = s.wave ∧ s'.frame = s.frame ∧ s'.hasStart = s.hasStart ∧
      s'.ctrlType = s.ctrlType ∧ s'.events = s.events ∧ s'.ended = s.ended ∧ out.length = fs.length := by
  induction fs with
  | nil => intro s s' t out hi _ h; cases h; exact ⟨hi, rfl, rfl, rfl, rfl, rfl, rfl, rfl, rfl, rfl, rfl⟩
  | cons f fs ih =>
    intro s s' t out hi hl h
    rw [Osc.slow] at h
    cases hs : s.sample id sine dt t f with
    | none => rw [hs] at h; cases h
    | some r =>
      obtain ⟨v, s1⟩ := r
      rw [hs] at h
      obtain ⟨i1, i2, e1, e2, e3, e4, e5, e6, e7, e8, e9, _⟩ := sample_inv hdt hi hl hs
      simp only [Option.bind_some] at h
      cases hr : Osc.slow id sine dt s1 (t + dt) fs with
      | none => rw [hr] at h; cases h
      | some q =>
        obtain ⟨o, s2⟩ := q
        rw [hr] at h
        cases h
        obtain ⟨j0, j1, j2, j3, j4, j5, j6, j7, j8, j9, j10⟩ := ih i1 i2 hr
        exact ⟨j0, j1.trans e1, j2.trans e2, j3.trans e3, j4.trans e4, j5.trans e5, j6.trans e6, j7.trans e7,
          j8.trans e8, j9.trans e9, by simp [j10]⟩

omit [IsStrictOrderedRing K] in
/-- The two paths agree, for any rounding. -/
theorem fast_eq_slow [IsStrictOrderedRing K] {rd : K → K} {dt : K} (hdt : 0 < dt) {sine : List K} {f : K}
    (hf : ¬ 1 / dt / 2 ≤ |f|)
    (n : Nat) : ∀ {s : Osc K} {t : K}, s.started = true → s.start ≤ (t : WithTop K) →
    ((t + dt * n : K) : WithTop K) ≤ s.stop →
    s.fast rd sine (rd (f * dt)) n = s.slow rd sine dt t (List.replicate n f) := by
  induction n with
  | zero => intro s t _ _ _; rfl
  | succ n ih =>
    intro s t h1 h2 h3
    rw [Osc.fast, List.replicate_succ, Osc.slow]
    have hlt : (t : WithTop K) < s.stop := by
      refine lt_of_lt_of_le (WithTop.coe_lt_coe.2 ?_) h3
      push_cast
      have : 0 ≤ dt * n := by positivity
      linarith
    have hsam : s.sample rd sine dt t f = (waveform rd sine s.ty s.wave s.phase (rd (f * dt))).map fun v =>
        (v, { s with phase := unroll rd (rd (s.phase + rd (f * dt))) }) := by
      unfold Osc.sample Osc.first
      rw [if_neg (by
        push Not
        exact ⟨h2, hlt⟩)]
      simp only [h1, if_true, hf, decide_false, Bool.false_eq_true, if_false, advance]
    rw [hsam]
    cases hw : waveform rd sine s.ty s.wave s.phase (rd (f * dt)) with
    | none => rfl
    | some v =>
      simp only [Option.bind_some, Option.map_some]
      rw [ih (s := { s with phase := unroll rd (rd (s.phase + rd (f * dt))) }) (t := t + dt) h1
        (le_trans h2 (WithTop.coe_le_coe.2 (by linarith))) (by
          refine le_trans (le_of_eq ?_) h3
          congr 1
          push_cast
          ring)]

/-- The samples of a block are those of the loop over all frames. -/
theorem play_eq_slow {rd : K → K} {dt : K} (hdt : 0 < dt) {sine : List K} {comp : K → K → K} {count : Nat} {s : Osc K}
    {freq detune : List K} :
    s.play rd sine comp dt count freq detune = s.slow rd sine dt (s.frame * dt) (freqs comp count freq detune) := by
  unfold Osc.play
  simp only
  split
  · rename_i h
    have e : freqs comp count freq detune = List.replicate count (comp (freq.getD 0 0) (detune.getD 0 0)) := by
      unfold freqs
      rw [h.1, h.2]
      apply List.ext_getElem
      · simp
      · intro i h1 h2
        simp [Nat.mod_one]
    rw [e]
    split
    · rename_i h2
      exact fast_eq_slow hdt h2.2 count h2.1.1 h2.1.2.1 h2.1.2.2
    · rfl
  · rfl

theorem adjust_loop {dt : K} (hdt : 0 < dt) {s : Osc K} (hi : s.Inv) :
    (s.adjust dt).Inv ∧ (s.adjust dt).Loop dt (s.frame * dt) := by
  unfold Osc.adjust
  simp only
  split
  · rename_i h
    refine ⟨hi, fun _ => .inr fun a ha => ?_⟩
    have : (s.frame * dt : K) = a := WithTop.coe_injective ha
    rw [this]
    simpa using hdt
  · rename_i h
    refine ⟨hi, fun hst => .inr fun a ha => ?_⟩
    have : ¬ s.start < ((s.frame * dt : K) : WithTop K) := fun hc => h ⟨hst, hc⟩
    rw [ha] at this
    have := WithTop.coe_le_coe.1 (not_lt.1 this)
    linarith

theorem step_inv {dt : K} (hdt : 0 < dt) {sine : List K} {comp : K → K → K} {count : Nat} {s s' : Osc K} {op : OscOp K}
    {out : List K} (hi : s.Inv) (h : s.step id sine comp dt count op = some (out, s')) : s'.Inv := by
  cases op with
  | start t =>
    simp only [Osc.step] at h
    split at h
    · cases h
    · cases h; exact hi
  | stop t =>
    simp only [Osc.step] at h
    split at h
    · cases h
    · cases h; exact hi
  | setType ty =>
    simp only [Osc.step] at h
    split at h
    · cases h
    · split at h <;> cases h <;> exact hi
  | setWave w => simp only [Osc.step] at h; cases h; exact hi
  | block freq detune =>
    simp only [Osc.step] at h
    have hse : ∀ q : Osc K, q.Inv → q.sendEnded.Inv := by
      intro q hq; unfold Osc.sendEnded; split <;> exact hq
    have hfr : ∀ (q : Osc K) (n : Nat), q.Inv → ({ q with frame := n } : Osc K).Inv := fun _ _ hq => hq
    unfold Osc.process at h
    simp only at h
    split at h
    · cases h; exact hfr _ _ (hse _ hi)
    · split at h
      · split at h
        · cases h; exact hfr _ _ (hse _ hi)
        · cases h; exact hi
      · cases hp : (s.adjust dt).play id sine comp dt count freq detune with
        | none => rw [hp] at h; cases h
        | some r =>
          obtain ⟨o, q⟩ := r
          rw [hp] at h
          rw [play_eq_slow hdt] at hp
          obtain ⟨a1, a2⟩ := adjust_loop hdt hi
          have hfe : (s.adjust dt).frame = s.frame := by unfold Osc.adjust; simp only; split <;> rfl
          rw [hfe] at hp
          have hq := (slow_inv hdt _ a1 a2 hp).1
          simp only [Option.map_some] at h
          split at h
          · cases h; exact hfr _ _ (hse _ hq)
          · cases h; exact hq

theorem run_inv {dt : K} (hdt : 0 < dt) {sine : List K} {comp : K → K → K} {count : Nat} (ops : List (OscOp K)) :
    ∀ {s s' : Osc K} {out : List (List K)}, s.Inv → s.run id sine comp dt count ops = some (out, s') → s'.Inv := by
  induction ops with
  | nil => intro s s' out hi h; cases h; exact hi
  | cons op ops ih =>
    intro s s' out hi h
    rw [Osc.run] at h
    cases hs : s.step id sine comp dt count op with
    | none => rw [hs] at h; cases h
    | some r =>
      obtain ⟨o, s1⟩ := r
      rw [hs] at h
      simp only [Option.bind_some] at h
      cases hr : s1.run id sine comp dt count ops with
      | none => rw [hr] at h; cases h
      | some q =>
        rw [hr] at h
        cases h
        exact ih (step_inv hdt hi hs) hr

omit [FloorRing K] in
theorem new_inv (ty : OscType) (w : Option (List K)) : (Osc.new ty w : Osc K).Inv := by
  unfold Osc.new
  cases w <;> exact ⟨le_refl _, zero_lt_one, fun _ => rfl⟩

/-- C44, phase: after any calls and any blocks, with any values of frequency and detune in each frame (also beyond the
Nyquist frequency), the phase is in `[0, 1)`. -/
theorem C44_phase {dt : K} (hdt : 0 < dt) {sine : List K} {comp : K → K → K} {count : Nat} {ty : OscType}
    {w : Option (List K)} {ops : List (OscOp K)} {s : Osc K} {out : List (List K)}
    (h : (Osc.new ty w).run id sine comp dt count ops = some (out, s)) : 0 ≤ s.phase ∧ s.phase < 1 :=
  let i := run_inv hdt ops (new_inv ty w) h
  ⟨i.1, i.2.1⟩

/-! ### lookups and shapes -/

/-- Specification: linear interpolation between two neighbours of a table that is closed to a ring -/
theorem lookup_spec {table : List K} (hne : table ≠ []) {phase : K} (h0 : 0 ≤ phase) (h1 : phase < 1) :
    ∃ (i j : Nat) (a b k : K), table[i]? = some a ∧ table[j]? = some b ∧ j = (i + 1) % table.length ∧ 0 ≤ k ∧ k < 1 ∧
      phase * table.length = i + k ∧ lookup id table phase = some (a * (1 - k) + b * k) := by
  have hlen : 0 < table.length := List.length_pos_iff.2 hne
  have hlen' : (0 : K) < table.length := by exact_mod_cast hlen
  have hp0 : 0 ≤ phase * table.length := mul_nonneg h0 (le_of_lt hlen')
  have hp1 : phase * table.length < table.length := by nlinarith
  obtain ⟨i, hi⟩ : ∃ i : Nat, ⌊phase * (table.length : K)⌋ = i :=
    Int.eq_ofNat_of_zero_le (Int.floor_nonneg.2 hp0)
  have hil : i < table.length := by
    have h2 := Int.floor_le (phase * (table.length : K))
    rw [hi] at h2
    have : (i : K) < table.length := by
      have : ((i : ℤ) : K) = (i : K) := by push_cast; rfl
      linarith
    exact_mod_cast this
  have hj : (if i + 1 = table.length then 0 else i + 1) = (i + 1) % table.length := by
    split
    · rename_i h; rw [h, Nat.mod_self]
    · rw [Nat.mod_eq_of_lt (by omega)]
  have hjl : (i + 1) % table.length < table.length := Nat.mod_lt _ hlen
  have hk0 := Int.floor_le (phase * (table.length : K))
  have hk1 := Int.lt_floor_add_one (phase * (table.length : K))
  rw [hi] at hk0 hk1
  push_cast at hk0 hk1
  refine ⟨i, (i + 1) % table.length, table[i], table[(i + 1) % table.length], phase * table.length - i,
    List.getElem?_eq_getElem hil, List.getElem?_eq_getElem hjl, rfl, by linarith, by linarith, by ring, ?_⟩
  unfold lookup
  simp only [id, hi, Int.toNat_natCast]
  rw [hj, List.getElem?_eq_getElem hil, List.getElem?_eq_getElem hjl]
  simp

omit [FloorRing K] in
theorem blep_low {t dt : K} (hdt : 0 < dt) : t / dt + t / dt - t / dt * (t / dt) - 1 = -(1 - t / dt) ^ 2 := by ring

omit [FloorRing K] in
/-- the correction is at most 1 in absolute value, with the sign of its side -/
theorem blep_range {t dt : K} (h0 : 0 ≤ t) (h1 : t < 1) (hd : dt < 1 / 2) :
    (t < dt → -1 ≤ polyBlep t dt ∧ polyBlep t dt ≤ 0) ∧ (¬ t < dt → 1 - dt < t → 0 ≤ polyBlep t dt ∧ polyBlep t dt ≤ 1) ∧
    (¬ t < dt → ¬ 1 - dt < t → polyBlep t dt = 0) := by
  unfold polyBlep
  refine ⟨fun h => ?_, fun h h' => ?_, fun h h' => ?_⟩
  · rw [if_pos h]
    have hdt : 0 < dt := by linarith
    have hx0 : 0 ≤ t / dt := div_nonneg h0 (le_of_lt hdt)
    have hx1 : t / dt < 1 := by rw [div_lt_one hdt]; exact h
    constructor <;> nlinarith
  · rw [if_neg h, if_pos h']
    have hdt : 0 < dt := by linarith
    have hx0 : (t - 1) / dt < 0 := div_neg_of_neg_of_pos (by linarith) hdt
    have hx1 : -1 < (t - 1) / dt := by rw [lt_div_iff₀ hdt]; linarith
    constructor <;> nlinarith
  · rw [if_neg h, if_neg h']

theorem half_phase {p : K} (h0 : 0 ≤ p) (h1 : p < 1) :
    unroll id (p + 1 / 2) = if p < 1 / 2 then p + 1 / 2 else p - 1 / 2 := by
  unfold unroll
  simp only [id]
  by_cases h : p < 1 / 2
  · rw [if_pos h, if_neg (by linarith), if_neg (by linarith)]
  · rw [if_neg h, if_pos (by linarith)]
    ring

/-- C44: the sawtooth, with its correction, is within `[-1, 1]`. -/
theorem C44_sawtooth {p incr : K} (h0 : 0 ≤ p) (h1 : p < 1) (hi : incr < 1 / 2) : |sawtooth id p incr| ≤ 1 := by
  unfold sawtooth
  simp only
  have hq : 0 ≤ unroll id (p + 1 / 2) ∧ unroll id (p + 1 / 2) < 1 := by
    rw [half_phase h0 h1]; split <;> constructor <;> linarith
  generalize unroll id (p + 1 / 2) = q at *
  obtain ⟨hq0, hq1⟩ := hq
  rw [abs_le]
  unfold polyBlep
  split
  · rename_i h
    have hdt : 0 < incr := by linarith
    have hx0 : 0 ≤ q / incr := div_nonneg hq0 (le_of_lt hdt)
    have hx1 : q / incr < 1 := by rw [div_lt_one hdt]; exact h
    have hqx : q = q / incr * incr := by field_simp
    generalize q / incr = x at *
    subst hqx
    constructor <;> nlinarith
  · split
    · rename_i h h'
      have hdt : 0 < incr := by linarith
      have hx0 : (q - 1) / incr < 0 := div_neg_of_neg_of_pos (by linarith) hdt
      have hx1 : -1 < (q - 1) / incr := by rw [lt_div_iff₀ hdt]; linarith
      have hqx : q = 1 + (q - 1) / incr * incr := by field_simp; ring
      generalize (q - 1) / incr = x at *
      subst hqx
      constructor <;> nlinarith
    · constructor <;> linarith

/-- C44: the square, with its corrections, is within `[-1, 1]`. -/
theorem C44_square {p incr : K} (h0 : 0 ≤ p) (h1 : p < 1) (hi : incr < 1 / 2) : |square id p incr| ≤ 1 := by
  unfold square
  rw [half_phase h0 h1]
  by_cases h : p < 1 / 2
  · rw [if_pos h, if_pos h, abs_le]
    obtain ⟨a1, a2, a3⟩ := blep_range (dt := incr) h0 h1 hi
    obtain ⟨b1, b2, b3⟩ := blep_range (t := p + 1 / 2) (dt := incr) (by linarith) (by linarith) hi
    have hb : ¬ p + 1 / 2 < incr := by linarith
    have ha : ¬ 1 - incr < p := by linarith
    have hB : 0 ≤ polyBlep (p + 1 / 2) incr ∧ polyBlep (p + 1 / 2) incr ≤ 1 := by
      by_cases h2 : 1 - incr < p + 1 / 2
      · exact b2 hb h2
      · rw [b3 hb h2]; exact ⟨le_refl _, zero_le_one⟩
    have hA : -1 ≤ polyBlep p incr ∧ polyBlep p incr ≤ 0 := by
      by_cases h2 : p < incr
      · exact a1 h2
      · rw [a3 h2 ha]; constructor <;> linarith
    constructor <;> linarith [hA.1, hA.2, hB.1, hB.2]
  · rw [if_neg h, if_neg h, abs_le]
    have h := not_lt.1 h
    obtain ⟨a1, a2, a3⟩ := blep_range (dt := incr) h0 h1 hi
    obtain ⟨b1, b2, b3⟩ := blep_range (t := p - 1 / 2) (dt := incr) (by linarith) (by linarith) hi
    have ha : ¬ p < incr := by linarith
    have hb : ¬ 1 - incr < p - 1 / 2 := by linarith
    have hA : 0 ≤ polyBlep p incr ∧ polyBlep p incr ≤ 1 := by
      by_cases h2 : 1 - incr < p
      · exact a2 ha h2
      · rw [a3 ha h2]; exact ⟨le_refl _, zero_le_one⟩
    have hB : -1 ≤ polyBlep (p - 1 / 2) incr ∧ polyBlep (p - 1 / 2) incr ≤ 0 := by
      by_cases h2 : p - 1 / 2 < incr
      · exact b1 h2
      · rw [b3 h2 hb]; constructor <;> linarith
    constructor <;> linarith [hA.1, hA.2, hB.1, hB.2]

omit [FloorRing K] in
/-- C44: the triangle is within `[-1, 1]`. -/
theorem C44_triangle {p : K} (h0 : 0 ≤ p) (h1 : p < 1) : |triangle p| ≤ 1 := by
  unfold triangle
  simp only
  rw [abs_le]
  split
  · constructor <;> linarith
  · split <;> constructor <;> linarith

/-- the ideal waveforms over one period: start at zero (the square at one) and go up first -/
def ideal : OscType → K → Option K
  | .triangle, p => some (if p ≤ 1 / 4 then 4 * p else if p ≤ 3 / 4 then 2 - 4 * p else 4 * p - 4)
  | .sawtooth, p => some (if p < 1 / 2 then 2 * p else 2 * p - 2)
  | .square, p => some (if p < 1 / 2 then 1 else -1)
  | _, _ => none

/-- the jumps of the ideal waveforms -/
def jumps : OscType → List K
  | .sawtooth => [1 / 2]
  | .square => [0, 1 / 2, 1]
  | _ => []

/-- C44: triangle, sawtooth and square are the ideal waveforms at every phase at least one increment away from a
jump (everywhere for the triangle, and for negative frequencies). -/
theorem C44_shapes {ty : OscType} {p incr v : K} (h0 : 0 ≤ p) (h1 : p < 1) (hi : incr < 1 / 2)
    (hj : ∀ x ∈ (jumps ty : List K), incr ≤ |p - x|) (hv : ideal ty p = some v) {sine : List K} {wave : Option (List K)} :
    waveform id sine ty wave p incr = some v := by
  have hblep : ∀ t : K, incr ≤ t → t ≤ 1 - incr → polyBlep t incr = 0 := by
    intro t t1 t2
    unfold polyBlep
    rw [if_neg (not_lt.2 t1), if_neg (not_lt.2 t2)]
  cases ty with
  | sine => cases hv
  | custom => cases hv
  | triangle =>
    injection hv with hv
    subst hv
    simp only [waveform, triangle]
    congr 1
    by_cases c1 : p < 1 / 4
    · rw [if_pos (by linarith), if_pos c1.le]; ring
    · rw [if_neg (by linarith)]
      by_cases c2 : p ≤ 1 / 4
      · have : p = 1 / 4 := le_antisymm c2 (not_lt.1 c1)
        rw [if_pos c2, if_neg (by linarith)]; rw [this]; norm_num
      · rw [if_neg c2]
        by_cases c3 : p ≤ 3 / 4
        · rw [if_pos c3, if_neg (by linarith)]; ring
        · rw [if_neg c3, if_pos (by linarith)]; ring
  | sawtooth =>
    injection hv with hv
    subst hv
    have hj := hj (1 / 2) (by simp [jumps])
    simp only [waveform, sawtooth]
    rw [half_phase h0 h1]
    congr 1
    by_cases c : p < 1 / 2
    · rw [abs_of_neg (by linarith)] at hj
      rw [if_pos c, if_pos c, hblep _ (by linarith) (by linarith)]
      ring
    · rw [abs_of_nonneg (by linarith)] at hj
      rw [if_neg c, if_neg c, hblep _ (by linarith) (by linarith)]
      ring
  | square =>
    injection hv with hv
    subst hv
    have j0 := hj 0 (by simp [jumps])
    have j1 := hj 1 (by simp [jumps])
    have jh := hj (1 / 2) (by simp [jumps])
    rw [sub_zero, abs_of_nonneg h0] at j0
    rw [abs_of_neg (by linarith)] at j1
    simp only [waveform, square]
    rw [half_phase h0 h1, hblep p j0 (by linarith)]
    congr 1
    by_cases c : p < 1 / 2
    · rw [abs_of_neg (by linarith)] at jh
      rw [if_pos c, if_pos c, hblep _ (by linarith) (by linarith)]
      ring
    · rw [abs_of_nonneg (by linarith)] at jh
      rw [if_neg c, if_neg c, hblep _ (by linarith) (by linarith)]
      ring

/-- a type can be played: a custom oscillator has a table that is not empty -/
def Playable (ty : OscType) (wave : Option (List K)) : Prop := ty = .custom → ∃ w, wave = some w ∧ w ≠ []

/-- C44: a phase in `[0, 1)` gives a sample, no index is out of bounds, and samples are within `[-1, 1]` if the tables
are. -/
theorem C44_waveform {sine : List K} (hne : sine ≠ []) {ty : OscType} {wave : Option (List K)} (hw : Playable ty wave)
    {p incr : K} (h0 : 0 ≤ p) (h1 : p < 1) (hi : incr < 1 / 2) :
    ∃ v, waveform id sine ty wave p incr = some v ∧
      ((∀ x ∈ sine, |x| ≤ 1) → (∀ w, wave = some w → ∀ x ∈ w, |x| ≤ 1) → |v| ≤ 1) := by
  have hconv : ∀ {a b k : K}, |a| ≤ 1 → |b| ≤ 1 → 0 ≤ k → k < 1 → |a * (1 - k) + b * k| ≤ 1 := by
    intro a b k ha hb hk0 hk1
    obtain ⟨a1, a2⟩ := abs_le.1 ha
    obtain ⟨b1, b2⟩ := abs_le.1 hb
    rw [abs_le]
    constructor <;> nlinarith
  cases ty with
  | sine =>
    obtain ⟨i, j, a, b, k, ha, hb, _, hk0, hk1, _, e⟩ := lookup_spec hne h0 h1
    exact ⟨_, e, fun hs _ => hconv (hs _ (List.mem_of_getElem? ha)) (hs _ (List.mem_of_getElem? hb)) hk0 hk1⟩
  | sawtooth => exact ⟨_, rfl, fun _ _ => C44_sawtooth h0 h1 hi⟩
  | square => exact ⟨_, rfl, fun _ _ => C44_square h0 h1 hi⟩
  | triangle => exact ⟨_, rfl, fun _ _ => C44_triangle h0 h1⟩
  | custom =>
    obtain ⟨w, rfl, hwn⟩ := hw rfl
    obtain ⟨i, j, a, b, k, ha, hb, _, hk0, hk1, _, e⟩ := lookup_spec hwn h0 h1
    exact ⟨_, e, fun _ hs => hconv (hs w rfl _ (List.mem_of_getElem? ha)) (hs w rfl _ (List.mem_of_getElem? hb)) hk0 hk1⟩

/-! ### whole blocks -/

/-- the tables are within `[-1, 1]` -/
def Tables (sine : List K) (wave : Option (List K)) : Prop :=
  (∀ x ∈ sine, |x| ≤ 1) ∧ ∀ w, wave = some w → ∀ x ∈ w, |x| ≤ 1

theorem slow_total {dt : K} (hdt : 0 < dt) {sine : List K} (hne : sine ≠ []) (fs : List K) : ∀ {s : Osc K} {t : K},
    s.Inv → s.Loop dt t → Playable s.ty s.wave → ∃ out s', s.slow id sine dt t fs = some (out, s') ∧
      (Tables sine s.wave → ∀ v ∈ out, |v| ≤ 1) := by
  induction fs with
  | nil => intro s t _ _ _; exact ⟨_, _, rfl, by simp⟩
  | cons f fs ih =>
    intro s t hi hl hp
    have hsam : ∃ v s1, s.sample id sine dt t f = some (v, s1) ∧ (Tables sine s.wave → |v| ≤ 1) := by
      have hs := sample_spec (sine := sine) (f := f) hdt hi hl
      split at hs
      · obtain ⟨a, p, ha, hat, hpe, hp0, hp1, he⟩ := hs
        rw [he]
        by_cases ho : 1 / dt / 2 ≤ |f|
        · rw [if_pos ho]
          exact ⟨_, _, rfl, by simp⟩
        · rw [if_neg ho]
          obtain ⟨v, hv, hr⟩ := C44_waveform hne hp hp0 hp1 (incr := f * dt)
            (lt_of_le_of_lt (le_abs_self _) (incr_lt hdt ho))
          rw [hv]
          exact ⟨_, _, rfl, fun ht => hr ht.1 ht.2⟩
      · exact ⟨_, _, hs, by simp⟩
    obtain ⟨v, s1, hs, hv⟩ := hsam
    obtain ⟨i1, i2, e1, e2, e3, e4, _⟩ := sample_inv hdt hi hl hs
    obtain ⟨o, s2, ho, hr⟩ := ih i1 i2 (by rw [e3, e4]; exact hp)
    refine ⟨v :: o, s2, by rw [Osc.slow, hs]; simp [ho], fun ht x hx => ?_⟩
    rcases List.mem_cons.1 hx with rfl | hx
    · exact hv ht
    · rw [e4] at hr; exact hr ht x hx

theorem block_eq {dt : K} (hdt : 0 < dt) {sine : List K} {comp : K → K → K} {count : Nat} {s : Osc K}
    {freq detune : List K} {r : List K × Osc K}
    (h : (s.adjust dt).slow id sine dt (s.frame * dt) (freqs comp count freq detune) = some r)
    (h1 : ¬ s.stop ≤ ((s.frame * dt : K) : WithTop K))
    (h2 : ¬ ((s.frame * dt + dt * count : K) : WithTop K) ≤ s.start) :
    ∃ s', s.step id sine comp dt count (.block freq detune) = some (r.1, s') ∧ s'.phase = r.2.phase ∧
      s'.started = r.2.started ∧ s'.start = r.2.start := by
  have hfe : (s.adjust dt).frame = s.frame := by unfold Osc.adjust; simp only; split <;> rfl
  simp only [Osc.step, Osc.process]
  rw [if_neg h1, if_neg h2, play_eq_slow hdt, hfe, h]
  simp only [Option.map_some]
  have hse : ∀ q : Osc K, q.sendEnded.phase = q.phase ∧ q.sendEnded.started = q.started ∧
      q.sendEnded.start = q.start := by
    intro q; unfold Osc.sendEnded; split <;> simp
  split
  · exact ⟨_, rfl, hse _⟩
  · exact ⟨_, rfl, rfl, rfl, rfl⟩

/-- what the calls do to type and wave -/
theorem step_playable {dt : K} (hdt : 0 < dt) {sine : List K} {comp : K → K → K} {count : Nat} {s s' : Osc K}
    {op : OscOp K} {out : List K} (hi : s.Inv) (hc : s.ctrlType = s.ty) (hp : Playable s.ty s.wave)
    (hop : ∀ w, op = .setWave w → w ≠ []) (h : s.step id sine comp dt count op = some (out, s')) :
    s'.ctrlType = s'.ty ∧ Playable s'.ty s'.wave ∧
      (s'.wave = s.wave ∨ ∃ w, op = .setWave w ∧ s'.wave = some w) := by
  have hse : ∀ q : Osc K, q.sendEnded.ctrlType = q.ctrlType ∧ q.sendEnded.ty = q.ty ∧ q.sendEnded.wave = q.wave := by
    intro q; unfold Osc.sendEnded; split <;> simp
  cases op with
  | start t =>
    simp only [Osc.step] at h
    split at h
    · cases h
    · cases h; exact ⟨hc, hp, .inl rfl⟩
  | stop t =>
    simp only [Osc.step] at h
    split at h
    · cases h
    · cases h; exact ⟨hc, hp, .inl rfl⟩
  | setType ty =>
    simp only [Osc.step] at h
    split at h
    · cases h
    · rename_i hne
      split at h
      · cases h; exact ⟨hc, hp, .inl rfl⟩
      · cases h; exact ⟨rfl, fun hcu => absurd hcu hne, .inl rfl⟩
  | setWave w =>
    simp only [Osc.step] at h
    cases h
    exact ⟨rfl, fun _ => ⟨w, rfl, hop w rfl⟩, .inr ⟨w, rfl, rfl⟩⟩
  | block freq detune =>
    have key : s'.ctrlType = s.ctrlType ∧ s'.ty = s.ty ∧ s'.wave = s.wave := by
      simp only [Osc.step, Osc.process] at h
      split at h
      · cases h; exact hse s
      · split at h
        · split at h
          · cases h; exact hse s
          · cases h; exact ⟨rfl, rfl, rfl⟩
        · rw [play_eq_slow hdt] at h
          have hfe : (s.adjust dt).frame = s.frame ∧ (s.adjust dt).ctrlType = s.ctrlType ∧ (s.adjust dt).ty = s.ty ∧
              (s.adjust dt).wave = s.wave := by unfold Osc.adjust; simp only; split <;> simp
          rw [hfe.1] at h
          obtain ⟨a1, a2⟩ := adjust_loop hdt hi
          cases hp : (s.adjust dt).slow id sine dt (s.frame * dt) (freqs comp count freq detune) with
          | none => rw [hp] at h; cases h
          | some r =>
            obtain ⟨o, q⟩ := r
            rw [hp] at h
            obtain ⟨_, _, _, e1, e2, _, _, e3, _⟩ := slow_inv hdt _ a1 a2 hp
            simp only [Option.map_some] at h
            split at h
            · cases h
              obtain ⟨f1, f2, f3⟩ := hse q
              exact ⟨f1.trans (e3.trans hfe.2.1), f2.trans (e1.trans hfe.2.2.1), f3.trans (e2.trans hfe.2.2.2)⟩
            · cases h
              exact ⟨e3.trans hfe.2.1, e1.trans hfe.2.2.1, e2.trans hfe.2.2.2⟩
    exact ⟨by rw [key.1, key.2.1]; exact hc, by rw [key.2.1, key.2.2]; exact hp, .inl key.2.2⟩

/-- after any history: tables are as they were set -/
theorem run_playable {dt : K} (hdt : 0 < dt) {sine : List K} {comp : K → K → K} {count : Nat} (P : List K → Prop)
    (hP : ∀ w, P w → w ≠ []) (ops : List (OscOp K)) : ∀ {s s' : Osc K} {out : List (List K)}, s.Inv →
    s.ctrlType = s.ty → Playable s.ty s.wave → (∀ w, s.wave = some w → P w) → (∀ w, .setWave w ∈ ops → P w) →
    s.run id sine comp dt count ops = some (out, s') →
    s'.Inv ∧ s'.ctrlType = s'.ty ∧ Playable s'.ty s'.wave ∧ ∀ w, s'.wave = some w → P w := by
  induction ops with
  | nil => intro s s' out hi h1 h2 h3 _ h; cases h; exact ⟨hi, h1, h2, h3⟩
  | cons op ops ih =>
    intro s s' out hi h1 h2 h3 h4 h
    rw [Osc.run] at h
    cases hs : s.step id sine comp dt count op with
    | none => rw [hs] at h; cases h
    | some r =>
      obtain ⟨o, s1⟩ := r
      rw [hs] at h
      simp only [Option.bind_some] at h
      cases hr : s1.run id sine comp dt count ops with
      | none => rw [hr] at h; cases h
      | some q =>
        obtain ⟨q1, q2⟩ := q
        rw [hr] at h
        cases h
        obtain ⟨i1, i2, i3⟩ := step_playable hdt hi h1 h2 (fun w hw => hP w (h4 w (by simp [hw]))) hs
        refine ih (step_inv hdt hi hs) i1 i2 ?_ (fun w hw => h4 w (by simp [hw])) hr
        intro w hw
        rcases i3 with e | ⟨w', rfl, e⟩
        · exact h3 w (by rw [← e]; exact hw)
        · rw [e] at hw
          obtain rfl := Option.some.inj hw
          exact h4 w' (by simp)

/-- C44: an oscillator whose custom type, if any, comes with a table that is not empty never panics in a block,
whatever calls were made and blocks rendered before, for any frequencies; and all samples are within `[-1, 1]` if the
tables are. -/
theorem C44_no_panic {dt : K} (hdt : 0 < dt) {sine : List K} (hne : sine ≠ []) {comp : K → K → K} {count : Nat}
    {ty : OscType} {wave : Option (List K)} (hw : ∀ w, wave = some w → w ≠ []) (hty : ty = .custom → wave ≠ none)
    {ops : List (OscOp K)} (hops : ∀ w, .setWave w ∈ ops → w ≠ []) {s : Osc K} {outs : List (List K)}
    (h : (Osc.new ty wave).run id sine comp dt count ops = some (outs, s)) (freq detune : List K) :
    ∃ out s', s.step id sine comp dt count (.block freq detune) = some (out, s') ∧ (out = [] ∨ out.length = count) ∧
      ((∀ x ∈ sine, |x| ≤ 1) → (∀ w, wave = some w ∨ .setWave w ∈ ops → ∀ x ∈ w, |x| ≤ 1) → ∀ v ∈ out, |v| ≤ 1) := by
  have hinit : (Osc.new ty wave).Inv ∧ (Osc.new ty wave).ctrlType = (Osc.new ty wave : Osc K).ty ∧
      Playable (Osc.new ty wave : Osc K).ty (Osc.new ty wave).wave ∧
      (Osc.new ty wave : Osc K).wave = wave := by
    refine ⟨new_inv ty wave, ?_, ?_, ?_⟩
    · cases wave <;> rfl
    · intro hcu
      cases wave with
      | none => exact absurd rfl (hty hcu)
      | some w => exact ⟨w, rfl, hw w rfl⟩
    · cases wave <;> rfl
  obtain ⟨j1, j2, j3, j4⟩ := hinit
  obtain ⟨i1, _, i3, i4⟩ := run_playable hdt (fun w => w ≠ [] ∧ (wave = some w ∨ .setWave w ∈ ops)) (fun w h => h.1) ops
    j1 j2 j3 (fun w h => by rw [j4] at h; exact ⟨hw w h, .inl h⟩) (fun w h => ⟨hops w h, .inr h⟩) h
  by_cases h1 : s.stop ≤ ((s.frame * dt : K) : WithTop K)
  · refine ⟨[], { s.sendEnded with frame := s.frame + count }, ?_, .inl rfl, by simp⟩
    simp only [Osc.step, Osc.process]
    rw [if_pos h1]
    rfl
  · by_cases h2 : ((s.frame * dt + dt * count : K) : WithTop K) ≤ s.start
    · simp only [Osc.step, Osc.process]
      rw [if_neg h1, if_pos h2]
      split
      · exact ⟨_, _, rfl, .inl rfl, by simp⟩
      · exact ⟨_, _, rfl, .inl rfl, by simp⟩
    · obtain ⟨a1, a2⟩ := adjust_loop hdt i1
      have hfe : (s.adjust dt).ty = s.ty ∧ (s.adjust dt).wave = s.wave := by
        unfold Osc.adjust; simp only; split <;> simp
      obtain ⟨out, s2, ho, hr⟩ := slow_total hdt hne (freqs comp count freq detune) a1 a2 (by rw [hfe.1, hfe.2]; exact i3)
      obtain ⟨s', hs', _⟩ := block_eq hdt ho h1 h2
      refine ⟨out, s', hs', .inr ?_, fun hsi hwv => hr ⟨hsi, fun w hw' => hwv w ?_⟩⟩
      · rw [(slow_inv hdt _ a1 a2 ho).2.2.2.2.2.2.2.2.2.2]
        simp [freqs]
      · rw [hfe.2] at hw'
        exact (i4 w hw').2

end

end Verif.Source
