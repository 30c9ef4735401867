import Verif.Source.BufferSlow
import Mathlib.Algebra.BigOperators.Intervals

/-!
# C62: the position of the buffer source

For a source that is started (and possibly stopped) in advance, and whose playback rate and detune vary from
quantum to quantum: which frames sound, and at which position of the buffer each of them is read.
-/

namespace Verif.Source

open Finset

section
variable {K : Type} [Field K] [LinearOrder K] [FloorRing K] [IsStrictOrderedRing K]

/-! ## Specification -/

/-- What was asked for: a buffer of duration `dur` at sample rate `bufSr` in a context of sample rate `sr`, loop
points, start time, stop time, duration and offset, and the playback rate in force at each frame. -/
structure Plan (K : Type) where
  sr : K
  bufSr : K
  dur : K
  looping : Bool
  loopStart : K
  loopEnd : K
  start : K
  stop : WithTop K
  duration : WithTop K
  offset : K
  rate : Nat → K

namespace Plan

/-- the first frame at or after the start time -/
def first (p : Plan K) : Nat := ⌈p.start * p.sr⌉₊

/-- the time from the start time to the first frame -/
def lead (p : Plan K) : K := p.first / p.sr - p.start

/-- the position at the first frame: the offset and what would have been played since the start time, within the
buffer, and not beyond the loop -/
def origin (p : Plan K) : K :=
  let o := min (max (p.offset + p.lead * p.rate p.first) 0) p.dur
  if p.looping then (if 0 ≤ p.rate p.first then min o p.loopEnd else max o p.loopStart) else o

/-- the position at frame `n`, loops not taken into account -/
def pos (p : Plan K) (n : Nat) : K := p.origin + ∑ i ∈ Ico p.first n, p.rate i / p.sr

/-- how much of the buffer has been played before frame `n` -/
def used (p : Plan K) (n : Nat) : K :=
  if n ≤ p.first then 0 else |p.lead * p.rate p.first| + ∑ i ∈ Ico p.first n, |p.rate i| / p.sr

/-- frame `n` sounds: not before the start, before the stop time, and before the duration is used up -/
def Sounds (p : Plan K) (n : Nat) : Prop :=
  p.first ≤ n ∧ ((n / p.sr : K) : WithTop K) < p.stop ∧ ((p.used n : K) : WithTop K) < p.duration

/-- the position has entered the loop at frame `n` or before -/
def Entered (p : Plan K) (n : Nat) : Prop :=
  ∃ m, p.first ≤ m ∧ m ≤ n ∧
    ((p.origin < p.loopEnd ∧ p.loopStart ≤ p.pos m) ∨ (p.loopEnd ≤ p.origin ∧ p.pos m < p.loopEnd))

open Classical in
/-- the position at frame `n`: once in the loop, modulo the length of the loop -/
noncomputable def place (p : Plan K) (n : Nat) : K :=
  if p.looping = true ∧ p.Entered n
  then p.loopStart + (p.loopEnd - p.loopStart) * Int.fract ((p.pos n - p.loopStart) / (p.loopEnd - p.loopStart))
  else p.pos n

/-- What frame `n` of a channel must be: silence if the source does not sound or the position is not within the
buffer; the frame of the buffer at a position on a frame; in between the linear interpolation. After the last
frame, without a loop: the line through the last two frames, or down to 0 if there is only one. (With a loop see C34.) -/
structure Reads (p : Plan K) (ch : List K) (n : Nat) (v : K) : Prop where
  silent : ¬ p.Sounds n → v = 0
  outside : p.place n < 0 ∨ p.dur ≤ p.place n → v = 0
  exact : p.Sounds n → ∀ (k : Nat) (x : K), ch[k]? = some x → p.place n * p.bufSr = k → v = x
  between : p.Sounds n → ∀ (k : Nat) (x y f : K), ch[k]? = some x → ch[k + 1]? = some y → 0 ≤ f → f < 1 →
    p.place n * p.bufSr = k + f → v = (1 - f) * x + f * y
  last : p.looping = false → p.Sounds n → ∀ (k : Nat) (w x f : K), ch[k]? = some w → ch[k + 1]? = some x → ch[k + 2]? = none →
    0 ≤ f → f < 1 → p.place n * p.bufSr = (k + 1 : Nat) + f → v = x + f * (x - w)
  single : p.looping = false → p.Sounds n → ∀ (x f : K), ch = [x] → 0 ≤ f → f < 1 → p.place n * p.bufSr = f → v = (1 - f) * x

/-! ## Facts about the specification -/

theorem pos_succ (p : Plan K) {n : Nat} (h : p.first ≤ n) : p.pos (n + 1) = p.pos n + p.rate n / p.sr := by
  unfold pos
  rw [sum_Ico_succ_top h]
  ring

theorem pos_first (p : Plan K) : p.pos p.first = p.origin := by simp [pos]

theorem used_nonneg (p : Plan K) (hsr : 0 < p.sr) (n : Nat) : 0 ≤ p.used n := by
  unfold used
  split
  · exact le_refl _
  · exact add_nonneg (abs_nonneg _) (sum_nonneg fun i _ => div_nonneg (abs_nonneg _) hsr.le)

theorem used_mono (p : Plan K) (hsr : 0 < p.sr) {m n : Nat} (h : m ≤ n) : p.used m ≤ p.used n := by
  unfold used
  by_cases h1 : m ≤ p.first
  · rw [if_pos h1]
    have := p.used_nonneg hsr n
    unfold used at this
    exact this
  · rw [if_neg h1, if_neg (by omega)]
    apply add_le_add le_rfl
    apply sum_le_sum_of_subset_of_nonneg
    · exact Ico_subset_Ico le_rfl h
    · exact fun i _ _ => div_nonneg (abs_nonneg _) hsr.le

theorem pos_mono (p : Plan K) (hsr : 0 < p.sr) (h : ∀ n, 0 ≤ p.rate n) {m n : Nat} (hm : m ≤ n) :
    p.pos m ≤ p.pos n := by
  unfold pos
  apply add_le_add le_rfl
  apply sum_le_sum_of_subset_of_nonneg
  · exact Ico_subset_Ico le_rfl hm
  · exact fun i _ _ => div_nonneg (h i) hsr.le

theorem pos_anti (p : Plan K) (hsr : 0 < p.sr) (h : ∀ n, p.rate n ≤ 0) {m n : Nat} (hm : m ≤ n) :
    p.pos n ≤ p.pos m := by
  unfold pos
  apply add_le_add le_rfl
  rw [← neg_le_neg_iff, ← sum_neg_distrib, ← sum_neg_distrib]
  apply sum_le_sum_of_subset_of_nonneg
  · exact Ico_subset_Ico le_rfl hm
  · exact fun i _ _ => neg_nonneg.2 (div_nonpos_of_nonpos_of_nonneg (h i) hsr.le)

/-- silence lasts -/
theorem Sounds.of_le {p : Plan K} (hsr : 0 < p.sr) {m n : Nat} (h : p.Sounds n) (hm : m ≤ n) (hf : p.first ≤ m) :
    p.Sounds m := by
  refine ⟨hf, lt_of_le_of_lt (WithTop.coe_le_coe.2 ?_) h.2.1,
    lt_of_le_of_lt (WithTop.coe_le_coe.2 (p.used_mono hsr hm)) h.2.2⟩
  apply div_le_div_of_nonneg_right _ hsr.le
  exact_mod_cast hm

theorem first_le {p : Plan K} (hsr : 0 < p.sr) {n : Nat} : p.first ≤ n ↔ p.start ≤ n / p.sr := by
  unfold first
  rw [Nat.ceil_le, le_div_iff₀ hsr]

end Plan

/-! ## The slow track -/

/-- The comparisons of the crate `almost`, taken to be exact. -/
structure BufEnv.Exact (e : BufEnv K) : Prop where
  eq : ∀ a b, e.almostEq a b = true → a = b
  zero : ∀ a, e.almostZero a = true → a = 0

/-- The loop over the frames works on the plan, with the rate of frame `n`. -/
structure Fits (e : BufEnv K) (q : SlowEnv K) (p : Plan K) (n : Nat) : Prop where
  sr : p.sr = e.sr
  bufSr : p.bufSr = e.bufSr
  stop : q.stop = p.stop
  duration : q.duration = p.duration
  looping : q.looping = p.looping
  loopStart : q.loopStart = p.loopStart
  loopEnd : q.loopEnd = p.loopEnd
  dur : q.dur = p.dur
  rate : q.rate = p.rate n

/-- The state before frame `n`. -/
structure At (p : Plan K) (n : Nat) (t : Slow K) : Prop where
  start : t.start = (p.start : WithTop K)
  elapsed : t.elapsed = ((p.used n : K) : WithTop K)
  before : n ≤ p.first → t.started = false ∧ t.offset = p.offset ∧ t.bufferTime = 0 ∧ t.enteredLoop = false
  after : p.first < n → t.started = true ∧ t.offset = p.origin
  once : p.looping = false → p.first < n → t.bufferTime = p.pos n
  loops : p.looping = true → p.first < n →
    (t.enteredLoop = false ∧ ¬ p.Entered (n - 1) ∧ t.bufferTime = p.pos n) ∨
    (p.Entered (n - 1) ∧ (∃ z : ℤ, t.bufferTime = p.pos n + z * (p.loopEnd - p.loopStart)) ∧
      (t.enteredLoop = true ∨ (p.origin < p.loopEnd ∧ p.loopStart ≤ t.bufferTime)))

theorem snap_id {e : BufEnv K} (he : e.Exact) (q : SlowEnv K) (now : K) (t : Slow K) : t.snap e q now = t := by
  have h : ∀ a b : WithTop K, eqTop e a b = true → a = b := by
    intro a b hab
    unfold eqTop at hab
    split at hab
    · exact congrArg _ (he.eq _ _ hab)
    · cases hab
  obtain ⟨a, b, c, d, f, g⟩ := t
  unfold Slow.snap
  congr 1
  · simp only
    split
    · rename_i hc; exact h _ _ hc.2
    · rfl
  · simp only
    split
    · rename_i hc; exact (h _ _ hc).symm
    · rfl

theorem snapZero_id {e : BufEnv K} (he : e.Exact) (t : K) : snapZero e t = t := by
  unfold snapZero
  split
  · rename_i h; exact (he.zero _ h).symm
  · rfl

theorem snapLoop_id {e : BufEnv K} (he : e.Exact) (q : SlowEnv K) (t : K) : snapLoop e q t = t := by
  unfold snapLoop
  dsimp only
  have : (if e.almostEq t q.loopEnd = true then q.loopEnd else t) = t := by
    split
    · rename_i h; exact (he.eq _ _ h).symm
    · rfl
  rw [this]
  split
  · rename_i h; exact (he.eq _ _ h).symm
  · rfl

/-- the first sounding frame sets the position to the origin -/
theorem begin_spec {e : BufEnv K} {q : SlowEnv K} {p : Plan K} (hsr : 0 < e.sr) (hq : Fits e q p p.first)
    {t : Slow K} (ht : At p p.first t) :
    t.begin q (p.first / e.sr) = { t with
      offset := p.origin, bufferTime := p.origin, started := true,
      elapsed := ((|p.lead * p.rate p.first| : K) : WithTop K) } := by
  obtain ⟨b1, b2, b3, b4⟩ := ht.before le_rfl
  unfold Slow.begin
  rw [b1]
  simp only [Bool.false_eq_true, if_false]
  have hd : (p.first : K) / e.sr - t.start.untopD 0 = p.lead := by
    rw [ht.start]
    simp [Plan.lead, hq.sr]
  rw [hd, hq.rate, b2, hq.dur, hq.looping, hq.loopEnd, hq.loopStart]
  have ho : (if p.looping = true ∧ p.rate p.first < 0 ∧
        (if p.looping = true ∧ 0 ≤ p.rate p.first ∧
          p.loopEnd < min (max (p.offset + p.lead * p.rate p.first) 0) p.dur then p.loopEnd
          else min (max (p.offset + p.lead * p.rate p.first) 0) p.dur) < p.loopStart then p.loopStart
      else (if p.looping = true ∧ 0 ≤ p.rate p.first ∧
          p.loopEnd < min (max (p.offset + p.lead * p.rate p.first) 0) p.dur then p.loopEnd
          else min (max (p.offset + p.lead * p.rate p.first) 0) p.dur)) = p.origin := by
    unfold Plan.origin
    dsimp only
    generalize min (max (p.offset + p.lead * p.rate p.first) 0) p.dur = o
    cases p.looping with
    | false => simp
    | true =>
      simp only [true_and, if_true]
      by_cases hr : 0 ≤ p.rate p.first
      · rw [if_neg (fun h => absurd h.1 (not_lt.2 hr)), if_pos hr]
        by_cases hl : p.loopEnd < o
        · rw [if_pos ⟨hr, hl⟩, min_eq_right hl.le]
        · rw [if_neg (fun h => hl h.2), min_eq_left (not_lt.1 hl)]
      · rw [if_neg hr]
        have hr' := not_le.1 hr
        rw [if_neg (fun h : 0 ≤ p.rate p.first ∧ p.loopEnd < o => hr h.1)]
        by_cases hl : o < p.loopStart
        · rw [if_pos ⟨hr', hl⟩, max_eq_right hl.le]
        · rw [if_neg (fun h => hl h.2), max_eq_left (not_lt.1 hl)]
  rw [ho]

/-- modulo the length of the loop there is one position in the loop -/
theorem fold_unique {ls le x t : K} (hl : ls < le) (h1 : ls ≤ t) (h2 : t < le)
    (h : ∃ z : ℤ, t = x + z * (le - ls)) : t = ls + (le - ls) * Int.fract ((x - ls) / (le - ls)) := by
  obtain ⟨z, hz⟩ := h
  have hL : 0 < le - ls := sub_pos.2 hl
  have e1 : (x - ls) / (le - ls) = (t - ls) / (le - ls) + ((-z : ℤ) : K) := by
    rw [hz]; push_cast; field_simp; ring
  have e2 : Int.fract ((t - ls) / (le - ls)) = (t - ls) / (le - ls) := by
    rw [Int.fract_eq_self]
    refine ⟨div_nonneg (sub_nonneg.2 h1) hL.le, ?_⟩
    rw [div_lt_one hL]
    linarith
  rw [e1, Int.fract_add_intCast, e2]
  field_simp
  ring

/-- One frame of the loop: `t` is the state after the start has been handled. -/
theorem wrap_place {e : BufEnv K} (he : e.Exact) {q : SlowEnv K} {p : Plan K} {n : Nat} (hq : Fits e q p n)
    (hl : p.looping = true → p.loopStart < p.loopEnd) (hn : p.first ≤ n)
    {t t' : Slow K} (hoff : t.offset = p.origin)
    (once : p.looping = false → t.bufferTime = p.pos n)
    (loops : p.looping = true → (t.enteredLoop = false ∧ (∀ m, p.first ≤ m → m < n → ¬ p.Entered m) ∧
        t.bufferTime = p.pos n) ∨
      (p.Entered n ∧ (∃ z : ℤ, t.bufferTime = p.pos n + z * (p.loopEnd - p.loopStart)) ∧
        (t.enteredLoop = true ∨ (p.origin < p.loopEnd ∧ p.loopStart ≤ t.bufferTime))))
    (h : Slow.wrap e q t = .ok t') :
    t' = { t with bufferTime := p.place n, enteredLoop := t'.enteredLoop } ∧
      (p.looping = false → t'.enteredLoop = t.enteredLoop) ∧
      (p.looping = true → (t'.enteredLoop = true ∧ p.Entered n ∧
          ∃ z : ℤ, p.place n = p.pos n + z * (p.loopEnd - p.loopStart)) ∨
        (t'.enteredLoop = false ∧ ¬ p.Entered n ∧ p.place n = p.pos n)) := by
  unfold Slow.wrap at h
  rw [snapLoop_id he, hq.looping] at h
  cases hlo : p.looping with
  | false =>
    rw [hlo] at h
    simp only [Bool.false_eq_true, if_false] at h
    cases h
    have : p.place n = t.bufferTime := by
      rw [once hlo]
      unfold Plan.place
      rw [if_neg (by rw [hlo]; simp)]
    rw [this]
    exact ⟨rfl, fun _ => rfl, fun h => by cases h⟩
  | true =>
    rw [hlo] at h
    simp only [if_true] at h
    have hll := hl hlo
    -- the position enters the loop exactly if the test of the code says so
    have hin : inLoop q t.enteredLoop t.offset t.bufferTime = true ↔ p.Entered n := by
      unfold inLoop
      rw [hoff, hq.loopEnd, hq.loopStart]
      simp only [Bool.or_eq_true, Bool.and_eq_true, decide_eq_true_eq]
      rcases loops hlo with ⟨l1, l2, l3⟩ | ⟨l1, l2, l3⟩
      · rw [l1, l3]
        constructor
        · rintro ((g | g) | g)
          · cases g
          · exact ⟨n, hn, le_rfl, .inl g⟩
          · exact ⟨n, hn, le_rfl, .inr g⟩
        · rintro ⟨m, m1, m2, m3⟩
          by_cases hm : m = n
          · subst hm
            rcases m3 with g | g
            · exact .inl (.inr g)
            · exact .inr g
          · exact absurd ⟨m, m1, le_rfl, m3⟩ (l2 m m1 (by omega))
      · refine ⟨fun _ => l1, fun _ => ?_⟩
        rcases l3 with g | g
        · exact .inl (.inl g)
        · exact .inl (.inr g)
    split at h
    · rename_i hi
      have hen := hin.1 hi
      split at h
      · cases h
      · rename_i t1 hw1
        split at h
        · cases h
        · rename_i t2 hw2
          cases h
          have hz : ∃ z : ℤ, t.bufferTime = p.pos n + z * (p.loopEnd - p.loopStart) := by
            rcases loops hlo with ⟨_, _, l3⟩ | ⟨_, l2, _⟩
            · exact ⟨0, by rw [l3]; simp⟩
            · exact l2
          rw [hq.loopEnd, hq.loopStart] at hw1 hw2
          obtain ⟨z, hz⟩ := hz
          obtain ⟨z1, h1, h1', _⟩ := wrapDown_spec hw1
          obtain ⟨z2, h2, h2', h2''⟩ := wrapUp_spec hw2
          have hfold : ∃ z : ℤ, t2 = p.pos n + z * (p.loopEnd - p.loopStart) := by
            refine ⟨z - z1 + z2, ?_⟩
            rw [h2, h1, hz]
            push_cast
            ring
          have hlt : t2 < p.loopEnd := by
            cases z2 with
            | zero => rw [h2]; simpa using h1'
            | succ z2 =>
              have := h2'' z2 (Nat.lt_succ_self _)
              rw [h2]
              push_cast
              linarith
          have hpl : p.place n = t2 := by
            unfold Plan.place
            rw [if_pos ⟨hlo, hen⟩]
            exact (fold_unique hll h2' hlt hfold).symm
          rw [hpl]
          exact ⟨rfl, fun h => (by cases h), fun _ => .inl ⟨rfl, hen, hfold⟩⟩
    · rename_i hi
      cases h
      have hne : ¬ p.Entered n := fun h => hi (hin.2 h)
      have hpl : p.place n = p.pos n := by
        unfold Plan.place
        rw [if_neg (fun h => hne h.2)]
      have hbt : t.bufferTime = p.pos n := by
        rcases loops hlo with ⟨_, _, l3⟩ | ⟨l1, _, _⟩
        · exact l3
        · exact absurd l1 hne
      rw [hpl, ← hbt]
      exact ⟨rfl, fun h => (by cases h), fun _ => .inr ⟨rfl, hne, rfl⟩⟩

theorem Plan.Entered.mono {p : Plan K} {m n : Nat} (h : p.Entered m) (hm : m ≤ n) : p.Entered n := by
  obtain ⟨k, k1, k2, k3⟩ := h
  exact ⟨k, k1, by omega, k3⟩

/-- Frame `n`: what is read and the state before frame `n + 1`. -/
theorem frame_at {e : BufEnv K} (he : e.Exact) (hsr : 0 < e.sr) {q : SlowEnv K} {p : Plan K} {n : Nat}
    (hq : Fits e q p n) (hl : p.looping = true → p.loopStart < p.loopEnd) {t t' : Slow K} (ht : At p n t)
    {info : Option (Nat × K)} (h : Slow.frame e q (n / e.sr) t = .ok (t', info)) :
    (p.Sounds n → info = playhead e q (p.place n) ∧ At p (n + 1) t') ∧
    (¬ p.Sounds n → info = none ∧ t' = t ∧ (n < p.first → At p (n + 1) t)) := by
  have hfirst : p.first ≤ n ↔ ¬ ((n / e.sr : K) : WithTop K) < t.start := by
    rw [ht.start, WithTop.coe_lt_coe, not_lt, ← hq.sr]
    exact Plan.first_le (by rw [hq.sr]; exact hsr)
  unfold Slow.frame at h
  rw [snap_id he] at h
  dsimp only at h
  have hgate : (((n / e.sr : K) : WithTop K) < t.start ∨ q.stop ≤ ((n / e.sr : K) : WithTop K) ∨
      q.duration ≤ t.elapsed) ↔ ¬ p.Sounds n := by
    unfold Plan.Sounds
    rw [hfirst, hq.stop, hq.duration, ht.elapsed, hq.sr]
    rw [not_and_or, not_and_or, not_not, not_lt, not_lt]
  split at h
  · rename_i hg
    cases h
    refine ⟨fun hs => absurd hs (hgate.1 hg), fun _ => ⟨rfl, rfl, fun hn => ?_⟩⟩
    refine ⟨ht.start, ?_, fun _ => ht.before hn.le, fun hc => ?_, fun _ hc => ?_, fun _ hc => ?_⟩
    · rw [ht.elapsed]
      unfold Plan.used
      rw [if_pos hn.le, if_pos (by omega)]
    · omega
    · omega
    · omega
  · rename_i hg
    have hs : p.Sounds n := by
      by_contra hc
      exact hg (hgate.2 hc)
    refine ⟨fun _ => ?_, fun hc => absurd hs hc⟩
    have hn := hs.1
    -- the state after the start has been handled
    obtain ⟨b, hb, b1, b2, b3, b4, b5, b6⟩ : ∃ b, t.begin q (n / e.sr) = b ∧ b.start = (p.start : WithTop K) ∧
        b.elapsed = ((|p.lead * p.rate p.first| + ∑ i ∈ Ico p.first n, |p.rate i| / p.sr : K) : WithTop K) ∧
        b.started = true ∧ b.offset = p.origin ∧ (p.looping = false → b.bufferTime = p.pos n) ∧
        (p.looping = true → (b.enteredLoop = false ∧ (∀ m, p.first ≤ m → m < n → ¬ p.Entered m) ∧
            b.bufferTime = p.pos n) ∨
          (p.Entered n ∧ (∃ z : ℤ, b.bufferTime = p.pos n + z * (p.loopEnd - p.loopStart)) ∧
            (b.enteredLoop = true ∨ (p.origin < p.loopEnd ∧ p.loopStart ≤ b.bufferTime)))) := by
      by_cases hnf : n = p.first
      · subst hnf
        refine ⟨_, begin_spec hsr hq ht, ht.start, by simp, rfl, rfl, fun _ => p.pos_first.symm, fun _ => .inl ?_⟩
        exact ⟨(ht.before le_rfl).2.2.2, fun m h1 h2 => by omega, p.pos_first.symm⟩
      · have hlt : p.first < n := by omega
        obtain ⟨a1, a2⟩ := ht.after hlt
        have hbt : t.begin q (n / e.sr) = t := by
          unfold Slow.begin
          rw [a1]
          simp
        refine ⟨t, hbt, ht.start, ?_, a1, a2, fun hlo => ht.once hlo hlt, fun hlo => ?_⟩
        · rw [ht.elapsed]
          unfold Plan.used
          rw [if_neg (by omega)]
        · rcases ht.loops hlo hlt with ⟨l1, l2, l3⟩ | ⟨l1, l2, l3⟩
          · exact .inl ⟨l1, fun m _ h2 hm => l2 (hm.mono (by omega)), l3⟩
          · exact .inr ⟨l1.mono (by omega), l2, l3⟩
    rw [hb] at h
    split at h
    · cases h
    · rename_i w hw
      cases h
      obtain ⟨w1, w2, w3⟩ := wrap_place he hq hl hn b4 b5 b6 hw
      have wbt : w.bufferTime = p.place n := by rw [w1]
      have wst : w.start = b.start := by rw [w1]
      have wel : w.elapsed = b.elapsed := by rw [w1]
      have wsd : w.started = b.started := by rw [w1]
      have wof : w.offset = b.offset := by rw [w1]
      rw [snapZero_id he, wbt]
      refine ⟨rfl, ?_, ?_, fun hc => ?_, fun _ => ?_, fun hlo _ => ?_, fun hlo _ => ?_⟩
      · exact wst.trans b1
      · show w.elapsed + _ = _
        rw [wel, b2, hq.rate]
        unfold Plan.used
        rw [if_neg (by omega), sum_Ico_succ_top hn, ← WithTop.coe_add]
        congr 1
        rw [abs_mul (1 / e.sr), abs_of_pos (by positivity : 0 < 1 / e.sr), hq.sr]
        ring
      · omega
      · exact ⟨wsd.trans b3, wof.trans b4⟩
      · show snapZero e w.bufferTime + _ = _
        rw [snapZero_id he, wbt, p.pos_succ hn, hq.rate, hq.sr]
        unfold Plan.place
        rw [if_neg (by rw [hlo]; simp)]
        ring
      · have hnx : (w.next e q).bufferTime = p.place n + p.rate n / p.sr := by
          show snapZero e w.bufferTime + _ = _
          rw [snapZero_id he, wbt, hq.rate, hq.sr]
          ring
        rw [hnx, p.pos_succ hn, Nat.add_sub_cancel]
        rcases w3 hlo with ⟨c1, c2, z, c3⟩ | ⟨c1, c2, c3⟩
        · exact .inr ⟨c2, ⟨z, by rw [c3]; ring⟩, .inl c1⟩
        · exact .inl ⟨c1, c2, by rw [c3]⟩

/-- The source went silent at a frame at or before frame `n`, and the state stays as it was. -/
def Gone (p : Plan K) (n : Nat) (t : Slow K) : Prop := ∃ m, m ≤ n ∧ p.first ≤ m ∧ At p m t ∧ ¬ p.Sounds m

theorem Gone.silent {p : Plan K} (hsr : 0 < p.sr) {n : Nat} {t : Slow K} (h : Gone p n t) {k : Nat} (hk : n ≤ k) :
    ¬ p.Sounds k := by
  obtain ⟨m, m1, m2, _, m4⟩ := h
  exact fun hs => m4 (hs.of_le hsr (by omega) m2)

theorem Gone.mono {p : Plan K} {n k : Nat} {t : Slow K} (h : Gone p n t) (hk : n ≤ k) : Gone p k t := by
  obtain ⟨m, m1, m2⟩ := h
  exact ⟨m, by omega, m2⟩

theorem frame_gone {e : BufEnv K} (he : e.Exact) (hsr : 0 < e.sr) {q : SlowEnv K} {p : Plan K} {n : Nat}
    (hq : Fits e q p n) {t : Slow K} (ht : Gone p n t) : Slow.frame e q (n / e.sr) t = .ok (t, none) := by
  obtain ⟨m, m1, m2, m3, m4⟩ := ht
  unfold Slow.frame
  rw [snap_id he]
  dsimp only
  rw [if_pos]
  unfold Plan.Sounds at m4
  rw [not_and_or, not_and_or, not_lt, not_lt] at m4
  rcases m4 with g | g | g
  · exact absurd m2 g
  · right; left
    rw [hq.stop]
    refine le_trans g (WithTop.coe_le_coe.2 ?_)
    rw [hq.sr]
    apply div_le_div_of_nonneg_right _ hsr.le
    exact_mod_cast m1
  · right; right
    rw [hq.duration, m3.elapsed]
    exact g

/-- The frames of a quantum from frame `N + i` on. Afterwards the state is that before the next frame, or the
source is silent from now on. -/
theorem frames_at {e : BufEnv K} (he : e.Exact) (hsr : 0 < e.sr) {q : SlowEnv K} {p : Plan K} {N : Nat}
    (hl : p.looping = true → p.loopStart < p.loopEnd) (k : Nat) :
    ∀ (i : Nat), (∀ j, i ≤ j → j < i + k → Fits e q p (N + j)) → ∀ {t t' : Slow K} {infos : List (Option (Nat × K))},
      At p (N + i) t ∨ Gone p (N + i) t → Slow.frames e q (N / e.sr) k i t = .ok (t', infos) →
      (∀ j, j < k → (p.Sounds (N + i + j) → infos[j]? = some (playhead e q (p.place (N + i + j)))) ∧
        (¬ p.Sounds (N + i + j) → infos[j]? = some none)) ∧
      (At p (N + i + k) t' ∨ Gone p (N + i + k) t') := by
  induction k with
  | zero =>
    intro i _ t t' infos hs h
    cases h
    exact ⟨fun j hj => by omega, hs⟩
  | succ k ih =>
    intro i hq t t' infos hs h
    have hqi := hq i le_rfl (by omega)
    have hpsr : 0 < p.sr := by rw [hqi.sr]; exact hsr
    rw [Slow.frames] at h
    have htime : (N : K) / e.sr + i * (1 / e.sr) = ((N + i : Nat) : K) / e.sr := by
      push_cast; ring
    rw [htime] at h
    cases hf : Slow.frame e q (((N + i : Nat) : K) / e.sr) t with
    | error f => rw [hf] at h; cases h
    | ok r =>
      obtain ⟨u, info⟩ := r
      rw [hf] at h
      simp only at h
      cases hg : Slow.frames e q (N / e.sr) k (i + 1) u with
      | error f => rw [hg] at h; cases h
      | ok r =>
        obtain ⟨u', infos'⟩ := r
        rw [hg] at h
        cases h
        have key : (p.Sounds (N + i) → info = playhead e q (p.place (N + i))) ∧ (¬ p.Sounds (N + i) → info = none) ∧
            (At p (N + (i + 1)) u ∨ Gone p (N + (i + 1)) u) := by
          rcases hs with hs | hs
          · obtain ⟨f1, f2⟩ := frame_at he hsr hqi hl hs hf
            refine ⟨fun g => (f1 g).1, fun g => (f2 g).1, ?_⟩
            by_cases g : p.Sounds (N + i)
            · exact .inl (f1 g).2
            · obtain ⟨_, g2, g3⟩ := f2 g
              rw [g2]
              by_cases hn : N + i < p.first
              · exact .inl (g3 hn)
              · exact .inr ⟨N + i, by omega, by omega, hs, g⟩
          · rw [frame_gone he hsr hqi hs] at hf
            cases hf
            have := hs.silent hpsr le_rfl
            exact ⟨fun g => absurd g this, fun _ => rfl, .inr (hs.mono (by omega))⟩
        obtain ⟨i1, i2⟩ := ih (i + 1) (fun j h1 h2 => hq j (by omega) (by omega)) key.2.2 hg
        have e1 : N + (i + 1) + k = N + i + (k + 1) := by omega
        rw [e1] at i2
        refine ⟨fun j hj => ?_, i2⟩
        cases j with
        | zero =>
          simp only [Nat.add_zero, List.getElem?_cons_zero]
          exact ⟨fun g => by rw [key.1 g], fun g => by rw [key.2.1 g]⟩
        | succ j =>
          have := i1 j (by omega)
          have e2 : N + (i + 1) + j = N + i + (j + 1) := by omega
          rw [e2] at this
          simpa only [List.getElem?_cons_succ] using this

/-- From what is read to the sample. -/
theorem reads_slow {e : BufEnv K} (he : e.Exact) (hsr : 0 < e.sr) (hbs : 0 < e.bufSr) {q : SlowEnv K} {p : Plan K} {n : Nat}
    (hq : Fits e q p n) {ch : List K} (hlen : q.len = ch.length) (hdur : p.dur = ch.length / p.bufSr)
    {info : Option (Nat × K)} (h1 : p.Sounds n → info = playhead e q (p.place n)) (h2 : ¬ p.Sounds n → info = none)
    {rate0 v : K} (hv : slowSample e q rate0 ch info = some v) : p.Reads ch n v := by
  have hsil : info = none → v = 0 := by
    intro h
    rw [h] at hv
    exact (Option.some.inj hv).symm
  have hscale : ∀ t : K, t * (e.bufSr / e.sr) * e.sr = t * e.bufSr := by
    intro t; field_simp
  have main : p.Sounds n → ∀ (k : Nat) (x f : K), ch[k]? = some x → 0 ≤ f → f < 1 →
      p.place n * p.bufSr = k + f → ∃ y, nextSample e q rate0 ch k f x = some y ∧ v = (1 - f) * x + f * y := by
    intro hs k x f hx f0 f1 hp
    have hk : k < ch.length := (List.getElem?_eq_some_iff.1 hx).1
    rw [hq.bufSr] at hp
    have hpos : 0 ≤ p.place n := by
      have : 0 ≤ p.place n * e.bufSr := by rw [hp]; positivity
      exact nonneg_of_mul_nonneg_left this hbs
    have hlt : p.place n < p.dur := by
      rw [hdur, hq.bufSr, lt_div_iff₀ hbs, hp]
      have : (k : K) + 1 ≤ ch.length := by exact_mod_cast hk
      linarith
    have hfl : ⌊p.place n * e.bufSr⌋ = (k : ℤ) := by
      rw [hp, Int.floor_eq_iff]
      push_cast
      constructor <;> linarith
    have hinfo : info = some (k, f) := by
      rw [h1 hs]
      unfold playhead
      rw [hq.dur, if_pos ⟨hpos, hlt⟩]
      dsimp only
      rw [hscale, hfl, hlen]
      simp only [Int.toNat_natCast, hk, if_true, Int.cast_natCast, hp]
      simp
    rw [hinfo] at hv
    simp only [slowSample, hx, Option.bind_some, Option.map_eq_some_iff] at hv
    obtain ⟨y, y1, y2⟩ := hv
    exact ⟨y, y1, y2.symm⟩
  refine ⟨fun h => hsil (h2 h), fun h => ?_, fun hs k x hx hp => ?_, fun hs k x y f hx hy f0 f1 hp => ?_,
    fun hl hs k w x f hw hx hn f0 f1 hp => ?_, fun hl hs x f hx f0 f1 hp => ?_⟩
  · by_cases hs : p.Sounds n
    · apply hsil
      rw [h1 hs]
      unfold playhead
      rw [hq.dur, if_neg]
      rintro ⟨g1, g2⟩
      rcases h with h | h
      · exact absurd g1 (not_le.2 h)
      · exact absurd g2 (not_lt.2 h)
    · exact hsil (h2 hs)
  · obtain ⟨y, _, hy⟩ := main hs k x 0 hx le_rfl one_pos (by rw [hp]; simp)
    rw [hy]; ring
  · obtain ⟨z, hz, hv⟩ := main hs k x f hx f0 f1 hp
    unfold nextSample at hz
    rw [hy] at hz
    cases hz
    exact hv
  · obtain ⟨z, hz, hv⟩ := main hs (k + 1) x f hx f0 f1 hp
    unfold nextSample at hz
    rw [hn] at hz
    simp only [hq.looping, hl, Bool.false_eq_true, if_false] at hz
    rw [if_neg (by
      rintro (h | h)
      · have := he.eq _ _ h
        rw [this] at f1
        exact lt_irrefl _ f1
      · cases h)] at hz
    rw [Nat.add_sub_cancel, hw] at hz
    cases hz
    rw [hv]; ring
  · obtain ⟨z, hz, hv⟩ := main hs 0 x f (by rw [hx]; rfl) f0 f1 (by rw [hp]; simp)
    unfold nextSample at hz
    rw [hx] at hz
    simp only [hq.looping, hl, Bool.false_eq_true, if_false, or_true, if_true, List.getElem?_cons_succ, List.getElem?_nil] at hz
    cases hz
    rw [hv]; ring

/-! ## Quanta -/

/-- The plan is the one of a source that plays `chans` with the given loop points. -/
structure Agrees (e : BufEnv K) (chans : List (List K)) (p : Plan K) : Prop where
  sr : p.sr = e.sr
  bufSr : p.bufSr = e.bufSr
  dur : p.dur = durationOf e chans
  loop : p.looping = true → p.loopStart < p.loopEnd

/-- The state at the beginning of a quantum, while the source has not ended. -/
structure Follows (e : BufEnv K) (chans : List (List K)) (p : Plan K) (s : BufSt K) : Prop where
  buffer : s.buffer = some chans
  stop : s.stop = p.stop
  duration : s.duration = p.duration
  looping : s.looping = p.looping
  points : loopPoints e s chans = (p.loopStart, p.loopEnd)
  alive : s.alive = true
  ended : s.ended = false
  /-- a start time in the past counts as the current time -/
  time : s.start = (p.start : WithTop K) ∨
    (s.started = false ∧ s.start < ((s.frame / e.sr : K) : WithTop K) ∧ p.start = s.frame / e.sr)
  state : At p s.frame { s.slow with start := (p.start : WithTop K) }
  /-- on the fast track -/
  fast : s.aligned = true → p.first < s.frame ∧ p.offset = 0 ∧ p.start = p.first / e.sr ∧ e.bufSr = e.sr ∧
    (∀ i, p.first ≤ i → i < s.frame → p.rate i = 1) ∧
    ∃ P : Nat, s.bufferTime = P / e.sr ∧
      (if s.looping then P ≤ lengthOf chans ∧ P % lengthOf chans = (s.frame - p.first) % lengthOf chans
        else P = s.frame - p.first ∧ P < lengthOf chans)

/-- Silence from frame `n` on. -/
def Plan.Over (p : Plan K) (n : Nat) : Prop := ∀ m, n ≤ m → ¬ p.Sounds m ∨ p.place m < 0 ∨ p.dur ≤ p.place m

theorem Plan.Over.reads {p : Plan K} {n : Nat} (h : p.Over n) {m : Nat} (hm : n ≤ m) (ch : List K)
    (hbs : 0 < p.bufSr) (hdur : p.dur = ch.length / p.bufSr) : p.Reads ch m 0 := by
  have hlen : ∀ (k : Nat) (x f : K), ch[k]? = some x → p.place m * p.bufSr = k + f → 0 ≤ f → f < 1 → p.Sounds m → False := by
    intro k x f hx hp f0 f1 hs
    have hk : k < ch.length := (List.getElem?_eq_some_iff.1 hx).1
    rcases h m hm with g | g | g
    · exact g hs
    · have := mul_neg_of_neg_of_pos g hbs
      rw [hp] at this
      have : (0 : K) ≤ k := Nat.cast_nonneg k
      linarith
    · rw [hdur, div_le_iff₀ hbs, hp] at g
      have : (k : K) + 1 ≤ ch.length := by exact_mod_cast hk
      linarith
  refine ⟨fun _ => rfl, fun _ => rfl, fun hs k x hx hp => ?_, fun hs k x y f hx hy f0 f1 hp => ?_,
    fun _ hs k w x f _ hx _ f0 f1 hp => ?_, fun _ hs x f hx f0 f1 hp => ?_⟩
  · exact (hlen k x 0 hx (by rw [hp]; simp) le_rfl one_pos hs).elim
  · exact (hlen k x f hx hp f0 f1 hs).elim
  · exact (hlen (k + 1) x f hx hp f0 f1 hs).elim
  · exact (hlen 0 x f (by rw [hx]; rfl) (by rw [hp]; simp) f0 f1 hs).elim

/-- The source has ended with the quantum: silence from then on. -/
theorem over_of_finished {e : BufEnv K} (hsr : 0 < e.sr) {p : Plan K} {chans : List (List K)}
    (hag : Agrees e chans p) (hbs : 0 < e.bufSr)
    (hmono : p.looping = true ∨ (∀ n, 0 ≤ p.rate n) ∨ ∀ n, p.rate n ≤ 0)
    {s : BufSt K} {n : Nat} {r : K} (hr : ∃ i, p.rate i = r)
    (hstop : s.stop = p.stop) (hdur : s.duration = p.duration) (hlo : s.looping = p.looping)
    (hn : ((s.frame + e.count : Nat) : K) / e.sr = n / e.sr) (t : Slow K) (ht : At p n t ∨ Gone p n t)
    (htb : t.bufferTime = s.bufferTime) (hte : t.elapsed = ((s.elapsed : K) : WithTop K))
    (hfin : s.finished e (durationOf e chans) r = true) : p.Over n := by
  have hpsr : 0 < p.sr := by rw [hag.sr]; exact hsr
  rcases ht with ht | ht
  swap
  · exact fun m hm => .inl (ht.silent hpsr hm)
  unfold BufSt.finished at hfin
  dsimp only at hfin
  rw [hstop, hdur, hlo, ← hag.dur, ← hte, ← htb, ht.elapsed] at hfin
  have hnext : (s.frame : K) / e.sr + 1 / e.sr * e.count = n / e.sr := by
    rw [← hn]; push_cast; ring
  rw [hnext] at hfin
  simp only [Bool.or_eq_true, Bool.and_eq_true, decide_eq_true_eq] at hfin
  intro m hm
  have hle : ((n / e.sr : K) : WithTop K) ≤ ((m / p.sr : K) : WithTop K) := by
    rw [hag.sr]
    apply WithTop.coe_le_coe.2
    apply div_le_div_of_nonneg_right _ hsr.le
    exact_mod_cast hm
  rcases hfin with (g | g) | ⟨g, g'⟩
  · left
    intro hs
    exact absurd (lt_of_le_of_lt (le_trans g hle) hs.2.1) (lt_irrefl _)
  · left
    intro hs
    exact absurd (lt_of_le_of_lt (le_trans g (WithTop.coe_le_coe.2 (p.used_mono hpsr hm))) hs.2.2) (lt_irrefl _)
  · right
    have hlo' : p.looping = false := by simpa using g
    have hplace : ∀ k, p.place k = p.pos k := by
      intro k
      unfold Plan.place
      rw [if_neg (by rw [hlo']; simp)]
    by_cases hf : p.first < n
    · have hb := ht.once hlo' hf
      rw [hb] at g'
      obtain ⟨i, hi⟩ := hr
      rcases g' with ⟨g1, g2⟩ | ⟨g1, g2⟩
      · right
        rw [hplace]
        refine le_trans g2 (p.pos_mono hpsr ?_ hm)
        rcases hmono with h | h | h
        · rw [hlo'] at h; cases h
        · exact h
        · have := h i; rw [hi] at this; exact absurd g1 (not_lt.2 this)
      · left
        rw [hplace]
        refine lt_of_le_of_lt (p.pos_anti hpsr ?_ hm) g2
        rcases hmono with h | h | h
        · rw [hlo'] at h; cases h
        · have := h i; rw [hi] at this; exact absurd g1 (not_lt.2 this)
        · exact h
    · have hb := (ht.before (not_lt.1 hf)).2.2.1
      rw [hb] at g'
      have hd : 0 ≤ p.dur := by
        rw [hag.dur]; unfold durationOf; positivity
      rcases g' with ⟨_, g2⟩ | ⟨_, g2⟩
      · rcases lt_or_ge (p.place m) 0 with h | h
        · exact .inl h
        · exact .inr (le_trans g2 h)
      · exact absurd g2 (lt_irrefl _)

/-- A source that has gone silent within the quantum has ended. -/
theorem finished_of_gone {e : BufEnv K} (hsr : 0 < e.sr) {p : Plan K} (hps : p.sr = e.sr) {s : BufSt K}
    (hstop : s.stop = p.stop) (hdur : s.duration = p.duration) {t : Slow K} (ht : Gone p (s.frame + e.count) t)
    (hte : t.elapsed = ((s.elapsed : K) : WithTop K)) (d r : K) : s.finished e d r = true := by
  obtain ⟨m, m1, m2, m3, m4⟩ := ht
  unfold BufSt.finished
  dsimp only
  rw [hstop, hdur, ← hte, m3.elapsed]
  unfold Plan.Sounds at m4
  rw [not_and_or, not_and_or, not_lt, not_lt] at m4
  rcases m4 with g | g | g
  · exact absurd m2 g
  · have : p.stop ≤ ((s.frame / e.sr + 1 / e.sr * e.count : K) : WithTop K) := by
      refine le_trans g (WithTop.coe_le_coe.2 ?_)
      have h1 : (s.frame : K) / e.sr + 1 / e.sr * e.count = ((s.frame + e.count : Nat) : K) / e.sr := by
        push_cast; ring
      rw [h1, hps]
      apply div_le_div_of_nonneg_right _ hsr.le
      exact_mod_cast m1
    rw [decide_eq_true this]
    simp
  · rw [decide_eq_true g]
    simp

/-- What a quantum must do. -/
def BlockOk (e : BufEnv K) (chans : List (List K)) (p : Plan K) (N : Nat) (out : List (List K)) (s' : BufSt K) : Prop :=
  (∀ c ch, chans[c]? = some ch → ∀ i, i < e.count → p.Reads ch (N + i) (valueAt out c i)) ∧
    s'.frame = N + e.count ∧ s'.alive = true ∧
    (Follows e chans p s' ∨ (s'.ended = true ∧ p.Over (N + e.count)))

theorem loopPoints_congr {e : BufEnv K} {s t : BufSt K} (h1 : t.looping = s.looping) (h2 : t.loopStart = s.loopStart)
    (h3 : t.loopEnd = s.loopEnd) (chans : List (List K)) : loopPoints e t chans = loopPoints e s chans := by
  unfold loopPoints
  rw [h1, h2, h3]

theorem slow_block {e : BufEnv K} (he : e.Exact) (hsr : 0 < e.sr) (hbs : 0 < e.bufSr)
    {chans : List (List K)} (hch : ∀ ch ∈ chans, ch.length = lengthOf chans) {p : Plan K} (hag : Agrees e chans p)
    (hmono : p.looping = true ∨ (∀ n, 0 ≤ p.rate n) ∨ ∀ n, p.rate n ≤ 0) {u : BufSt K}
    (hu : Follows e chans p u) (hstart : u.start = (p.start : WithTop K)) {rate0 rate : K} (hcount : 0 < e.count)
    (hr : ∀ i, i < e.count → p.rate (u.frame + i) = rate) {out : List (List K)} {r : BufSt K}
    (h : slowTrack e { u with aligned := false } chans rate0 rate = .ok (out, r)) :
    BlockOk e chans p u.frame out { r.close e (durationOf e chans) rate with frame := u.frame + e.count } := by
  unfold slowTrack at h
  split at h
  · cases h
  rename_i w infos hfr
  split at h
  · cases h
  rename_i out' hm
  injection h with h
  injection h with h1 h2
  subst h1 h2
  have hpsr : 0 < p.sr := by rw [hag.sr]; exact hsr
  have hq : ∀ j, 0 ≤ j → j < 0 + e.count →
      Fits e (BufSt.slowEnv e { u with aligned := false } chans rate) p (u.frame + j) := by
    intro j _ hj
    have hpts := hu.points
    rw [← loopPoints_congr (s := u) (t := { u with aligned := false }) rfl rfl rfl] at hpts
    exact ⟨hag.sr, hag.bufSr, hu.stop, hu.duration, hu.looping, by simp [BufSt.slowEnv, hpts],
      by simp [BufSt.slowEnv, hpts], hag.dur.symm, (hr j (by omega)).symm⟩
  have hat : At p (u.frame + 0) (BufSt.slow { u with aligned := false }) := by
    have := hu.state
    rw [← hstart] at this
    exact this
  obtain ⟨k1, k2⟩ := frames_at he hsr hag.loop e.count 0 hq (.inl hat) hfr
  rw [Nat.add_zero] at k1 k2
  -- the elapsed time is finite
  have hwe : w.elapsed = ((w.elapsed.untopD 0 : K) : WithTop K) := by
    have : ∃ x : K, w.elapsed = (x : WithTop K) := by
      rcases k2 with k2 | ⟨_, _, _, k2, _⟩ <;> exact ⟨_, k2.elapsed⟩
    obtain ⟨x, hx⟩ := this
    rw [hx]; rfl
  have hws : w.start = (p.start : WithTop K) := by
    rcases k2 with k2 | ⟨_, _, _, k2, _⟩ <;> exact k2.start
  have hval : ∀ c ch, chans[c]? = some ch → ∀ i, i < e.count → p.Reads ch (u.frame + i) (valueAt out' c i) := by
    intro c ch hc i hi
    obtain ⟨m1, m2⟩ := mapM_mem hm
    have hlen : c < out'.length := by
      rw [m1]; exact (List.getElem?_eq_some_iff.1 hc).1
    obtain ⟨ch', g1, g2⟩ := m2 c _ (List.getElem?_eq_getElem hlen)
    rw [hc] at g1
    cases g1
    obtain ⟨l1, l2⟩ := mapM_mem g2
    have hinf := (frames_infos hfr).1
    have hil : i < (out'[c]).length := by rw [l1, hinf]; exact hi
    obtain ⟨info, n1, n2⟩ := l2 i _ (List.getElem?_eq_getElem hil)
    have hv : valueAt out' c i = (out'[c])[i] := by
      unfold valueAt
      rw [List.getElem?_eq_getElem hlen, Option.getD_some, List.getElem?_eq_getElem hil, Option.getD_some]
    rw [hv]
    obtain ⟨q1, q2⟩ := k1 i hi
    refine reads_slow he hsr hbs (hq i (by omega) (by omega)) ?_ ?_ (fun g => ?_) (fun g => ?_) n2
    · exact (hch ch (List.mem_of_getElem? hc)).symm
    · rw [hag.dur, hag.bufSr, hch ch (List.mem_of_getElem? hc)]
      rfl
    · have := q1 g
      rw [n1] at this
      exact Option.some.inj this
    · have := q2 g
      rw [n1] at this
      exact Option.some.inj this
  refine ⟨hval, rfl, ?_, ?_⟩
  · unfold BufSt.close
    split <;> exact hu.alive
  obtain ⟨v, hv⟩ : ∃ v, BufSt.keep { u with aligned := false } w = v := ⟨_, rfl⟩
  have v1 : v.stop = p.stop := by rw [← hv]; exact hu.stop
  have v2 : v.duration = p.duration := by rw [← hv]; exact hu.duration
  have v3 : v.looping = p.looping := by rw [← hv]; exact hu.looping
  have v4 : v.frame = u.frame := by rw [← hv]; rfl
  have v5 : w.bufferTime = v.bufferTime := by rw [← hv]; rfl
  have v6 : w.elapsed = ((v.elapsed : K) : WithTop K) := by rw [← hv]; exact hwe
  rw [hv]
  cases hfin : v.finished e (durationOf e chans) rate with
  | true =>
    right
    refine ⟨by unfold BufSt.close; rw [hfin]; rfl, ?_⟩
    exact over_of_finished hsr hag hbs hmono (s := v) ⟨_, hr 0 hcount⟩ v1 v2 v3 (by rw [v4]) w k2 v5 v6 hfin
  | false =>
    left
    have hcl : v.close e (durationOf e chans) rate = v := by unfold BufSt.close; rw [hfin]; rfl
    have hat' : At p (u.frame + e.count) w := by
      rcases k2 with k2 | k2
      · exact k2
      · rw [← v4] at k2
        rw [finished_of_gone hsr hag.sr v1 v2 k2 v6] at hfin
        cases hfin
    rw [hcl]
    refine ⟨?_, v1, v2, v3, ?_, ?_, ?_, .inl ?_, ?_, ?_⟩
    · rw [← hv]; exact hu.buffer
    · rw [← hu.points, ← hv]
      exact loopPoints_congr rfl rfl rfl _
    · rw [← hv]; exact hu.alive
    · rw [← hv]; exact hu.ended
    · rw [← hv]; exact hws
    · have hsl : BufSt.slow { v with frame := u.frame + e.count } =
          { w with enteredLoop := if p.looping = true then w.enteredLoop else false } := by
        rw [← hv]
        unfold BufSt.slow BufSt.keep
        simp only [hu.looping, ← hwe]
      show At p (u.frame + e.count) { BufSt.slow { v with frame := u.frame + e.count } with start := (p.start : WithTop K) }
      rw [hsl]
      refine ⟨rfl, hat'.elapsed, fun hn => ?_, hat'.after, hat'.once, fun hlo hn => ?_⟩
      · obtain ⟨b1, b2, b3, b4⟩ := hat'.before hn
        exact ⟨b1, b2, b3, by simp only [b4, ite_self]⟩
      · simp only [hlo, if_true]
        exact hat'.loops hlo hn
    · intro hc
      rw [← hv] at hc
      cases hc

/-- At the natural rate from the beginning of the buffer, started on a frame. -/
structure Natural (p : Plan K) (n : Nat) : Prop where
  le : p.first ≤ n
  offset : p.offset = 0
  start : p.start = p.first / p.sr
  rates : ∀ i, p.first ≤ i → i < n → p.rate i = 1

theorem Natural.lead {p : Plan K} {n : Nat} (h : Natural p n) : p.lead = 0 := by
  unfold Plan.lead
  rw [h.start]; ring

theorem Natural.sum {p : Plan K} {n : Nat} (h : Natural p n) {m : Nat} (h1 : p.first ≤ m) (h2 : m ≤ n) :
    ∑ i ∈ Ico p.first m, p.rate i / p.sr = ((m - p.first : Nat) : K) / p.sr := by
  have : ∀ i ∈ Ico p.first m, p.rate i / p.sr = 1 / p.sr := by
    intro i hi
    rw [mem_Ico] at hi
    rw [h.rates i hi.1 (by omega)]
  rw [sum_congr rfl this, sum_const, Nat.card_Ico, nsmul_eq_mul]
  ring

theorem Natural.used {p : Plan K} {n : Nat} (h : Natural p n) {m : Nat} (h1 : p.first ≤ m) (h2 : m ≤ n) :
    p.used m = ((m - p.first : Nat) : K) / p.sr := by
  unfold Plan.used
  split
  · have : m = p.first := by omega
    rw [this]; simp
  · rw [h.lead, zero_mul, abs_zero, zero_add, ← h.sum h1 h2]
    apply sum_congr rfl
    intro i hi
    rw [mem_Ico] at hi
    rw [h.rates i hi.1 (by omega), abs_one]

theorem Natural.origin {p : Plan K} {n : Nat} (h : Natural p n) (hlt : p.first < n) (hd : 0 ≤ p.dur)
    (hl : p.looping = true → 0 ≤ p.loopEnd) : p.origin = 0 := by
  unfold Plan.origin
  dsimp only
  rw [h.lead, h.offset, h.rates p.first le_rfl hlt, zero_mul, add_zero, max_self, min_eq_left hd]
  rw [if_pos zero_le_one]
  split
  · rename_i hlo; exact min_eq_left (hl hlo)
  · rfl

theorem Natural.pos {p : Plan K} {n : Nat} (h : Natural p n) (hlt : p.first < n) (hd : 0 ≤ p.dur)
    (hl : p.looping = true → 0 ≤ p.loopEnd) {m : Nat} (h1 : p.first ≤ m) (h2 : m ≤ n) :
    p.pos m = ((m - p.first : Nat) : K) / p.sr := by
  unfold Plan.pos
  rw [h.origin hlt hd hl, zero_add, h.sum h1 h2]

/-- position and number of frames modulo the length of the buffer -/
theorem mod_shift {sr : K} (hsr : 0 < sr) {a b len : Nat} (h : a % len = b % len) :
    ∃ z : ℤ, (a : K) / sr = b / sr + z * (len / sr) := by
  refine ⟨((a / len : Nat) : ℤ) - ((b / len : Nat) : ℤ), ?_⟩
  have ha : (a : K) = (a % len : Nat) + (len : K) * (a / len : Nat) := by
    exact_mod_cast (Nat.mod_add_div a len).symm
  have hb : (b : K) = (b % len : Nat) + (len : K) * (b / len : Nat) := by
    exact_mod_cast (Nat.mod_add_div b len).symm
  rw [ha, hb, h, Int.cast_sub, Int.cast_natCast, Int.cast_natCast]
  field_simp
  ring

/-- What the fast track requires. -/
theorem fast_facts {e : BufEnv K} (hsr : 0 < e.sr) {chans : List (List K)} {p : Plan K} (hag : Agrees e chans p)
    {u : BufSt K} (hu : Follows e chans p u) (hstart : u.start = (p.start : WithTop K)) {rate : K}
    (hr : ∀ i, i < e.count → p.rate (u.frame + i) = rate) (hal : u.align e (durationOf e chans) rate = true) :
    Natural p (u.frame + e.count) ∧ p.first ≤ u.frame ∧ e.bufSr = e.sr ∧ rate = 1 ∧
      (u.loopStart = 0 ∧ u.loopEnd = durationOf e chans) ∧
      ((u.bufferTime + 1 / e.sr * e.count : K) : WithTop K) ≤ p.duration ∧
      ((u.frame / e.sr + 1 / e.sr * e.count : K) : WithTop K) ≤ p.stop ∧
      ∃ P : Nat, u.bufferTime = P / e.sr ∧
        (if u.looping then P ≤ lengthOf chans ∧ P % lengthOf chans = (u.frame - p.first) % lengthOf chans
          else P = u.frame - p.first ∧ (u.frame - p.first < lengthOf chans ∨ u.frame - p.first = 0)) := by
  unfold BufSt.align at hal
  dsimp only at hal
  rw [Bool.and_eq_true, Bool.and_eq_true, Bool.and_eq_true] at hal
  obtain ⟨⟨⟨h1, h2⟩, h3⟩, h4⟩ := hal
  rw [Bool.or_eq_true, Bool.and_eq_true, decide_eq_true_eq, decide_eq_true_eq] at h1
  rw [Bool.not_eq_true', Bool.or_eq_false_iff, decide_eq_false_iff_not, decide_eq_false_iff_not, not_not, not_not] at h2 h3
  rw [Bool.not_eq_true', Bool.or_eq_false_iff, decide_eq_false_iff_not, decide_eq_false_iff_not, not_lt, not_lt,
    hu.duration, hu.stop] at h4
  have hbs : e.bufSr = e.sr := by
    have := h2.1
    rwa [div_eq_one_iff_eq hsr.ne'] at this
  have hrates : ∀ i, u.frame ≤ i → i < u.frame + e.count → p.rate i = 1 := by
    intro i i1 i2
    have := hr (i - u.frame) (by omega)
    rw [show u.frame + (i - u.frame) = i by omega] at this
    rw [this, h2.2]
  rcases h1 with h1 | ⟨h1, h1'⟩
  · obtain ⟨f1, f2, f3, f4, f5, P, f6, f7⟩ := hu.fast h1
    refine ⟨⟨by omega, f2, by rw [f3, hag.sr], fun i i1 i2 => ?_⟩, f1.le, hbs, h2.2, h3, h4.1, h4.2, P, f6, ?_⟩
    · by_cases hi : i < u.frame
      · exact f5 i i1 hi
      · exact hrates i (by omega) i2
    · split
      · rename_i hlo; rw [if_pos hlo] at f7; exact f7
      · rename_i hlo; rw [if_neg hlo] at f7
        exact ⟨f7.1, .inl (by rw [← f7.1]; exact f7.2)⟩
  · rw [hstart] at h1
    have hps : p.start = u.frame / e.sr := WithTop.coe_injective h1
    have hf : p.first = u.frame := by
      unfold Plan.first
      rw [hps, hag.sr, div_mul_cancel₀ _ hsr.ne', Nat.ceil_natCast]
    obtain ⟨b1, b2, b3, b4⟩ := hu.state.before hf.ge
    refine ⟨⟨by omega, ?_, by rw [hps, hf, hag.sr], fun i i1 i2 => hrates i (by omega) i2⟩, hf.le, hbs, h2.2, h3, h4.1,
      h4.2, 0, ?_, ?_⟩
    · rw [← b2]; exact h1'
    · rw [Nat.cast_zero, zero_div]; exact b3
    · rw [hf, Nat.sub_self]
      split
      · simp
      · simp

theorem fast_block {e : BufEnv K} (hsr : 0 < e.sr)
    {chans : List (List K)} (hne : chans ≠ []) (hch : ∀ ch ∈ chans, ch.length = lengthOf chans)
    {p : Plan K} (hlen : p.looping = true → 0 < lengthOf chans) (hag : Agrees e chans p)
    (hmono : p.looping = true ∨ (∀ n, 0 ≤ p.rate n) ∨ ∀ n, p.rate n ≤ 0)
    (hdur : p.looping = true → p.duration = ⊤ ∨ p.offset ≠ 0 ∨ p.bufSr ≠ p.sr ∨ ∀ n, p.rate n ≠ 1) {u : BufSt K}
    (hu : Follows e chans p u) (hstart : u.start = (p.start : WithTop K)) {rate : K} (hcount : 0 < e.count)
    (hr : ∀ i, i < e.count → p.rate (u.frame + i) = rate) (hal : u.align e (durationOf e chans) rate = true)
    {out : List (List K)} {t : K} (h : fastTrack e u chans = .ok (out, t)) :
    BlockOk e chans p u.frame out { (({ u with aligned := true } : BufSt K).advance e t).close e
      (durationOf e chans) rate with frame := u.frame + e.count } := by
  obtain ⟨hnat, hfu, hbs, hr1, ⟨hls, hle⟩, hd, hst, P, hP, hPl⟩ := fast_facts hsr hag hu hstart hr hal
  have hlt : p.first < u.frame + e.count := by omega
  have hpd : p.dur = lengthOf chans / e.sr := by rw [hag.dur, durationOf, hbs]
  have hpd0 : 0 ≤ p.dur := by rw [hpd]; positivity
  -- the loop is the whole buffer
  have hloop : p.looping = true → p.loopStart = 0 ∧ p.loopEnd = p.dur ∧ 0 < p.dur := by
    intro hlo
    have hl0 : (0 : K) < lengthOf chans := by exact_mod_cast hlen hlo
    have hd0 : 0 < p.dur := by rw [hpd]; positivity
    have := hu.points
    unfold loopPoints at this
    rw [hu.looping, hlo, hls, hle, ← hag.dur] at this
    simp only [if_true, le_refl, hd0, and_self] at this
    exact ⟨(congrArg Prod.fst this).symm, (congrArg Prod.snd this).symm, hd0⟩
  have hl0 : p.looping = true → 0 ≤ p.loopEnd := fun hlo => by rw [(hloop hlo).2.1]; exact hpd0
  have horig := hnat.origin hlt hpd0 hl0
  have hpos : ∀ m, p.first ≤ m → m ≤ u.frame + e.count → p.pos m = ((m - p.first : Nat) : K) / e.sr := by
    intro m m1 m2
    rw [hnat.pos hlt hpd0 hl0 m1 m2, hag.sr]
  have hent : p.looping = true → ∀ m, p.first ≤ m → p.Entered m := by
    intro hlo m hm
    refine ⟨p.first, le_rfl, hm, .inl ?_⟩
    rw [horig, (hloop hlo).2.1, (hloop hlo).1, p.pos_first, horig]
    exact ⟨(hloop hlo).2.2, le_rfl⟩
  obtain ⟨outs', t', f1, f2, f3, P', f4, f5⟩ := fastTrack_spec (P := u.frame - p.first) hsr hbs (s := u) hne hch
    (fun hlo => hlen (by rw [← hu.looping]; exact hlo)) hP hPl
  rw [f1] at h
  injection h with h
  injection h with g1 g2
  have g1' := g1.symm
  have g2' := g2.symm
  subst g1' g2'
  -- every frame sounds
  have hsound : ∀ i, i < e.count → p.Sounds (u.frame + i) := by
    intro i hi
    refine ⟨by omega, ?_, ?_⟩
    · refine lt_of_lt_of_le (WithTop.coe_lt_coe.2 ?_) hst
      rw [hag.sr]
      have : (u.frame : K) / e.sr + 1 / e.sr * e.count = ((u.frame + e.count : Nat) : K) / e.sr := by
        push_cast; ring
      rw [this]
      apply div_lt_div_of_pos_right _ hsr
      exact_mod_cast Nat.add_lt_add_left hi _
    · rw [hnat.used (by omega) (by omega), hag.sr]
      cases hlo : p.looping with
      | true =>
        rcases hdur hlo with g | g | g | g
        · rw [g]; exact WithTop.coe_lt_top _
        · exact absurd hnat.offset g
        · exact absurd (by rw [hag.bufSr, hag.sr, hbs]) g
        · exact absurd (hnat.rates p.first le_rfl hlt) (g _)
      | false =>
        rw [hu.looping, hlo] at hPl
        simp only [Bool.false_eq_true, if_false] at hPl
        refine lt_of_lt_of_le (WithTop.coe_lt_coe.2 ?_) hd
        rw [hP, hPl.1]
        have : ((u.frame - p.first : Nat) : K) / e.sr + 1 / e.sr * e.count =
            ((u.frame - p.first + e.count : Nat) : K) / e.sr := by
          push_cast; ring
        rw [this]
        apply div_lt_div_of_pos_right _ hsr
        have : u.frame + i - p.first < u.frame - p.first + e.count := by omega
        exact_mod_cast this
  have hval : ∀ c ch, chans[c]? = some ch → ∀ i, i < e.count → p.Reads ch (u.frame + i) (valueAt out c i) := by
    intro c ch hc i hi
    have hcl := (List.getElem?_eq_some_iff.1 hc).1
    have hchl := hch ch (List.mem_of_getElem? hc)
    obtain ⟨X, x1, x2⟩ : ∃ X : Nat, p.place (u.frame + i) = X / e.sr ∧ valueAt out c i = (ch[X]?).getD 0 := by
      rw [f3 c hcl i hi, hc, Option.getD_some, hu.looping]
      have hD : u.frame + i - p.first = u.frame - p.first + i := by omega
      cases hlo : p.looping with
      | false =>
        refine ⟨u.frame - p.first + i, ?_, rfl⟩
        unfold Plan.place
        rw [if_neg (by rw [hlo]; simp), hpos _ (by omega) (by omega), hD]
      | true =>
        refine ⟨(u.frame - p.first + i) % ch.length, ?_, rfl⟩
        obtain ⟨l1, l2, l3⟩ := hloop hlo
        unfold Plan.place
        rw [if_pos ⟨hlo, hent hlo _ (by omega)⟩]
        symm
        have hlp := hlen hlo
        apply fold_unique (by rw [l1, l2]; exact l3)
        · rw [l1]; positivity
        · rw [l2, hpd, hchl]
          apply div_lt_div_of_pos_right _ hsr
          exact_mod_cast Nat.mod_lt _ hlp
        · rw [l1, l2, sub_zero, hpos _ (by omega) (by omega), hD, hpd, hchl]
          exact mod_shift hsr (Nat.mod_mod _ _)
    have hpl : p.place (u.frame + i) * p.bufSr = X := by
      rw [x1, hag.bufSr, hbs, div_mul_cancel₀ _ hsr.ne']
    have hwhole : ∀ (k : Nat) (f : K), 0 ≤ f → f < 1 → (X : K) = k + f → X = k ∧ f = 0 := by
      intro k f f0 f1 hp
      have hk1 : X = k := by
        have h1 : (k : K) ≤ X := by linarith
        have h2 : (X : K) < (k : K) + 1 := by linarith
        have h1' : k ≤ X := by exact_mod_cast h1
        have h2' : X < k + 1 := by exact_mod_cast h2
        omega
      exact ⟨hk1, by rw [hk1] at hp; linarith⟩
    refine ⟨fun g => absurd (hsound i hi) g, fun g => ?_, fun _ k x hk hp => ?_, fun _ k x y f hk hy f0 f1 hp => ?_,
      fun _ _ k w x f _ hx _ f0 f1 hp => ?_, fun _ _ x f hx f0 f1 hp => ?_⟩
    · rcases g with g | g
      · rw [x1] at g
        exact absurd g (not_lt.2 (by positivity))
      · rw [x1, hpd, div_le_div_iff_of_pos_right hsr] at g
        have hX : ch.length ≤ X := by rw [hchl]; exact_mod_cast g
        rw [x2, List.getElem?_eq_none hX]
        rfl
    · rw [hpl] at hp
      have : X = k := by exact_mod_cast hp
      rw [x2, this, hk]
      rfl
    · rw [hpl] at hp
      obtain ⟨hk1, hf0⟩ := hwhole k f f0 f1 hp
      rw [x2, hk1, hk, hf0]
      simp
    · rw [hpl] at hp
      obtain ⟨hk1, hf0⟩ := hwhole (k + 1) f f0 f1 hp
      rw [x2, hk1, hx, hf0]
      simp
    · rw [hpl] at hp
      obtain ⟨hk1, hf0⟩ := hwhole 0 f f0 f1 (by rw [hp]; simp)
      rw [x2, hk1, hx, hf0]
      simp
  obtain ⟨v, hv⟩ : ∃ v, ({ u with aligned := true } : BufSt K).advance e t = v := ⟨_, rfl⟩
  have v1 : v.stop = p.stop := by rw [← hv]; exact hu.stop
  have v2 : v.duration = p.duration := by rw [← hv]; exact hu.duration
  have v3 : v.looping = p.looping := by rw [← hv]; exact hu.looping
  have v4 : v.frame = u.frame := by rw [← hv]; rfl
  have v5 : v.bufferTime = t := by rw [← hv]; rfl
  have v6 : v.start = (p.start : WithTop K) := by rw [← hv]; exact hstart
  have v7 : v.elapsed = p.used (u.frame + e.count) := by
    rw [← hv]
    show u.elapsed + 1 / e.sr * e.count = _
    have := hu.state.elapsed
    have hue : u.elapsed = p.used u.frame := WithTop.coe_injective this
    rw [hue, hnat.used hfu (by omega), hnat.used (by omega) le_rfl, hag.sr]
    have : u.frame + e.count - p.first = u.frame - p.first + e.count := by omega
    rw [this]
    push_cast
    ring
  have v8 : v.started = true := by
    rw [← hv]
    show (u.started || decide (u.start = ((u.frame / e.sr : K) : WithTop K))) = true
    by_cases hf : p.first < u.frame
    · rw [show u.started = true from (hu.state.after hf).1]; rfl
    · have : p.first = u.frame := by omega
      rw [hstart, hnat.start, this, hag.sr]
      simp
  have v9 : v.offset = p.origin := by
    rw [← hv]
    show u.offset = _
    by_cases hf : p.first < u.frame
    · exact (hu.state.after hf).2
    · rw [horig, ← hnat.offset]
      exact (hu.state.before (by omega)).2.1
  have hslow : At p (u.frame + e.count)
      { BufSt.slow { v with frame := u.frame + e.count } with start := (p.start : WithTop K) } := by
    refine ⟨rfl, ?_, fun hc => ?_, fun _ => ⟨v8, v9⟩, fun hlo _ => ?_, fun hlo _ => ?_⟩
    · show ((v.elapsed : K) : WithTop K) = _
      rw [v7]
    · omega
    · show v.bufferTime = _
      rw [hu.looping, hlo] at f5
      simp only [Bool.false_eq_true, if_false] at f5
      rw [v5, f4, f5, hpos _ (by omega) le_rfl]
      have : u.frame + e.count - p.first = u.frame - p.first + e.count := by omega
      rw [this]
    · right
      rw [hu.looping, hlo] at f5
      simp only [if_true] at f5
      obtain ⟨l1, l2, l3⟩ := hloop hlo
      refine ⟨hent hlo _ (by omega), ?_, .inr ?_⟩
      · show ∃ z : ℤ, v.bufferTime = _
        rw [v5, f4, hpos _ (by omega) le_rfl, l1, l2, sub_zero, hpd]
        have : u.frame + e.count - p.first = u.frame - p.first + e.count := by omega
        rw [this]
        exact mod_shift hsr f5.2
      · show _ ∧ _ ≤ v.bufferTime
        rw [horig, l1, l2, v5, f4]
        exact ⟨l3, by positivity⟩
  rw [hv]
  have hbs0 : 0 < e.bufSr := by rw [hbs]; exact hsr
  refine ⟨hval, rfl, ?_, ?_⟩
  · have : v.alive = true := by rw [← hv]; exact hu.alive
    unfold BufSt.close
    split <;> exact this
  cases hfin : v.finished e (durationOf e chans) rate with
  | true =>
    right
    refine ⟨by unfold BufSt.close; rw [hfin]; rfl, ?_⟩
    exact over_of_finished hsr hag hbs0 hmono (s := v) ⟨_, hr 0 hcount⟩ v1 v2 v3 (by rw [v4]) _ (.inl hslow) rfl rfl hfin
  | false =>
    left
    have hcl : v.close e (durationOf e chans) rate = v := by unfold BufSt.close; rw [hfin]; rfl
    rw [hcl]
    refine ⟨?_, v1, v2, v3, ?_, ?_, ?_, .inl v6, hslow, fun _ => ?_⟩
    · rw [← hv]; exact hu.buffer
    · rw [← hu.points, ← hv]
      exact loopPoints_congr rfl rfl rfl _
    · rw [← hv]; exact hu.alive
    · rw [← hv]; exact hu.ended
    · refine ⟨hlt, hnat.offset, by rw [hnat.start, hag.sr], hbs, hnat.rates, P', by rw [← f4]; exact v5, ?_⟩
      show if v.looping = true then _ else _
      have hD : u.frame + e.count - p.first = u.frame - p.first + e.count := by omega
      show if v.looping = true then P' ≤ lengthOf chans ∧ P' % lengthOf chans =
        (u.frame + e.count - p.first) % lengthOf chans else P' = u.frame + e.count - p.first ∧ P' < lengthOf chans
      rw [hD, v3]
      rw [hu.looping] at f5
      cases hlo : p.looping with
      | true => rw [hlo] at f5; exact f5
      | false =>
        rw [hlo] at f5
        simp only [Bool.false_eq_true, if_false] at f5 ⊢
        refine ⟨f5, ?_⟩
        by_contra hc
        have : durationOf e chans ≤ v.bufferTime := by
          rw [v5, f4, ← hag.dur, hpd]
          apply div_le_div_of_nonneg_right _ hsr.le
          exact_mod_cast not_lt.1 hc
        unfold BufSt.finished at hfin
        rw [v3, hlo, hr1] at hfin
        simp [this] at hfin

theorem Plan.Reads.zero {p : Plan K} {n : Nat} (h : ¬ p.Sounds n) (ch : List K) : p.Reads ch n 0 :=
  ⟨fun _ => rfl, fun _ => rfl, fun hs => absurd hs h, fun hs => absurd hs h, fun _ hs => absurd hs h, fun _ hs => absurd hs h⟩

omit [FloorRing K] [IsStrictOrderedRing K] in
theorem valueAt_nil (c i : Nat) : valueAt ([] : List (List K)) c i = 0 := by simp [valueAt]

/-- One quantum. -/
theorem Follows.block {e : BufEnv K} (he : e.Exact) (hsr : 0 < e.sr) (hbs : 0 < e.bufSr) (hcount : 0 < e.count)
    {chans : List (List K)} (hne : chans ≠ []) (hch : ∀ ch ∈ chans, ch.length = lengthOf chans)
    {p : Plan K} (hlen : p.looping = true → 0 < lengthOf chans) (hag : Agrees e chans p)
    (hmono : p.looping = true ∨ (∀ n, 0 ≤ p.rate n) ∨ ∀ n, p.rate n ≤ 0)
    (hdur : p.looping = true → p.duration = ⊤ ∨ p.offset ≠ 0 ∨ p.bufSr ≠ p.sr ∨ ∀ n, p.rate n ≠ 1)
    {s s' : BufSt K} (h : Follows e chans p s) (hgrid : p.first = s.frame → p.start = p.first / e.sr)
    {rate det : K} (hr : ∀ i, i < e.count → p.rate (s.frame + i) = rate * det) {out : List (List K)}
    (hs : s.step e (.block rate det) = some (.ok (out, s'))) : BlockOk e chans p s.frame out s' := by
  have hpsr : 0 < p.sr := by rw [hag.sr]; exact hsr
  have hnext : (s.frame : K) / e.sr + 1 / e.sr * e.count = ((s.frame + e.count : Nat) : K) / e.sr := by
    push_cast; ring
  simp only [BufSt.step, h.alive, if_true] at hs
  cases hp : s.process e rate det with
  | error f => rw [hp] at hs; cases hs
  | ok x =>
    obtain ⟨o, q, b⟩ := x
    rw [hp] at hs
    cases hs
    unfold BufSt.process at hp
    dsimp only at hp
    rw [if_neg (by rw [h.ended]; simp), if_neg (fun hh => by rw [h.buffer] at hh; cases hh.1)] at hp
    split at hp
    · rename_i hle
      rw [hnext] at hle
      -- before the start
      have hst : s.start = (p.start : WithTop K) := by
        rcases h.time with g | ⟨_, g, _⟩
        · exact g
        · refine absurd (lt_of_le_of_lt hle g) (not_lt.2 (WithTop.coe_le_coe.2 ?_))
          apply div_le_div_of_nonneg_right _ hsr.le
          exact_mod_cast Nat.le_add_right _ _
      have hfirst : s.frame + e.count ≤ p.first := by
        rw [hst] at hle
        have hle := WithTop.coe_le_coe.1 hle
        by_contra hc
        have := (Plan.first_le (p := p) hpsr (n := s.frame + e.count - 1)).1 (by omega)
        rw [hag.sr] at this
        have h2 : ((s.frame + e.count - 1 : Nat) : K) / e.sr < ((s.frame + e.count : Nat) : K) / e.sr := by
          apply div_lt_div_of_pos_right _ hsr
          have : s.frame + e.count - 1 < s.frame + e.count := by omega
          exact_mod_cast this
        linarith
      have hsil : ∀ c ch, chans[c]? = some ch → ∀ i, i < e.count →
          p.Reads ch (s.frame + i) (valueAt ([] : List (List K)) c i) := by
        intro c ch _ i hi
        rw [valueAt_nil]
        exact .zero (fun g => by have := g.1; omega) ch
      split at hp
      · rename_i hstop
        cases hp
        refine ⟨hsil, rfl, h.alive, .inr ⟨rfl, fun m hm => .inl fun g => ?_⟩⟩
        rw [h.stop, hnext] at hstop
        refine absurd (lt_of_le_of_lt hstop (lt_of_le_of_lt (WithTop.coe_le_coe.2 ?_) g.2.1)) (lt_irrefl _)
        rw [hag.sr]
        apply div_le_div_of_nonneg_right _ hsr.le
        exact_mod_cast hm
      · cases hp
        refine ⟨hsil, rfl, h.alive, .inl ?_⟩
        refine ⟨h.buffer, h.stop, h.duration, h.looping, h.points, h.alive, h.ended, .inl hst, ?_, fun hal => ?_⟩
        · have hat := h.state
          refine ⟨rfl, ?_, fun _ => hat.before (by omega), fun hc => ?_, fun _ hc => ?_, fun _ hc => ?_⟩
          · show ((s.elapsed : K) : WithTop K) = _
            have := hat.elapsed
            unfold Plan.used at this ⊢
            rw [if_pos (by omega)] at this
            rw [if_pos hfirst]
            exact this
          · exact absurd hfirst (not_le.2 hc)
          · exact absurd hfirst (not_le.2 hc)
          · exact absurd hfirst (not_le.2 hc)
        · have := (h.fast hal).1
          omega
    · rw [h.buffer] at hp
      simp only at hp
      cases hpl : s.play e chans rate (rate * det) with
      | error f => rw [hpl] at hp; cases hp
      | ok y =>
        obtain ⟨o2, q2⟩ := y
        rw [hpl] at hp
        cases hp
        -- the start time
        obtain ⟨u, hu⟩ : ∃ u, s.catchUp e = u := ⟨_, rfl⟩
        have hfu : Follows e chans p u ∧ u.start = (p.start : WithTop K) ∧ u.frame = s.frame := by
          rcases h.time with g | ⟨g1, g2, g3⟩
          · have : s.catchUp e = s := by
              unfold BufSt.catchUp
              rw [if_neg]
              rintro ⟨c1, c2⟩
              rw [g, WithTop.coe_lt_coe] at c2
              have hn : s.frame ≤ p.first := by
                by_contra hc
                have := (h.state.after (not_le.1 hc)).1
                have c1' : (s.slow).started = false := c1
                rw [show s.slow.started = true from this] at c1'
                cases c1'
              have hn' : p.first ≤ s.frame := by
                rw [Plan.first_le hpsr, hag.sr]
                exact c2.le
              have hf : p.first = s.frame := by omega
              have := hgrid hf
              rw [this, hf] at c2
              exact lt_irrefl _ c2
            rw [this] at hu
            subst hu
            exact ⟨h, g, rfl⟩
          · have : s.catchUp e = { s with start := (p.start : WithTop K) } := by
              unfold BufSt.catchUp
              rw [if_pos ⟨g1, g2⟩, g3]
            rw [this] at hu
            subst hu
            exact ⟨⟨h.buffer, h.stop, h.duration, h.looping, h.points, h.alive, h.ended, .inl rfl, h.state, h.fast⟩,
              rfl, rfl⟩
        obtain ⟨hfu, hus, huf⟩ := hfu
        rw [← huf] at hr ⊢
        unfold BufSt.play at hpl
        dsimp only at hpl
        rw [hu] at hpl
        split at hpl
        · rename_i hal
          split at hpl
          · cases hpl
          · rename_i o3 t hf
            injection hpl with hpl
            injection hpl with g1 g2
            subst g1 g2
            exact fast_block hsr hne hch hlen hag hmono hdur hfu hus hcount hr hal hf
        · split at hpl
          · cases hpl
          · rename_i o3 r hsl
            injection hpl with hpl
            injection hpl with g1 g2
            subst g1 g2
            exact slow_block he hsr hbs hch hag hmono hfu hus hcount hr hsl

omit [IsStrictOrderedRing K] in
theorem BufSt.run_inv {e : BufEnv K} {s u : BufSt K} {op : BufOp K} {ops : List (BufOp K)}
    {outs : List (List (List K))} (h : BufSt.run e s (op :: ops) = some (.ok (outs, u))) :
    ∃ out t outs', s.step e op = some (.ok (out, t)) ∧ BufSt.run e t ops = some (.ok (outs', u)) ∧
      outs = out :: outs' := by
  rw [BufSt.run] at h
  cases hs : s.step e op with
  | none => rw [hs] at h; cases h
  | some x =>
    cases x with
    | error f => rw [hs] at h; cases h
    | ok r =>
      obtain ⟨out, t⟩ := r
      rw [hs] at h
      simp only at h
      cases hr : BufSt.run e t ops with
      | none => rw [hr] at h; cases h
      | some y =>
        cases y with
        | error f => rw [hr] at h; cases h
        | ok r =>
          obtain ⟨outs', v⟩ := r
          rw [hr] at h
          cases h
          exact ⟨out, t, outs', rfl, hr, rfl⟩

/-- All quanta from a state that follows the plan. -/
theorem Follows.run {e : BufEnv K} (he : e.Exact) (hsr : 0 < e.sr) (hbs : 0 < e.bufSr) (hcount : 0 < e.count)
    {chans : List (List K)} (hne : chans ≠ []) (hch : ∀ ch ∈ chans, ch.length = lengthOf chans)
    {p : Plan K} (hlen : p.looping = true → 0 < lengthOf chans) (hag : Agrees e chans p)
    (hmono : p.looping = true ∨ (∀ n, 0 ≤ p.rate n) ∨ ∀ n, p.rate n ≤ 0)
    (hdur : p.looping = true → p.duration = ⊤ ∨ p.offset ≠ 0 ∨ p.bufSr ≠ p.sr ∨ ∀ n, p.rate n ≠ 1)
    (rs : List (K × K)) : ∀ {s s' : BufSt K} {outs : List (List (List K))},
    (Follows e chans p s ∨ (s.alive = true ∧ s.ended = true ∧ p.Over s.frame)) →
    (∀ j, p.first = s.frame + j * e.count → p.start = p.first / e.sr) →
    (∀ (j : Nat) r, rs[j]? = some r → ∀ i, i < e.count → p.rate (s.frame + j * e.count + i) = r.1 * r.2) →
    BufSt.run e s (blocks rs) = some (.ok (outs, s')) →
    ∀ j, j < rs.length → ∀ c ch, chans[c]? = some ch → ∀ i, i < e.count →
      p.Reads ch (s.frame + j * e.count + i) (valueAt ((outs[j]?).getD []) c i) := by
  induction rs with
  | nil => intro s s' outs _ _ _ _ j hj; simp at hj
  | cons r rs ih =>
    intro s s' outs h hgrid hr hrun j hj c ch hc i hi
    obtain ⟨out, t, outs', h1, h2, rfl⟩ := BufSt.run_inv hrun
    have hok : (∀ c ch, chans[c]? = some ch → ∀ i, i < e.count → p.Reads ch (s.frame + i) (valueAt out c i)) ∧
        t.frame = s.frame + e.count ∧
        (Follows e chans p t ∨ (t.alive = true ∧ t.ended = true ∧ p.Over t.frame)) := by
      rcases h with h | ⟨g1, g2, g3⟩
      · obtain ⟨b1, b2, b3, b4⟩ := h.block he hsr hbs hcount hne hch hlen hag hmono hdur
          (fun hf => hgrid 0 (by rw [hf]; simp))
          (fun i hi => by have := hr 0 r rfl i hi; rwa [Nat.zero_mul, Nat.add_zero] at this) h1
        refine ⟨b1, b2, ?_⟩
        rcases b4 with b4 | ⟨b4, b5⟩
        · exact .inl b4
        · exact .inr ⟨b3, b4, by rw [b2]; exact b5⟩
      · simp only [BufSt.step, g1, if_true] at h1
        unfold BufSt.process at h1
        rw [g2] at h1
        simp only [if_true] at h1
        cases h1
        refine ⟨fun c ch hc i hi => ?_, rfl, .inr ⟨g1, g2, fun m hm => g3 m (by simp only at hm; omega)⟩⟩
        rw [valueAt_nil]
        refine g3.reads (by omega) ch (by rw [hag.bufSr]; exact hbs) ?_
        rw [hag.dur, hag.bufSr, hch ch (List.mem_of_getElem? hc)]
        rfl
    obtain ⟨o1, o2, o3⟩ := hok
    cases j with
    | zero =>
      rw [Nat.zero_mul, Nat.add_zero]
      exact o1 c ch hc i hi
    | succ j =>
      have e1 : ∀ k, s.frame + (k + 1) * e.count = t.frame + k * e.count := by
        intro k; rw [o2, Nat.succ_mul]; omega
      rw [e1]
      refine ih o3 (fun k hk => hgrid (k + 1) (by rw [e1]; exact hk)) (fun k r' hk i hi => ?_) h2 j
        (by simpa using hj) c ch hc i hi
      rw [← e1]
      exact hr (k + 1) r' hk i hi

end

end Verif.Source
