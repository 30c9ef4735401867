import Verif.Source.BufferSlow

/-!
# C33, C34: when the buffer source faults, concrete cases
-/

namespace Verif.Source

section
variable {K : Type} [Field K] [LinearOrder K] [FloorRing K] [IsStrictOrderedRing K]

/-! ## The slow track -/

omit [IsStrictOrderedRing K] in
theorem wrap_ok {e : BufEnv K} {q : SlowEnv K} (hq : q.looping = true → q.loopStart < q.loopEnd)
    [IsStrictOrderedRing K] (r : Slow K) : ∃ r', Slow.wrap e q r = .ok r' := by
  unfold Slow.wrap
  split
  · rename_i hl
    have hpos : 0 < q.loopEnd - q.loopStart := sub_pos.2 (hq hl)
    split
    · cases h1 : wrapDown q.loopEnd (q.loopEnd - q.loopStart) (snapLoop e q r.bufferTime) with
      | error f =>
        exfalso
        unfold wrapDown at h1
        split at h1
        · cases h1
        · rw [if_neg (not_le.2 hpos)] at h1; cases h1
      | ok t =>
        dsimp only
        cases h2 : wrapUp q.loopStart (q.loopEnd - q.loopStart) t with
        | error f =>
          exfalso
          unfold wrapUp at h2
          split at h2
          · cases h2
          · rw [if_neg (not_le.2 hpos)] at h2; cases h2
        | ok t => exact ⟨_, rfl⟩
    · exact ⟨_, rfl⟩
  · exact ⟨_, rfl⟩

theorem frames_ok {e : BufEnv K} {q : SlowEnv K} (hq : q.looping = true → q.loopStart < q.loopEnd) (bt : K) (n : Nat) :
    ∀ (i : Nat) (r : Slow K), ∃ r' infos, Slow.frames e q bt n i r = .ok (r', infos) := by
  induction n with
  | zero => intro i r; exact ⟨r, [], rfl⟩
  | succ n ih =>
    intro i r
    have hf : ∃ r' p, Slow.frame e q (bt + i * (1 / e.sr)) r = .ok (r', p) := by
      unfold Slow.frame
      dsimp only
      split
      · exact ⟨_, _, rfl⟩
      · obtain ⟨r', h⟩ := wrap_ok (e := e) hq (Slow.begin q (Slow.snap e q (bt + i * (1 / e.sr)) r) (bt + i * (1 / e.sr)))
        rw [h]
        exact ⟨_, _, rfl⟩
    obtain ⟨r', p, hf⟩ := hf
    obtain ⟨r'', ps, hg⟩ := ih (i + 1) r'
    exact ⟨r'', p :: ps, by rw [Slow.frames, hf]; dsimp only; rw [hg]⟩

/-- What keeps the interpolation at the last frame inside the buffer when looping. -/
structure LoopFits (e : BufEnv K) (s : BufSt K) (chans : List (List K)) (rate0 : K) : Prop where
  nonempty : 0 < lengthOf chans
  forward : 0 ≤ rate0 → (loopPoints e s chans).1 * e.sr ≤ (lengthOf chans : K) - 1
  backward : rate0 < 0 → (loopPoints e s chans).2 * e.sr < lengthOf chans

theorem nextSample_ok {e : BufEnv K} {s : BufSt K} {chans : List (List K)} {rate0 rate : K} (hsr : 0 < e.sr)
    (hbs : 0 < e.bufSr)
    (hfit : s.looping = true → LoopFits e s chans rate0) {ch : List K} (hch : ch.length = lengthOf chans)
    {i : Nat} (hi : i < lengthOf chans) (k x : K) :
    nextSample e (s.slowEnv e chans rate) rate0 ch i k x ≠ none := by
  have hls : s.looping = true → 0 ≤ (loopPoints e s chans).1 := by
    intro hl
    unfold loopPoints
    rw [if_pos hl]
    split
    · rename_i h; exact h.1
    · exact le_refl _
  unfold nextSample
  cases hn : ch[i + 1]? with
  | some v => simp
  | none =>
    dsimp only
    split
    · rename_i hl
      have hl' : s.looping = true := hl
      obtain ⟨f1, f2, f3⟩ := hfit hl'
      split
      · rename_i h0
        have f2 := f2 h0
        have h0' := hls hl'
        rw [Ne, List.getElem?_eq_none_iff, not_le, hch]
        show (if (⌊(loopPoints e s chans).1 * e.sr⌋ : K) = (loopPoints e s chans).1 * e.sr
          then ⌊(loopPoints e s chans).1 * e.sr⌋.toNat else ⌊(loopPoints e s chans).1 * e.sr⌋.toNat + 1) < lengthOf chans
        generalize (loopPoints e s chans).1 = l at f2 h0'
        have hp : 0 ≤ l * e.sr := mul_nonneg h0' hsr.le
        have hfl : (0 : ℤ) ≤ ⌊l * e.sr⌋ := Int.floor_nonneg.2 hp
        obtain ⟨m, hm⟩ := Int.eq_ofNat_of_zero_le hfl
        have hle := Int.floor_le (l * e.sr)
        rw [hm] at hle ⊢
        push_cast at hle
        split
        · have : (m : K) < (lengthOf chans : K) := by linarith
          have : m < lengthOf chans := by exact_mod_cast this
          simpa using this
        · rename_i hne
          have hlt : (m : K) < l * e.sr := lt_of_le_of_ne hle (by push_cast at hne; exact hne)
          have : (m : K) + 1 < (lengthOf chans : K) := by linarith
          have : m + 1 < lengthOf chans := by exact_mod_cast this
          simpa using this
      · rename_i h0
        have f3 := f3 (not_le.1 h0)
        rw [Ne, List.getElem?_eq_none_iff, not_le, hch]
        show ⌊(loopPoints e s chans).2 * e.sr⌋.toNat < lengthOf chans
        have hle := Int.floor_le ((loopPoints e s chans).2 * e.sr)
        have : ((⌊(loopPoints e s chans).2 * e.sr⌋ : ℤ) : K) < ((lengthOf chans : ℤ) : K) := by
          push_cast; linarith
        have : ⌊(loopPoints e s chans).2 * e.sr⌋ < (lengthOf chans : ℤ) := by exact_mod_cast this
        omega
    · split
      · simp
      · rename_i h
        push Not at h
        rw [Ne, Option.map_eq_none_iff, List.getElem?_eq_none_iff, not_le]
        omega

/-! ## The fast track -/

omit [IsStrictOrderedRing K] [FloorRing K] in
theorem fastLoop_ok {looping : Bool} {ch : List K} {n : Nat} (hl : looping = true → 0 < ch.length) :
    ∀ (index si off : Nat) (lp : Option Nat), ∃ r, fastLoop ch ch.length looping n index si off lp = some r := by
  induction n with
  | zero => intro index si off lp; exact ⟨_, rfl⟩
  | succ n ih =>
    intro index si off lp
    rw [fastLoop]
    split
    · rename_i h
      obtain ⟨r, hr⟩ := ih (index + 1) si off lp
      rw [List.getElem?_eq_getElem h, hr]
      exact ⟨_, rfl⟩
    · split
      · rename_i h
        obtain ⟨r, hr⟩ := ih (index + 1) 0 index (some index)
        rw [List.getElem?_eq_getElem (hl h), hr]
        exact ⟨_, rfl⟩
      · obtain ⟨r, hr⟩ := ih (index + 1) si off lp
        rw [hr]
        exact ⟨_, rfl⟩

omit [IsStrictOrderedRing K] [FloorRing K] in
theorem fastChannels_ok {looping : Bool} {len n si : Nat} (hl : looping = true → 0 < len) {chans : List (List K)}
    (hch : ∀ ch ∈ chans, ch.length = len) :
    ∀ (lp : Option Nat), ∃ r, fastChannels len looping n si chans lp = some r := by
  induction chans with
  | nil => intro lp; exact ⟨_, rfl⟩
  | cons ch chans ih =>
    intro lp
    have h0 := hch ch (by simp)
    rw [fastChannels]
    obtain ⟨r, hr⟩ := fastLoop_ok (n := n) (looping := looping) (ch := ch) (by rw [h0]; exact hl) 0 si 0 lp
    rw [h0] at hr
    obtain ⟨q, hq⟩ := ih (fun c hc => hch c (by simp [hc])) r.2
    rw [hr, Option.bind_some, hq]
    exact ⟨_, rfl⟩

theorem fastTrack_ok {e : BufEnv K} (hsr : 0 < e.sr) (hbs : e.bufSr = e.sr) {s : BufSt K} {chans : List (List K)}
    (hch : ∀ ch ∈ chans, ch.length = lengthOf chans) (hl : s.looping = true → 0 < lengthOf chans) {p : Nat}
    (hp : s.bufferTime = p / e.sr) : ∃ r, fastTrack e s chans = .ok r := by
  have hsi : ⌊s.bufferTime * e.sr + 1 / 2⌋.toNat = p := by
    have : s.bufferTime * e.sr + 1 / 2 = (1 / 2 : K) + (p : ℤ) := by
      rw [hp]; push_cast; field_simp; ring
    rw [this, Int.floor_add_intCast]
    have : ⌊(1 / 2 : K)⌋ = 0 := by rw [Int.floor_eq_zero_iff]; constructor <;> norm_num
    rw [this]; simp
  unfold fastTrack
  dsimp only
  split
  · obtain ⟨r, hr⟩ := fastChannels_ok (n := e.count) (si := ⌊s.bufferTime * e.sr + 1 / 2⌋.toNat) hl hch none
    rw [hr]
    obtain ⟨out, lp⟩ := r
    cases lp with
    | none => exact ⟨_, rfl⟩
    | some l => exact ⟨_, rfl⟩
  · rename_i hle
    rw [hsi]
    have hlen : p + e.count ≤ lengthOf chans := by
      rw [not_lt, durationOf, hbs, hp] at hle
      have h1 : (p : K) / e.sr + 1 / e.sr * e.count = ((p + e.count : Nat) : K) / e.sr := by
        push_cast; field_simp
      rw [h1, div_le_div_iff_of_pos_right hsr] at hle
      exact_mod_cast hle
    obtain ⟨r, hr⟩ := mapM_some (f := fun ch => slice ch p e.count) (l := chans) (by
      intro ch hc
      unfold slice
      rw [if_pos (by rw [hch ch hc]; exact hlen)]
      simp)
    rw [hr]
    exact ⟨_, rfl⟩

/-- no fault in a quantum from a state as in `Placed` -/
theorem Placed.renders {e : BufEnv K} (hsr : 0 < e.sr) (hbs : 0 < e.bufSr) {s : BufSt K} (hi : Placed e s)
    (hch : ∀ chans, s.buffer = some chans → ∀ ch ∈ chans, ch.length = lengthOf chans) {rate0 det : K}
    (hfit : ∀ chans, s.buffer = some chans → s.looping = true → LoopFits e s chans rate0) :
    ∃ out s', s.step e (.block rate0 det) = some (.ok (out, s')) := by
  simp only [BufSt.step]
  split
  swap
  · exact ⟨_, _, rfl⟩
  have hok : ∃ r, s.process e rate0 det = .ok r := by
    unfold BufSt.process
    dsimp only
    split
    · exact ⟨_, rfl⟩
    split
    · exact ⟨_, rfl⟩
    split
    · split <;> exact ⟨_, rfl⟩
    rename_i hnst
    have hhs : s.hasStart = true := by
      by_contra hc
      rw [hi.unset (by simpa using hc)] at hnst
      exact hnst le_top
    split
    · exact ⟨_, rfl⟩
    rename_i chans hb
    have hch := hch chans hb
    have hfit := hfit chans hb
    have hpl : ∃ r, s.play e chans rate0 (rate0 * det) = .ok r := by
      obtain ⟨u, hu⟩ : ∃ u, s.catchUp e = u := ⟨_, rfl⟩
      have hcu : Placed e u ∧ u.looping = s.looping ∧ loopPoints e u chans = loopPoints e s chans := by
        rw [← hu]
        unfold BufSt.catchUp
        split
        · rename_i hc
          refine ⟨⟨hi.whole, hi.fresh, hi.runs, fun x => ?_, fun x => ?_⟩, rfl, rfl⟩
          · have : s.started = true := x
            rw [hc.1] at this; cases this
          · have : s.hasStart = false := x
            rw [hhs] at this; cases this
        · exact ⟨hi, rfl, rfl⟩
      obtain ⟨hcu, hlo, hlp⟩ := hcu
      have hfit' : u.looping = true → LoopFits e u chans rate0 := by
        intro hl
        rw [hlo] at hl
        obtain ⟨f1, f2, f3⟩ := hfit hl
        exact ⟨f1, by rw [hlp]; exact f2, by rw [hlp]; exact f3⟩
      unfold BufSt.play
      dsimp only
      rw [hu]
      split
      · rename_i hal
        obtain ⟨al1, al2⟩ := align_spec hal
        have hbs : e.bufSr = e.sr := by
          rw [div_eq_one_iff_eq hsr.ne'] at al2; exact al2
        have hwh : ∃ p : Nat, u.bufferTime = p / e.sr := by
          by_cases ha : u.aligned = true
          · exact hcu.whole ha
          · by_cases hs : u.started = true
            · rcases al1 with a | a
              · exact absurd a ha
              · have := (hcu.late hs).2
                rw [a.1] at this
                exact absurd this (lt_irrefl _)
            · exact ⟨0, by rw [hcu.fresh (by simpa using hs)]; simp⟩
        obtain ⟨p, hp⟩ := hwh
        obtain ⟨r, hr⟩ := fastTrack_ok hsr hbs hch (fun hl => (hfit' hl).nonempty) hp
        rw [hr]
        exact ⟨_, rfl⟩
      · generalize hv : ({ u with aligned := false } : BufSt K) = v
        have hlv : v.looping = u.looping := by rw [← hv]
        have hpv : loopPoints e v chans = loopPoints e u chans := by rw [← hv]; rfl
        have hfitv : v.looping = true → LoopFits e v chans rate0 := by
          intro hl
          rw [hlv] at hl
          obtain ⟨f1, f2, f3⟩ := hfit' hl
          exact ⟨f1, by rw [hpv]; exact f2, by rw [hpv]; exact f3⟩
        have hst : ∃ r, slowTrack e v chans rate0 (rate0 * det) = .ok r := by
          unfold slowTrack
          obtain ⟨w, infos, hf⟩ := frames_ok (e := e) (q := v.slowEnv e chans (rate0 * det)) (by
            intro hl
            have hl : v.looping = true := hl
            show (loopPoints e v chans).1 < (loopPoints e v chans).2
            have hn := (hfitv hl).nonempty
            unfold loopPoints
            rw [if_pos hl]
            split
            · rename_i h; exact h.2.2
            · exact div_pos (by exact_mod_cast hn) hbs) (v.frame / e.sr) e.count 0 v.slow
          rw [hf]
          dsimp only
          obtain ⟨_, hinfo⟩ := frames_infos hf
          obtain ⟨out, ho⟩ := mapM_some (l := chans)
            (f := fun ch => infos.mapM (slowSample e (v.slowEnv e chans (rate0 * det)) rate0 ch)) (by
            intro ch hc
            obtain ⟨o, ho⟩ := mapM_some (l := infos) (f := slowSample e (v.slowEnv e chans (rate0 * det)) rate0 ch) (by
              intro info hm
              cases info with
              | none => simp [slowSample]
              | some p =>
                obtain ⟨i, k⟩ := p
                obtain ⟨h1, _⟩ := hinfo _ hm i k rfl
                have h1 : i < lengthOf chans := h1
                show (ch[i]?).bind _ ≠ none
                rw [List.getElem?_eq_getElem (by rw [hch ch hc]; exact h1), Option.bind_some, Ne,
                  Option.map_eq_none_iff]
                exact nextSample_ok hsr hbs hfitv (hch ch hc) h1 _ _)
            rw [ho]
            simp)
          rw [ho]
          exact ⟨_, rfl⟩
        obtain ⟨⟨o, r⟩, hr⟩ := hst
        rw [hr]
        exact ⟨_, rfl⟩
    obtain ⟨⟨o, r⟩, hr⟩ := hpl
    rw [hr]
    exact ⟨_, rfl⟩
  obtain ⟨⟨o, r, b⟩, hr⟩ := hok
  rw [hr]
  exact ⟨_, _, rfl⟩

/-- C34: no quantum faults — no index out of bounds, no loop without end — after any history of calls and
quanta, for every rate, detune, offset, duration, start and stop time and pair of sample rates, provided that a
looping source has a non-empty buffer whose loop points fit into the buffer as counted by the code. What is
missing to the full statement is exactly this proviso: see the negated statements. -/
theorem C34_no_fault_partial {e : BufEnv K} (hsr : 0 < e.sr) (hbs : 0 < e.bufSr) (hcount : 0 < e.count)
    {looping : Bool} {ls le : K} {ops : List (BufOp K)} {outs : List (List (List K))} {s : BufSt K}
    (hrun : BufSt.run e (BufSt.new looping ls le) ops = some (.ok (outs, s)))
    (hch : ∀ chans, s.buffer = some chans → ∀ ch ∈ chans, ch.length = lengthOf chans) {rate0 det : K}
    (hfit : ∀ chans, s.buffer = some chans → s.looping = true → LoopFits e s chans rate0) :
    ∃ out s', s.step e (.block rate0 det) = some (.ok (out, s')) := by
  have hi : Placed e s := Placed.run hsr hcount
    ⟨fun x => (by cases x), fun _ => rfl, fun x => (by cases x), fun x => (by cases x), fun _ => rfl⟩ hrun
  exact hi.renders hsr hbs hch hfit

end

/-! ## Concrete cases -/

/-- exact comparison, four frames per quantum at 4 Hz -/
def e4 : BufEnv ℚ := ⟨4, 4, 4, fun a b => decide (a = b), fun a => decide (a = 0)⟩

def outputs (r : Option (Except Fault (List (List (List ℚ)) × BufSt ℚ))) : Option (Except Fault (List (List (List ℚ)))) :=
  r.map fun x => x.map fun y => y.1

/-- C33: six frames looping in quanta of four: the sixth frame is followed by the first. -/
example : outputs (BufSt.run e4 (BufSt.new true 0 0)
      [.buffer [[1, 2, 3, 4, 5, 6]], .start 0 0 ⊤, .block 1 1, .block 1 1, .block 1 1]) =
    some (.ok [[], [], [[1, 2, 3, 4]], [[5, 6, 1, 2]], [[3, 4, 5, 6]]]) := by
  decide +kernel

/-- C33 is false when a duration is given: the duration is ten frames, but the looping source on the fast track
compares the duration with the position in the buffer, which starts again with every loop, and plays whole
quanta: twelve frames are heard. -/
theorem C33_negated_duration : outputs (BufSt.run e4 (BufSt.new true 0 0)
      [.buffer [[1, 2, 3, 4, 5, 6]], .start 0 0 ((10 / 4 : ℚ) : WithTop ℚ), .block 1 1, .block 1 1, .block 1 1]) =
    some (.ok [[], [], [[1, 2, 3, 4]], [[5, 6, 1, 2]], [[3, 4, 5, 6]]]) := by
  decide +kernel

/-- C34: half the rate: every second sample is the mean of two neighbours; after the last frame the slope goes
on. -/
example : outputs (BufSt.run e4 (BufSt.new false 0 0)
      [.buffer [[1, 3, 7]], .start 0 0 ⊤, .block (1 / 2) 1, .block (1 / 2) 1]) =
    some (.ok [[], [], [[1, 2, 3, 5]], [[7, 9, 0, 0]]]) := by
  decide +kernel

/-- The last but one sample of the example leaves the range of the buffer. -/
theorem C34_negated_range : ∃ out s, BufSt.run e4 (BufSt.new false 0 0)
      [.buffer [[1, 3, 7]], .start 0 0 ⊤, .block (1 / 2) 1, .block (1 / 2) 1] = some (.ok (out, s)) ∧
    ∃ b ∈ out, ∃ c ∈ b, ∃ x ∈ c, ∀ y ∈ ([1, 3, 7] : List ℚ), y < x := by
  cases h : BufSt.run e4 (BufSt.new false 0 0)
      [.buffer [[1, 3, 7]], .start 0 0 ⊤, .block (1 / 2) 1, .block (1 / 2) 1] with
  | none =>
    have : outputs (none) = some (.ok [[], [], [[1, 2, 3, 5]], [[7, 9, 0, 0]]]) := by rw [← h]; decide +kernel
    cases this
  | some r =>
    have : outputs (some r) = some (.ok [[], [], [[1, 2, 3, 5]], [[7, 9, 0, 0]]]) := by rw [← h]; decide +kernel
    cases r with
    | error f => cases this
    | ok p =>
      obtain ⟨out, s⟩ := p
      have : out = [[], [], [[1, 2, 3, 5]], [[7, 9, 0, 0]]] := by simpa [outputs, Except.map] using this
      subst this
      exact ⟨_, _, rfl, [[7, 9, 0, 0]], by simp, [7, 9, 0, 0], by simp, 9, by simp, by decide +kernel⟩

/-- C34 is false: playing backwards in a loop with the default loop points reads `buffer[length]`. -/
theorem C34_negated_backward : outputs (BufSt.run e4 (BufSt.new true 0 0)
      [.buffer [[1, 2, 3]], .start 0 0 ⊤, .block (-1 / 2) 1]) = some (.error .panic) := by
  decide +kernel

/-- C34 is false: the buffer has half the rate of the context and loops over its last frame. The loop start is
converted to a frame number with the rate of the context. -/
theorem C34_negated_rate : outputs (BufSt.run { e4 with bufSr := 2 } (BufSt.new true (3 / 2) 2)
      [.buffer [[1, 2, 3, 4]], .start 0 0 ⊤, .block 1 1, .block 1 1]) = some (.error .panic) := by
  decide +kernel

/-- C34 is false: the loop starts within the last frame. -/
theorem C34_negated_last : outputs (BufSt.run e4 (BufSt.new true (5 / 8) (3 / 4))
      [.buffer [[1, 2, 3]], .start 0 0 ⊤, .block (1 / 2) 1, .block (1 / 2) 1]) = some (.error .panic) := by
  decide +kernel

/-- C34 is false: an empty buffer in a loop panics on the fast track. -/
theorem C34_negated_empty : outputs (BufSt.run e4 (BufSt.new true 0 0)
      [.buffer [[]], .start 0 0 ⊤, .block 1 1]) = some (.error .panic) := by
  decide +kernel

/-- C34 is false: an empty buffer in a loop played backwards never returns on the slow track. -/
theorem C34_negated_hang : outputs (BufSt.run e4 (BufSt.new true 0 0)
      [.buffer [[]], .start 0 0 ⊤, .block (-1) 1]) = some (.error .hang) := by
  decide +kernel

/-- The loop over the buffer time as the code computes it: subtraction in `f64`. -/
def wrapDownF (bound step : ℚ) : Nat → ℚ → ℚ
  | 0, t => t
  | n + 1, t => if bound ≤ t then wrapDownF bound step n (Float.rnd 53 (t - step)) else t

/-- C34 is false in `f64`: a buffer of one second, a playback rate of 2^70 at 48 kHz. After the first frame the
position is 2^70/48000, and taking one second off does not change it: the loop never ends. -/
theorem C34_negated_rounding : ∀ n, wrapDownF 1 1 n (Float.rnd 53 (2 ^ 70 / 48000)) = Float.rnd 53 (2 ^ 70 / 48000) ∧
    1 ≤ Float.rnd 53 (2 ^ 70 / 48000) := by
  have h1 : Float.rnd 53 (Float.rnd 53 (2 ^ 70 / 48000) - 1) = Float.rnd 53 (2 ^ 70 / 48000) := by decide +kernel
  have h2 : 1 ≤ Float.rnd 53 (2 ^ 70 / 48000) := by decide +kernel
  intro n
  refine ⟨?_, h2⟩
  induction n with
  | zero => rfl
  | succ n ih => rw [wrapDownF, if_pos h2, h1]; exact ih

/-- C34 meets its proviso: forward over the second half of the buffer at one and a half times the rate. -/
example : outputs (BufSt.run e4 (BufSt.new true (1 / 2) 1)
      [.buffer [[1, 2, 3, 4]], .start 0 0 ⊤, .block (3 / 2) 1, .block (3 / 2) 1]) =
    some (.ok [[], [], [[1, 5 / 2, 4, 7 / 2]], [[3, 7 / 2, 4, 7 / 2]]]) := by
  decide +kernel

end Verif.Source
