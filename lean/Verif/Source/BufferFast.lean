import Verif.Source.BufferModel
import Mathlib.Algebra.Order.Archimedean.Basic
import Mathlib.Data.Rat.Floor
import Mathlib.Tactic.Linarith
import Mathlib.Tactic.FieldSimp
import Mathlib.Tactic.Positivity
import Mathlib.Tactic.Ring
import Mathlib.Tactic.NormNum

/-!
# C33: playing a buffer at its natural rate
-/

namespace Verif.Source

section
variable {K : Type} [Field K] [LinearOrder K] [FloorRing K]

/-! ## Specification -/

/-- Frame `n` of a channel, played once or repeated. -/
def sampleAt (looping : Bool) (ch : List K) (n : Nat) : K :=
  if looping then (ch[n % ch.length]?).getD 0 else (ch[n]?).getD 0

/-- Channel `c`, frame `i` of an output (`[]` is silence). -/
def valueAt (out : List (List K)) (c i : Nat) : K := (((out[c]?).getD [])[i]?).getD 0

/-! ## The loop over the frames -/

omit [LinearOrder K] [FloorRing K] in
theorem fastLoop_looping (ch : List K) (hlen : 0 < ch.length) (n index si off : Nat) (lp : Option Nat)
    (hoff : off ≤ si + index) (hpos : si + index - off ≤ ch.length) :
    ∃ out lp', fastLoop ch ch.length true n index si off lp = some (out, lp') ∧ out.length = n ∧
      (∀ j, j < n → out[j]? = ch[(si + index - off + j) % ch.length]?) ∧
      (si + index - off + n ≤ ch.length → lp' = lp) ∧
      (ch.length < si + index - off + n → ∃ p, lp' = some p ∧ index ≤ p ∧ p < index + n ∧
        (index + n - p) % ch.length = (si + index - off + n) % ch.length) := by
  induction n generalizing index si off lp with
  | zero =>
    refine ⟨[], lp, rfl, rfl, ?_, fun _ => rfl, fun h => ?_⟩
    · intro j hj; omega
    · omega
  | succ n ih =>
    rw [fastLoop]
    by_cases hb : si + index - off < ch.length
    · obtain ⟨out, lp', h1, h2, h3, h4, h5⟩ := ih (index + 1) si off lp (by omega) (by omega)
      rw [if_pos hb, h1, List.getElem?_eq_getElem hb]
      refine ⟨_, _, rfl, by simp [h2], ?_, ?_, ?_⟩
      · intro j hj
        cases j with
        | zero => simp [Nat.mod_eq_of_lt hb, List.getElem?_eq_getElem hb]
        | succ j =>
          rw [List.getElem?_cons_succ, h3 j (by omega)]
          congr 2
          clear h5
          omega
      · intro h; exact h4 (by clear h5; omega)
      · intro h
        obtain ⟨p, q1, q2, q3, q4⟩ := h5 (by clear h5; omega)
        clear h5
        refine ⟨p, q1, by omega, by omega, ?_⟩
        have e1 : index + 1 + n - p = index + (n + 1) - p := by omega
        have e2 : si + (index + 1) - off + n = si + index - off + (n + 1) := by omega
        rw [e1, e2] at q4
        exact q4
    · have hb' : si + index - off = ch.length := by omega
      obtain ⟨out, lp', h1, h2, h3, h4, h5⟩ := ih (index + 1) 0 index (some index) (by omega) (by omega)
      rw [if_neg hb, if_pos rfl, h1, List.getElem?_eq_getElem hlen]
      refine ⟨_, _, rfl, by simp [h2], ?_, ?_, ?_⟩
      · intro j hj
        cases j with
        | zero => simp [hb', List.getElem?_eq_getElem hlen]
        | succ j =>
          rw [List.getElem?_cons_succ, h3 j (by omega)]
          congr 1
          rw [hb']
          have e : 0 + (index + 1) - index + j = 1 + j := by omega
          rw [e, Nat.add_comm j 1]
          simp
      · intro h; omega
      · intro _
        have e1 : 0 + (index + 1) - index = 1 := by omega
        rw [e1] at h4 h5
        rw [hb']
        by_cases hc : 1 + n ≤ ch.length
        · refine ⟨index, h4 hc, le_refl _, by omega, ?_⟩
          have : index + (n + 1) - index = n + 1 := by omega
          rw [this]
          simp
        · obtain ⟨p, q1, q2, q3, q4⟩ := h5 (by clear h5; omega)
          clear h5
          refine ⟨p, q1, by omega, by omega, ?_⟩
          have e3 : index + 1 + n - p = index + (n + 1) - p := by omega
          rw [e3] at q4
          rw [q4, Nat.add_comm n 1]
          simp

omit [LinearOrder K] [FloorRing K] in
theorem fastLoop_once (ch : List K) (n index si : Nat) (lp : Option Nat) :
    ∃ out, fastLoop ch ch.length false n index si 0 lp = some (out, lp) ∧ out.length = n ∧
      (∀ j, j < n → out[j]? = some ((ch[si + index + j]?).getD 0)) := by
  induction n generalizing index with
  | zero => exact ⟨[], rfl, rfl, fun j hj => by omega⟩
  | succ n ih =>
    rw [fastLoop]
    obtain ⟨out, h1, h2, h3⟩ := ih (index + 1)
    rw [h1, Nat.sub_zero]
    by_cases hb : si + index < ch.length
    · rw [if_pos hb, List.getElem?_eq_getElem hb]
      refine ⟨_, rfl, by simp [h2], ?_⟩
      intro j hj
      cases j with
      | zero => simp [List.getElem?_eq_getElem hb]
      | succ j =>
        rw [List.getElem?_cons_succ, h3 j (by omega)]
        congr 3
        omega
    · rw [if_neg hb, if_neg (by simp)]
      refine ⟨_, rfl, by simp [h2], ?_⟩
      intro j hj
      cases j with
      | zero =>
        have : ch[si + index + 0]? = none := List.getElem?_eq_none (by omega)
        rw [this]; rfl
      | succ j =>
        rw [List.getElem?_cons_succ, h3 j (by omega)]
        congr 3
        omega

omit [LinearOrder K] [FloorRing K] in
theorem fastChannels_looping {len : Nat} (hlen : 0 < len) (n si : Nat) (hsi : si ≤ len)
    (chans : List (List K)) (hch : ∀ ch ∈ chans, ch.length = len) (lp : Option Nat) :
    ∃ outs lp', fastChannels len true n si chans lp = some (outs, lp') ∧ outs.length = chans.length ∧
      (∀ c, c < chans.length → ∀ j, j < n → valueAt outs c j = sampleAt true ((chans[c]?).getD []) (si + j)) ∧
      (si + n ≤ len → lp' = lp) ∧
      (len < si + n → chans ≠ [] → ∃ p, lp' = some p ∧ p < n ∧ (n - p) % len = (si + n) % len) := by
  induction chans generalizing lp with
  | nil => exact ⟨[], lp, rfl, rfl, fun c hc => by simp at hc, fun _ => rfl, fun _ h => absurd rfl h⟩
  | cons ch chans ih =>
    have hc : ch.length = len := hch ch (by simp)
    obtain ⟨out, lp1, h1, h2, h3, h4, h5⟩ :=
      fastLoop_looping ch (by omega) n 0 si 0 lp (by omega) (by omega)
    rw [hc] at h1 h3 h4 h5
    obtain ⟨outs, lp2, i1, i2, i3, i4, i5⟩ := ih (fun c h => hch c (by simp [h])) lp1
    rw [fastChannels, h1, Option.bind_some, i1]
    refine ⟨_, _, rfl, by simp [i2], ?_, ?_, ?_⟩
    · intro c hcl j hj
      cases c with
      | zero =>
        simp only [valueAt, sampleAt, List.getElem?_cons_zero, Option.getD_some, if_true]
        rw [h3 j hj, hc]
        congr 2
      | succ c =>
        have := i3 c (by simpa using hcl) j hj
        simpa [valueAt] using this
    · intro h
      rw [i4 h]
      exact h4 (by omega)
    · intro h _
      cases chans with
      | nil =>
        simp only [fastChannels, Option.some.injEq, Prod.mk.injEq] at i1
        obtain ⟨p, q1, q2, q3, q4⟩ := h5 (by omega)
        refine ⟨p, by rw [← i1.2, q1], by omega, ?_⟩
        simpa using q4
      | cons c cs => exact i5 h (by simp)

omit [LinearOrder K] [FloorRing K] in
theorem fastChannels_once {len : Nat} (n si : Nat)
    (chans : List (List K)) (hch : ∀ ch ∈ chans, ch.length = len) (lp : Option Nat) :
    ∃ outs, fastChannels len false n si chans lp = some (outs, lp) ∧ outs.length = chans.length ∧
      (∀ c, c < chans.length → ∀ j, j < n →
        valueAt outs c j = sampleAt false ((chans[c]?).getD []) (si + j)) := by
  induction chans generalizing lp with
  | nil => exact ⟨[], rfl, rfl, fun c hc => by simp at hc⟩
  | cons ch chans ih =>
    have hc : ch.length = len := hch ch (by simp)
    obtain ⟨out, h1, h2, h3⟩ := fastLoop_once ch n 0 si lp
    rw [hc] at h1
    obtain ⟨outs, i1, i2, i3⟩ := ih (fun c h => hch c (by simp [h])) lp
    rw [fastChannels, h1, Option.bind_some, i1]
    refine ⟨_, rfl, by simp [i2], ?_⟩
    intro c hcl j hj
    cases c with
    | zero =>
      simp only [valueAt, sampleAt, List.getElem?_cons_zero, Option.getD_some, Bool.false_eq_true, if_false]
      rw [h3 j hj]
      simp
    | succ c =>
      have := i3 c (by simpa using hcl) j hj
      simpa [valueAt] using this

omit [LinearOrder K] [FloorRing K] in
theorem mapM_slice {len n si : Nat} (h : si + n ≤ len) (chans : List (List K))
    (hch : ∀ ch ∈ chans, ch.length = len) (looping : Bool) :
    ∃ outs, (chans.mapM fun ch => slice ch si n) = some outs ∧ outs.length = chans.length ∧
      (∀ c, c < chans.length → ∀ j, j < n →
        valueAt outs c j = sampleAt looping ((chans[c]?).getD []) (si + j)) := by
  induction chans with
  | nil => exact ⟨[], rfl, rfl, fun c hc => by simp at hc⟩
  | cons ch chans ih =>
    have hc : ch.length = len := hch ch (by simp)
    obtain ⟨outs, i1, i2, i3⟩ := ih (fun c h => hch c (by simp [h]))
    have hs : slice ch si n = some ((ch.drop si).take n) := by
      unfold slice; rw [if_pos (by omega)]
    refine ⟨(ch.drop si).take n :: outs, ?_, by simp [i2], ?_⟩
    · rw [List.mapM_cons, hs, i1]; rfl
    · intro c hcl j hj
      cases c with
      | zero =>
        have hm : (si + j) % ch.length = si + j := Nat.mod_eq_of_lt (by omega)
        simp only [valueAt, sampleAt, List.getElem?_cons_zero, Option.getD_some, hm, ite_self]
        rw [List.getElem?_take_of_lt hj, List.getElem?_drop]
      | succ c =>
        have := i3 c (by simpa using hcl) j hj
        simpa [valueAt] using this

omit [LinearOrder K] [FloorRing K] in
theorem sampleAt_mod {looping : Bool} {ch : List K} {a b j : Nat} (hl : looping = true)
    (h : a % ch.length = b % ch.length) : sampleAt looping ch (a + j) = sampleAt looping ch (b + j) := by
  subst hl
  simp only [sampleAt, if_true]
  rw [Nat.add_mod, h, ← Nat.add_mod]

variable [IsStrictOrderedRing K]

/-! ## The invariant while playing -/

/-- `P` frames of the buffer have been played at the natural rate. -/
structure Live (e : BufEnv K) (chans : List (List K)) (s : BufSt K) (P : Nat) : Prop where
  buffer : s.buffer = some chans
  start : s.start ≤ ((s.frame / e.sr : K) : WithTop K)
  stop : s.stop = ⊤
  duration : s.duration = ⊤
  offset : s.offset = 0
  loopStart : s.loopStart = 0
  loopEnd : s.loopEnd = durationOf e chans
  ended : s.ended = false
  events : s.events = 0
  alive : s.alive = true
  aligned : s.aligned = true ∨ s.started = false
  time : ∃ p : Nat, s.bufferTime = p / e.sr ∧
    (if s.looping then p ≤ lengthOf chans ∧ p % lengthOf chans = P % lengthOf chans
      else p = P ∧ (P < lengthOf chans ∨ P = 0))

/-- The fast track from position `p`. -/
theorem fastTrack_spec {e : BufEnv K} (hsr : 0 < e.sr) (hb : e.bufSr = e.sr) {s : BufSt K}
    {chans : List (List K)} (hne : chans ≠ [])
    (hch : ∀ ch ∈ chans, ch.length = lengthOf chans) (hl : s.looping = true → 0 < lengthOf chans) {p P : Nat}
    (ht : s.bufferTime = p / e.sr)
    (hp : if s.looping then p ≤ lengthOf chans ∧ p % lengthOf chans = P % lengthOf chans
      else p = P ∧ (P < lengthOf chans ∨ P = 0)) :
    ∃ outs t, fastTrack e s chans = .ok (outs, t) ∧ outs.length = chans.length ∧
      (∀ c, c < chans.length → ∀ j, j < e.count →
        valueAt outs c j = sampleAt s.looping ((chans[c]?).getD []) (P + j)) ∧
      ∃ p' : Nat, t = p' / e.sr ∧
        (if s.looping then p' ≤ lengthOf chans ∧ p' % lengthOf chans = (P + e.count) % lengthOf chans
          else p' = P + e.count) := by
  have hsi : ⌊s.bufferTime * e.sr + 1 / 2⌋.toNat = p := by
    have : s.bufferTime * e.sr + 1 / 2 = p + 1 / 2 := by
      rw [ht]; field_simp
    rw [this]
    have : ⌊(p : K) + 1 / 2⌋ = (p : ℤ) := by
      rw [Int.floor_eq_iff]
      constructor
      · push_cast; linarith
      · push_cast; linarith
    rw [this]; simp
  have hcond : durationOf e chans < s.bufferTime + 1 / e.sr * e.count ↔ lengthOf chans < p + e.count := by
    rw [ht, durationOf, hb]
    have : (p : K) / e.sr + 1 / e.sr * e.count = ((p + e.count : Nat) : K) / e.sr := by
      push_cast; field_simp
    rw [this, div_lt_div_iff_of_pos_right hsr]
    exact_mod_cast Iff.rfl
  have hadd : s.bufferTime + 1 / e.sr * e.count = ((p + e.count : Nat) : K) / e.sr := by
    rw [ht]; push_cast; field_simp
  unfold fastTrack
  dsimp only
  rw [hsi]
  have hget : ∀ c, c < chans.length → ((chans[c]?).getD []).length = lengthOf chans := by
    intro c hc
    rw [List.getElem?_eq_getElem hc]
    exact hch _ (List.getElem_mem hc)
  by_cases hc : lengthOf chans < p + e.count
  · rw [if_pos (hcond.2 hc)]
    cases hlo : s.looping with
    | true =>
      rw [hlo] at hp
      simp only [if_true] at hp
      obtain ⟨outs, lp', h1, h2, h3, h4, h5⟩ :=
        fastChannels_looping (hl hlo) e.count p hp.1 chans hch none
      obtain ⟨q, q1, q2, q3⟩ := h5 hc hne
      subst q1
      rw [h1]
      refine ⟨outs, _, rfl, h2, ?_, (e.count - q) % lengthOf chans, ?_, ?_⟩
      · intro c hcl j hj
        rw [h3 c hcl j hj]
        apply sampleAt_mod rfl
        rw [hget c hcl]
        exact hp.2
      · -- the remainder
        have hL : (0 : K) < lengthOf chans := by exact_mod_cast hl hlo
        rw [durationOf, hb]
        have e1 : ((e.count - q : Nat) : K) / e.sr / (lengthOf chans / e.sr) =
            ((e.count - q : Nat) : K) / (lengthOf chans : K) := by field_simp
        rw [e1]
        have e2 : ⌊((e.count - q : Nat) : K) / (lengthOf chans : K)⌋ = ((e.count - q) / lengthOf chans : Nat) := by
          rw [Int.floor_eq_iff]
          have hm := Nat.mod_add_div (e.count - q) (lengthOf chans)
          have hm' : ((e.count - q : Nat) : K) =
              ((e.count - q) % lengthOf chans : Nat) +
                (lengthOf chans : K) * ((e.count - q) / lengthOf chans : Nat) := by
            exact_mod_cast hm.symm
          have hlt : (((e.count - q) % lengthOf chans : Nat) : K) < lengthOf chans := by
            exact_mod_cast Nat.mod_lt _ (hl hlo)
          have hge : (0 : K) ≤ (((e.count - q) % lengthOf chans : Nat) : K) := Nat.cast_nonneg _
          rw [Int.cast_natCast, le_div_iff₀ hL, div_lt_iff₀ hL, hm']
          constructor <;> nlinarith
        rw [e2]
        have e3 := Nat.mod_add_div (e.count - q) (lengthOf chans)
        have e4 : ((e.count - q : Nat) : K) =
            ((e.count - q) % lengthOf chans : Nat) + (lengthOf chans : K) * ((e.count - q) / lengthOf chans : Nat) := by
          exact_mod_cast e3.symm
        rw [e4, Int.cast_natCast]
        field_simp
        ring
      · simp only [if_true]
        refine ⟨(Nat.mod_lt _ (hl hlo)).le, ?_⟩
        rw [Nat.mod_mod, q3, Nat.add_mod, hp.2, ← Nat.add_mod]
    | false =>
      rw [hlo] at hp
      simp only [Bool.false_eq_true, if_false] at hp
      obtain ⟨outs, h1, h2, h3⟩ := fastChannels_once e.count p chans hch none
      rw [h1]
      refine ⟨outs, _, rfl, h2, ?_, p + e.count, hadd, ?_⟩
      · intro c hcl j hj
        rw [h3 c hcl j hj, hp.1]
      · simp [hp.1]
  · rw [if_neg (fun h => hc (hcond.1 h))]
    obtain ⟨outs, h1, h2, h3⟩ := mapM_slice (si := p) (n := e.count) (by omega) chans hch s.looping
    rw [h1]
    refine ⟨outs, _, rfl, h2, ?_, p + e.count, hadd, ?_⟩
    · intro c hcl j hj
      rw [h3 c hcl j hj]
      cases hlo : s.looping with
      | true =>
        rw [hlo] at hp
        simp only [if_true] at hp
        apply sampleAt_mod rfl
        rw [hget c hcl]
        exact hp.2
      | false =>
        rw [hlo] at hp
        simp only [Bool.false_eq_true, if_false] at hp
        rw [hp.1]
    · cases hlo : s.looping with
      | true =>
        rw [hlo] at hp
        simp only [if_true] at hp ⊢
        refine ⟨by omega, ?_⟩
        rw [Nat.add_mod, hp.2, ← Nat.add_mod]
      | false =>
        rw [hlo] at hp
        simp only [Bool.false_eq_true, if_false] at hp ⊢
        rw [hp.1]

/-- One quantum while playing: the next frames, and the invariant, or the end of the buffer. -/
theorem Live.block {e : BufEnv K} (hsr : 0 < e.sr) (hb : e.bufSr = e.sr) (hcount : 0 < e.count)
    {s : BufSt K} {chans : List (List K)} (hne : chans ≠ [])
    (hch : ∀ ch ∈ chans, ch.length = lengthOf chans) (hl : s.looping = true → 0 < lengthOf chans) {P : Nat}
    (h : Live e chans s P) {rate det : K} (hr : rate * det = 1) :
    ∃ outs s', s.step e (.block rate det) = some (.ok (outs, s')) ∧ outs.length = chans.length ∧
      (∀ c, c < chans.length → ∀ j, j < e.count →
        valueAt outs c j = sampleAt s.looping ((chans[c]?).getD []) (P + j)) ∧
      s'.frame = s.frame + e.count ∧ s'.looping = s.looping ∧ s'.alive = true ∧
      (if s.looping = false ∧ lengthOf chans ≤ P + e.count then s'.ended = true ∧ s'.events = 1
        else Live e chans s' (P + e.count)) := by
  obtain ⟨p, ht, hp⟩ := h.time
  have hbd : 0 < 1 / e.sr * (e.count : K) := by
    have : (0 : K) < e.count := by exact_mod_cast hcount
    positivity
  have hnext : ¬ (((s.frame / e.sr + 1 / e.sr * e.count : K) : WithTop K) ≤ s.start) := by
    rw [not_le]
    refine lt_of_le_of_lt h.start (WithTop.coe_lt_coe.2 ?_)
    linarith
  -- the start time after the correction for times in the past
  obtain ⟨st, hst, hstle⟩ : ∃ st : WithTop K, s.catchUp e = { s with start := st } ∧
      (st ≤ ((s.frame / e.sr : K) : WithTop K) ∧ (s.started = false → st = ((s.frame / e.sr : K) : WithTop K))) := by
    unfold BufSt.catchUp
    by_cases hc : s.started = false ∧ s.start < ((s.frame / e.sr : K) : WithTop K)
    · rw [if_pos hc]
      exact ⟨_, rfl, le_refl _, fun _ => rfl⟩
    · rw [if_neg hc]
      refine ⟨s.start, rfl, h.start, fun hs => ?_⟩
      have := h.start
      push Not at hc
      exact le_antisymm this (hc hs)
  have halign : BufSt.align e { s with start := st } (durationOf e chans) (rate * det) = true := by
    unfold BufSt.align
    dsimp only
    rw [h.offset, h.loopStart, h.loopEnd, h.duration, h.stop, hr, hb, div_self hsr.ne']
    simp only [ne_eq, not_true_eq_false, decide_false, Bool.or_self, Bool.not_false, Bool.and_true,
      not_top_lt, decide_true, Bool.or_eq_true, decide_eq_true_eq]
    rcases h.aligned with ha | ha
    · exact .inl ha
    · exact .inr (hstle.2 ha)
  obtain ⟨outs, t, f1, f2, f3, p', f4, f5⟩ := fastTrack_spec (P := P) hsr hb
    (s := { s with start := st }) hne hch hl ht hp
  have hplay : s.play e chans rate (rate * det) = .ok (outs,
      (({ s with start := st, aligned := true } : BufSt K).advance e t).close e (durationOf e chans) (rate * det)) := by
    unfold BufSt.play
    dsimp only
    rw [hst, if_pos halign, f1]
  obtain ⟨r, hr0⟩ : ∃ r, r = (({ s with start := st, aligned := true } : BufSt K).advance e t) := ⟨_, rfl⟩
  rw [← hr0] at hplay
  have hstep : s.step e (.block rate det) =
      some (.ok (outs, { r.close e (durationOf e chans) (rate * det) with frame := s.frame + e.count })) := by
    unfold BufSt.step BufSt.process
    simp only [h.alive, if_true, h.ended, Bool.false_eq_true, if_false, hnext]
    rw [if_neg (fun hh => by rw [h.buffer] at hh; cases hh.1), h.buffer]
    simp only [hplay]
  refine ⟨outs, _, hstep, f2, f3, ?_⟩
  have rb : r.buffer = some chans := by rw [hr0]; exact h.buffer
  have rstart : r.start = st := by rw [hr0]; rfl
  have rstop : r.stop = ⊤ := by rw [hr0]; exact h.stop
  have rdur : r.duration = ⊤ := by rw [hr0]; exact h.duration
  have roff : r.offset = 0 := by rw [hr0]; exact h.offset
  have rls : r.loopStart = 0 := by rw [hr0]; exact h.loopStart
  have rle : r.loopEnd = durationOf e chans := by rw [hr0]; exact h.loopEnd
  have rend : r.ended = false := by rw [hr0]; exact h.ended
  have rev : r.events = 0 := by rw [hr0]; exact h.events
  have ral : r.alive = true := by rw [hr0]; exact h.alive
  have ralg : r.aligned = true := by rw [hr0]; rfl
  have rt : r.bufferTime = t := by rw [hr0]; rfl
  have rl : r.looping = s.looping := by rw [hr0]; rfl
  have hle : st ≤ (((s.frame + e.count : Nat) / e.sr : K) : WithTop K) := by
    refine le_trans hstle.1 (WithTop.coe_le_coe.2 ?_)
    push_cast
    apply div_le_div_of_nonneg_right _ hsr.le
    linarith [(Nat.cast_nonneg e.count : (0 : K) ≤ e.count)]
  have hlive : (if s.looping then p' ≤ lengthOf chans ∧ p' % lengthOf chans = (P + e.count) % lengthOf chans
      else p' = P + e.count ∧ (P + e.count < lengthOf chans ∨ P + e.count = 0)) →
      Live e chans { r with frame := s.frame + e.count } (P + e.count) := fun htime => {
    buffer := rb, start := by rw [rstart]; exact hle
    stop := rstop, duration := rdur, offset := roff, loopStart := rls, loopEnd := rle, ended := rend
    events := rev, alive := ral, aligned := .inl ralg
    time := ⟨p', by rw [rt]; exact f4, by rw [rl]; exact htime⟩ }
  unfold BufSt.close
  cases hlo : s.looping with
  | true =>
    simp only [hlo, if_true] at f5 hlive
    have hfin : r.finished e (durationOf e chans) (rate * det) = false := by
      simp [BufSt.finished, rl, hlo, rstop, rdur]
    rw [hfin]
    simp only [Bool.false_eq_true, if_false, Bool.true_eq_false, false_and]
    exact ⟨trivial, by rw [rl, hlo], ral, hlive f5⟩
  | false =>
    simp only [hlo, Bool.false_eq_true, if_false] at f5 hlive
    have hfin : r.finished e (durationOf e chans) (rate * det) = true ↔ lengthOf chans ≤ P + e.count := by
      simp only [BufSt.finished, rl, hlo, rstop, rdur, rt, hr, f4, f5, durationOf, hb]
      simp only [top_le_iff, WithTop.coe_ne_top, decide_false, Bool.or_self, Bool.not_false, zero_lt_one,
        decide_true, Bool.true_and, Bool.false_or, Bool.or_eq_true, Bool.and_eq_true, decide_eq_true_eq]
      rw [div_le_div_iff_of_pos_right hsr]
      have : ¬ ((1 : K) < 0) := by simp
      simp only [this, false_and, or_false]
      exact_mod_cast Iff.rfl
    by_cases hc : lengthOf chans ≤ P + e.count
    · rw [if_pos (hfin.2 hc), if_pos ⟨rfl, hc⟩]
      exact ⟨rfl, by rw [← hlo, ← rl]; rfl, ral, rfl, by simp [BufSt.sendEnded, rev]⟩
    · rw [if_neg (fun hh => hc (hfin.1 hh)), if_neg (fun hh => hc hh.2)]
      exact ⟨rfl, by rw [← hlo, ← rl], ral, hlive ⟨f5, .inl (by omega)⟩⟩

end

end Verif.Source
