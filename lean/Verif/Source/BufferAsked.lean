import Verif.Source.BufferPosition
import Verif.Source.BufferFault

/-!
# C62: what was asked for is what is heard
-/

namespace Verif.Source

open Finset

section
variable {K : Type} [Field K] [LinearOrder K] [FloorRing K] [IsStrictOrderedRing K]

/-! ## Specification -/

/-- The loop asked for with `loopStart = a` and `loopEnd = b`: from `a` (within the buffer) to `b` (or the end of
the buffer if `b` is not within the buffer or not positive); the whole buffer if this is empty. -/
def loopOf (dur a b : K) : K × K :=
  let a' := min (max a 0) dur
  let b' := if b ≤ 0 ∨ dur < b then dur else b
  if a' < b' then (a', b') else (0, dur)

/-- The plan of a source created with loop options, started by a call after `F` frames. -/
def planOf (e : BufEnv K) (chans : List (List K)) (looping : Bool) (a b : K) (F : Nat) (t o : K)
    (d stop : WithTop K) (rate : Nat → K) : Plan K where
  sr := e.sr
  bufSr := e.bufSr
  dur := durationOf e chans
  looping := looping
  loopStart := if looping then (loopOf (durationOf e chans) a b).1 else 0
  loopEnd := if looping then (loopOf (durationOf e chans) a b).2 else 0
  start := max t (F / e.sr)
  stop := stop
  duration := d
  offset := o
  rate := rate

/-! ## Proof -/

omit [IsStrictOrderedRing K] in
theorem clampLoop_idem (e : BufEnv K) {s : BufSt K} {chans : List (List K)} (hb : s.buffer = some chans)
    (hd : 0 ≤ durationOf e chans) : ∀ r : BufSt K, r.buffer = some chans →
      r.loopStart = (s.clampLoop e).loopStart → r.loopEnd = (s.clampLoop e).loopEnd → r.clampLoop e = r := by
  intro r hr h1 h2
  obtain ⟨_, _, _, _, _, bu, _, ls, le, _⟩ := r
  simp only at hr h1 h2
  subst hr
  unfold BufSt.clampLoop at h1 h2 ⊢
  rw [hb] at h1 h2
  simp only at h1 h2 ⊢
  have e1 : (if ls < 0 then 0 else if durationOf e chans < ls then durationOf e chans else ls) = ls := by
    rw [h1]
    by_cases c1 : s.loopStart < 0
    · simp [c1, hd.not_gt]
    · by_cases c2 : durationOf e chans < s.loopStart
      · simp [c1, c2, hd.not_gt]
      · simp [c1, c2]
  have e2 : (if le ≤ 0 ∨ durationOf e chans < le then durationOf e chans else le) = le := by
    rw [h2]
    by_cases c1 : s.loopEnd ≤ 0 ∨ durationOf e chans < s.loopEnd
    · rw [if_pos c1]
      split <;> rfl
    · rw [if_neg c1, if_neg c1]
  rw [e1, e2]

/-- The state after the calls. -/
theorem asked_state {e : BufEnv K} (hbs : 0 < e.bufSr) {chans : List (List K)} {looping : Bool} {a b t o : K} {d : WithTop K}
    {stops : Option K} (F : Nat) {s' : BufSt K} {outs : List (List (List K))}
    (h : BufSt.run e { BufSt.new looping a b with frame := F }
      ([.buffer chans, .start t o d] ++ stops.toList.map .stop) = some (.ok (outs, s'))) :
    outs.length = 2 + stops.toList.length ∧ 0 ≤ t ∧
    s' = { BufSt.clampLoop e { BufSt.new looping a b with buffer := some chans } with
      frame := F, hasStart := true, start := (t : WithTop K), offset := o, duration := d,
      stop := (stops.map fun x : K => (x : WithTop K)).getD ⊤ } := by
  have hd : 0 ≤ durationOf e chans := by unfold durationOf; positivity
  obtain ⟨o1, t1, outs1, h1, h2, rfl⟩ := BufSt.run_inv h
  obtain ⟨o2, t2, outs2, h3, h4, rfl⟩ := BufSt.run_inv h2
  have hidem := clampLoop_idem e (s := { BufSt.new looping a b with buffer := some chans }) rfl hd
  have ht1 : t1 = { BufSt.clampLoop e { BufSt.new looping a b with buffer := some chans } with frame := F } := by
    simp only [BufSt.step, BufSt.new, if_true] at h1
    cases h1
    rfl
  have ht2 : 0 ≤ t ∧ t2 = { BufSt.clampLoop e { BufSt.new looping a b with buffer := some chans } with
      frame := F, hasStart := true, start := (t : WithTop K), offset := o, duration := d } := by
    rw [ht1] at h3
    simp only [BufSt.step] at h3
    split at h3
    · cases h3
    · rename_i hc
      push Not at hc
      injection h3 with h3
      injection h3 with h3
      injection h3 with _ h3
      refine ⟨hc.2.1, ?_⟩
      rw [← h3]
      exact hidem _ rfl rfl rfl
  cases stops with
  | none =>
    cases h4
    exact ⟨rfl, ht2.1, ht2.2⟩
  | some x =>
    obtain ⟨o3, t3, outs3, h5, h6, rfl⟩ := BufSt.run_inv h4
    cases h6
    refine ⟨rfl, ht2.1, ?_⟩
    rw [ht2.2] at h5
    simp only [BufSt.step] at h5
    split at h5
    · cases h5
    · injection h5 with h5
      injection h5 with h5
      injection h5 with _ h5
      rw [← h5]
      exact hidem _ rfl rfl rfl

omit [IsStrictOrderedRing K] in
theorem BufSt.run_split {e : BufEnv K} {bs : List (BufOp K)} {u : BufSt K} (as : List (BufOp K)) :
    ∀ {s : BufSt K} {outs : List (List (List K))}, BufSt.run e s (as ++ bs) = some (.ok (outs, u)) →
    ∃ t o1 o2, BufSt.run e s as = some (.ok (o1, t)) ∧ BufSt.run e t bs = some (.ok (o2, u)) ∧ outs = o1 ++ o2 ∧
      o1.length = as.length := by
  induction as with
  | nil => intro s outs h; exact ⟨s, [], outs, rfl, h, rfl, rfl⟩
  | cons a as ih =>
    intro s outs h
    obtain ⟨out, t, outs', h1, h2, rfl⟩ := BufSt.run_inv h
    obtain ⟨v, o1, o2, g1, g2, g3, g4⟩ := ih h2
    exact ⟨v, out :: o1, o2, BufSt.run_cons h1 g1, g2, by rw [g3]; rfl, by simp [g4]⟩

/-- The state in which the quanta with the buffer begin follows the plan. -/
theorem asked_follows {e : BufEnv K} (hsr : 0 < e.sr) (hbs : 0 < e.bufSr)
    {chans : List (List K)} {looping : Bool} (hlen : looping = true → 0 < lengthOf chans) {a b t o : K}
    {d : WithTop K} {stops : Option K} {rate : Nat → K} {before play : List (K × K)} {p : Plan K}
    (hp : p = planOf e chans looping a b (before.length * e.count) t o d
      ((stops.map fun x : K => (x : WithTop K)).getD ⊤) rate)
    {outs : List (List (List K))} {s' : BufSt K}
    (h : BufSt.run e (BufSt.new looping a b) (blocks before ++
      (([.buffer chans, .start t o d] ++ stops.toList.map .stop) ++ blocks play)) = some (.ok (outs, s'))) :
    ∃ s2 o1 o3 o4, outs = o1 ++ (o3 ++ o4) ∧ o1.length = before.length ∧ o3.length = 2 + stops.toList.length ∧
      BufSt.run e s2 (blocks play) = some (.ok (o4, s')) ∧ s2.frame = before.length * e.count ∧
      Follows e chans p s2 ∧ Agrees e chans p ∧ s2.events = 0 := by
  have hd : 0 ≤ durationOf e chans := by unfold durationOf; positivity
  obtain ⟨s1, o1, o2, r1, r2, rfl, l1⟩ := BufSt.run_split (blocks before) h
  obtain ⟨s2, o3, o4, r3, r4, rfl, l2⟩ := BufSt.run_split _ r2
  have hfresh := fresh_blocks e before (s := BufSt.new looping a b) rfl rfl rfl rfl rfl
  rw [hfresh] at r1
  injection r1 with r1
  injection r1 with r1
  injection r1 with _ r1
  have hz : (BufSt.new looping a b).frame + before.length * e.count = before.length * e.count := by
    simp [BufSt.new]
  rw [hz] at r1
  rw [← r1] at r3
  obtain ⟨l3, ht, hs2⟩ := asked_state hbs (before.length * e.count) r3
  have hfr : s2.frame = before.length * e.count := by rw [hs2]
  have hl : p.looping = looping := by rw [hp]; rfl
  have hps : p.sr = e.sr := by rw [hp]; rfl
  have hpsr : 0 < p.sr := by rw [hps]; exact hsr
  -- the loop points
  have hls : (s2.loopStart = min (max a 0) (durationOf e chans)) ∧
      s2.loopEnd = if b ≤ 0 ∨ durationOf e chans < b then durationOf e chans else b := by
    rw [hs2]
    unfold BufSt.clampLoop
    simp only [BufSt.new]
    refine ⟨?_, rfl⟩
    show (if a < 0 then 0 else if durationOf e chans < a then durationOf e chans else a) = _
    split
    · rename_i c; rw [max_eq_right c.le, min_eq_left hd]
    · rename_i c
      rw [max_eq_left (not_lt.1 c)]
      split
      · rename_i c; rw [min_eq_right c.le]
      · rename_i c; rw [min_eq_left (not_lt.1 c)]
  have hs2l : s2.looping = looping := by rw [hs2]; rfl
  have hpts : loopPoints e s2 chans = (p.loopStart, p.loopEnd) := by
    unfold loopPoints
    rw [hp]
    unfold planOf
    rw [hs2l, hls.1, hls.2]
    cases looping with
    | false => rfl
    | true =>
      simp only [if_true]
      unfold loopOf
      dsimp only
      have h0 : 0 ≤ min (max a 0) (durationOf e chans) := le_min (le_max_right _ _) hd
      by_cases c : min (max a 0) (durationOf e chans) <
          if b ≤ 0 ∨ durationOf e chans < b then durationOf e chans else b
      · rw [if_pos ⟨h0, lt_of_le_of_lt h0 c, c⟩, if_pos c]
      · rw [if_neg (fun g => c g.2.2), if_neg c]
  have hag : Agrees e chans p := by
    refine ⟨hps, by rw [hp]; rfl, by rw [hp]; rfl, fun hlo => ?_⟩
    rw [hl] at hlo
    have hl0 : (0 : K) < lengthOf chans := by exact_mod_cast hlen hlo
    have hd0 : 0 < durationOf e chans := by unfold durationOf; positivity
    rw [hp]
    unfold planOf
    simp only [hlo, if_true]
    unfold loopOf
    dsimp only
    generalize (if b ≤ 0 ∨ durationOf e chans < b then durationOf e chans else b) = b'
    by_cases c : min (max a 0) (durationOf e chans) < b'
    · rw [if_pos c]; exact c
    · rw [if_neg c]; exact hd0
  have hstart : p.start = max t ((before.length * e.count : Nat) / e.sr) := by rw [hp]; rfl
  have hfirst : s2.frame ≤ p.first := by
    rw [hfr]
    by_contra hc
    have := (Plan.first_le hpsr (n := before.length * e.count - 1)).1 (by omega)
    rw [hstart, hps] at this
    have h2 : ((before.length * e.count - 1 : Nat) : K) / e.sr < ((before.length * e.count : Nat) : K) / e.sr := by
      apply div_lt_div_of_pos_right _ hsr
      have : before.length * e.count - 1 < before.length * e.count := by omega
      exact_mod_cast this
    have h3 := le_max_right t (((before.length * e.count : Nat) : K) / e.sr)
    linarith
  have hfol : Follows e chans p s2 := by
    refine ⟨by rw [hs2]; rfl, by rw [hs2, hp]; rfl, by rw [hs2, hp]; rfl, by rw [hs2l, hl], hpts,
      by rw [hs2]; rfl, by rw [hs2]; rfl, ?_, ?_, ?_⟩
    · by_cases hc : t < ((before.length * e.count : Nat) : K) / e.sr
      · right
        rw [hstart, max_eq_right hc.le, hfr]
        refine ⟨by rw [hs2]; rfl, ?_, rfl⟩
        rw [hs2]
        exact WithTop.coe_lt_coe.2 hc
      · left
        rw [hstart, max_eq_left (not_lt.1 hc), hs2]
    · refine ⟨rfl, ?_, fun _ => ?_, fun hc => ?_, fun _ hc => ?_, fun _ hc => ?_⟩
      · unfold Plan.used
        rw [if_pos hfirst, hs2]
        rfl
      · rw [hp, hs2]
        refine ⟨rfl, rfl, rfl, ?_⟩
        show (if looping = true then false else false) = false
        simp
      · exact absurd hfirst (not_le.2 hc)
      · exact absurd hfirst (not_le.2 hc)
      · exact absurd hfirst (not_le.2 hc)
    · intro hc
      rw [hs2] at hc
      cases hc
  exact ⟨s2, o1, o3, o4, rfl, by rw [l1]; simp [blocks], by rw [l2]; simp; omega, r4, hfr, hfol, hag, by rw [hs2]; rfl⟩

/-- C62: a source created with any loop options; after some quanta it gets its buffer and is started at time `t`
with any offset and duration, and possibly told to stop; then `play.length` quanta are rendered in which playback
rate and detune vary from quantum to quantum. Every frame is what the plan says: silent before the start time, from
the stop time on and once the duration is used up; otherwise read at the offset plus the sum of the rates so far
(folded into the loop once the loop is entered), exactly if this is a frame of the buffer, and by linear
interpolation between the neighbours if not. This holds on the fast and the slow track and across changes between
them. Provisos: the start time is not strictly between the last frame of a quantum and the next quantum (see
`C62_negated_start`), a looping source that can take the fast track has no duration (see `C33_negated_duration`),
a source that does not loop does not change its direction (it ends at the end of the quantum in which the position
leaves the buffer), and the tolerant comparisons of the code are exact. -/
theorem C62_position_partial {e : BufEnv K} (he : e.Exact) (hsr : 0 < e.sr) (hbs : 0 < e.bufSr) (hcount : 0 < e.count)
    {chans : List (List K)} (hne : chans ≠ []) (hch : ∀ ch ∈ chans, ch.length = lengthOf chans)
    {looping : Bool} (hlen : looping = true → 0 < lengthOf chans) {a b t o : K} {d : WithTop K} {stops : Option K}
    {rate : Nat → K} {before play : List (K × K)} {p : Plan K}
    (hp : p = planOf e chans looping a b (before.length * e.count) t o d
      ((stops.map fun x : K => (x : WithTop K)).getD ⊤) rate)
    (hrate : ∀ (j : Nat) r, play[j]? = some r → ∀ i, i < e.count →
      rate ((before.length + j) * e.count + i) = r.1 * r.2)
    (hmono : looping = true ∨ (∀ n, 0 ≤ rate n) ∨ ∀ n, rate n ≤ 0)
    (hdur : looping = true → d = ⊤ ∨ o ≠ 0 ∨ e.bufSr ≠ e.sr ∨ ∀ n, rate n ≠ 1)
    (hgrid : ∀ j, p.first = j * e.count → p.start = p.first / e.sr)
    {outs : List (List (List K))} {s' : BufSt K}
    (h : BufSt.run e (BufSt.new looping a b) (blocks before ++
      (([.buffer chans, .start t o d] ++ stops.toList.map .stop) ++ blocks play)) = some (.ok (outs, s'))) :
    ∀ j, j < play.length → ∀ c ch, chans[c]? = some ch → ∀ i, i < e.count →
      p.Reads ch ((before.length + j) * e.count + i)
        (valueAt ((outs[before.length + (2 + stops.toList.length) + j]?).getD []) c i) := by
  obtain ⟨s2, o1, o3, o4, rfl, lb, l2, r4, hfr, hfol, hag, _⟩ := asked_follows hsr hbs hlen hp h
  have hl : p.looping = looping := by rw [hp]; rfl
  have hps : p.sr = e.sr := by rw [hp]; rfl
  have hrt : p.rate = rate := by rw [hp]; rfl
  have key := Follows.run he hsr hbs hcount hne hch (p := p) (by rw [hl]; exact hlen) hag
    (by rw [hl, hrt]; exact hmono) (by
      rw [hl, hrt, hps, hp]
      exact hdur) play (.inl hfol)
    (fun j hj => by
      rw [hfr] at hj
      exact hgrid (before.length + j) (by rw [hj, Nat.add_mul]))
    (fun j r hj i hi => by
      rw [hfr, hrt, ← Nat.add_mul]
      exact hrate j r hj i hi) r4
  intro j hj c ch hc i hi
  have := key j hj c ch hc i hi
  rw [hfr, ← Nat.add_mul] at this
  have hidx : (o1 ++ (o3 ++ o4))[before.length + (2 + stops.toList.length) + j]? = o4[j]? := by
    rw [List.getElem?_append_right (by omega), List.getElem?_append_right (by omega)]
    congr 1
    omega
  rw [hidx]
  exact this

end

/-! ## Concrete cases -/

/-- The proviso of exact comparisons holds of the environment of the examples. -/
theorem e4_exact : e4.Exact := ⟨fun a b h => by simpa [e4] using h, fun a h => by simpa [e4] using h⟩

/-- Started half a frame before the second frame, at the natural rate and then at half of it; stopped at frame 6:
half way between the frames, and on from there. -/
example : outputs (BufSt.run e4 (BufSt.new false 0 0)
      [.buffer [[1, 2, 3, 4, 9, 9]], .start (1 / 8) 0 ⊤, .stop (6 / 4), .block 1 1, .block (1 / 2) 1]) =
    some (.ok [[], [], [], [[0, 3 / 2, 5 / 2, 7 / 2]], [[13 / 2, 9, 0, 0]]]) := by
  decide +kernel

/-- A duration of three frames. -/
example : outputs (BufSt.run e4 (BufSt.new false 0 0)
      [.buffer [[1, 2, 3, 4, 5, 6]], .start 0 (1 / 4) ((3 / 4 : ℚ) : WithTop ℚ), .block 1 1]) =
    some (.ok [[], [], [[2, 3, 4, 0]]]) := by
  decide +kernel

/-- The plan of `C62_negated_start`. -/
def latePlan : Plan ℚ := planOf e4 [[1, 2, 3, 4, 5, 6, 7, 8]] false 0 0 0 (7 / 8) 0 ⊤ ⊤ (fun _ => 1)

/-- C62 is false for a start time strictly between the last frame of a quantum and the next quantum: the first
frame after the start time is the first one of the second quantum, half a frame late. The position should be half
a frame, giving 3/2 (as in the example above), but the start time is moved to the quantum and 1 is heard. -/
theorem C62_negated_start :
    outputs (BufSt.run e4 (BufSt.new false 0 0)
      [.buffer [[1, 2, 3, 4, 5, 6, 7, 8]], .start (7 / 8) 0 ⊤, .block 1 1, .block 1 1]) =
      some (.ok [[], [], [[0, 0, 0, 0]], [[1, 2, 3, 4]]]) ∧
    latePlan.Sounds 4 ∧ latePlan.place 4 * 4 = 1 / 2 ∧ ¬ latePlan.Reads [1, 2, 3, 4, 5, 6, 7, 8] 4 1 := by
  have hf : latePlan.first = 4 := by
    unfold Plan.first latePlan planOf e4
    norm_num
    rw [Nat.ceil_eq_iff (by norm_num)]
    norm_num
  have ho : latePlan.origin = 1 / 8 := by
    unfold Plan.origin Plan.lead
    rw [hf]
    simp only [latePlan, planOf, e4, durationOf, lengthOf]
    norm_num
  have hs : latePlan.Sounds 4 := by
    refine ⟨hf.le, WithTop.coe_lt_top _, WithTop.coe_lt_top _⟩
  have hpl : latePlan.place 4 = 1 / 8 := by
    unfold Plan.place
    rw [if_neg (by simp [latePlan, planOf]), Plan.pos, hf, ho]
    simp
  refine ⟨by decide +kernel, hs, by rw [hpl]; norm_num, fun h => ?_⟩
  have := h.between hs 0 1 2 (1 / 2) rfl rfl (by norm_num) (by norm_num) (by
    rw [hpl]
    simp only [latePlan, planOf, e4]
    norm_num)
  norm_num at this

end Verif.Source
