import Verif.Source.ConstModel
import Verif.Source.OscModel
import Verif.Source.BufferModel
import Mathlib.Algebra.Order.Ring.Defs
import Mathlib.Data.Nat.Cast.Order.Ring
import Mathlib.Tactic.Ring
import Mathlib.Tactic.Linarith

/-!
# Sources at another time

A source that is started and stopped a while later does the same, that much later.
-/

namespace Verif.Source

section
variable {K V : Type} [Field K] [LinearOrder K] [IsStrictOrderedRing K] [FloorRing K] [Zero V]

/-- a time that may be `⊤` (`f64::MAX`, never), `s` later -/
def upTo (s : K) (x : WithTop K) : WithTop K := x.map (· + s)

omit [LinearOrder K] [IsStrictOrderedRing K] [FloorRing K] in
theorem upTo_coe (s a : K) : upTo s (a : WithTop K) = ((a + s : K) : WithTop K) := rfl

omit [LinearOrder K] [IsStrictOrderedRing K] [FloorRing K] in
theorem upTo_top (s : K) : upTo s (⊤ : WithTop K) = ⊤ := rfl

omit [FloorRing K] in
theorem le_upTo (s a : K) (x : WithTop K) : ((a + s : K) : WithTop K) ≤ upTo s x ↔ (a : WithTop K) ≤ x := by
  cases x with
  | top => simp [upTo_top]
  | coe x => rw [upTo_coe, WithTop.coe_le_coe, WithTop.coe_le_coe]; exact add_le_add_iff_right s

omit [FloorRing K] in
theorem lt_upTo (s a : K) (x : WithTop K) : ((a + s : K) : WithTop K) < upTo s x ↔ (a : WithTop K) < x := by
  cases x with
  | top => simp [upTo_top]
  | coe x => rw [upTo_coe, WithTop.coe_lt_coe, WithTop.coe_lt_coe]; exact add_lt_add_iff_right s

omit [FloorRing K] in
theorem upTo_le (s a : K) (x : WithTop K) : upTo s x ≤ ((a + s : K) : WithTop K) ↔ x ≤ (a : WithTop K) := by
  rw [← not_lt, lt_upTo, not_lt]

omit [FloorRing K] in
theorem upTo_lt (s a : K) (x : WithTop K) : upTo s x < ((a + s : K) : WithTop K) ↔ x < (a : WithTop K) := by
  rw [← not_le, le_upTo, not_le]

omit [FloorRing K] in
theorem upTo_eq (s a : K) (x : WithTop K) : upTo s x = ((a + s : K) : WithTop K) ↔ x = (a : WithTop K) := by
  rw [le_antisymm_iff, le_antisymm_iff, upTo_le, le_upTo]

omit [LinearOrder K] [IsStrictOrderedRing K] [FloorRing K] in
theorem upTo_eq_top (s : K) (x : WithTop K) : upTo s x = ⊤ ↔ x = ⊤ := by
  cases x with
  | top => simp [upTo_top]
  | coe x => simp [upTo_coe]

/-! ## Constant source -/

/-- started and stopped `s` later, at frame `f` -/
def Const.later (s : K) (f : Nat) (c : Const K) : Const K :=
  { c with start := upTo s c.start, stop := upTo s c.stop, frame := f }

omit [FloorRing K] in
theorem Const.later_process (dt : K) (count f m : Nat) (c : Const K) (off : List V) :
    (c.later (m * dt) (f + m)).process dt count off =
      ((({ c with frame := f } : Const K).process dt count off).1,
        (({ c with frame := f } : Const K).process dt count off).2.1.later (m * dt) (f + m),
        (({ c with frame := f } : Const K).process dt count off).2.2) := by
  have e1 : ((f + m : Nat) : K) * dt = f * dt + m * dt := by push_cast; ring
  have e2 : (f * dt + m * dt + dt * count : K) = (f * dt + dt * count) + m * dt := by ring
  have e3 : ∀ i : Nat, (f * dt + m * dt + i * dt : K) = (f * dt + i * dt) + m * dt := fun i => by ring
  unfold Const.process Const.later
  simp only [e1, e2, e3, le_upTo, upTo_le, lt_upTo, ne_eq, upTo_eq_top]
  unfold Const.sendEnded
  repeat' split
  all_goals simp_all

/-! ## Oscillator -/

/-- started and stopped `s` later, at frame `f` -/
def Osc.later (s : K) (f : Nat) (o : Osc K) : Osc K :=
  { o with start := upTo s o.start, stop := upTo s o.stop, frame := f }

omit [FloorRing K] in
theorem untop_later (s a : K) (x : WithTop K) : (a + s) - (upTo s x).untopD (a + s) = a - x.untopD a := by
  cases x with
  | top => simp [upTo_top]
  | coe x => rw [upTo_coe, WithTop.untopD_coe, WithTop.untopD_coe]; ring

theorem Osc.later_sample (rd : K → K) (sine : List K) (dt s : K) (f : Nat) (o : Osc K) (t fr : K) :
    (o.later s f).sample rd sine dt (t + s) fr = (o.sample rd sine dt t fr).map fun r => (r.1, r.2.later s f) := by
  unfold Osc.sample
  have hf : ∀ incr outside, (o.later s f).first rd dt (t + s) incr outside = (o.first rd dt t incr outside).later s f := by
    intro incr outside
    unfold Osc.first
    by_cases h : o.started = true
    · rw [if_pos h, if_pos (show (o.later s f).started = true from h)]
    · rw [if_neg h, if_neg (show ¬ (o.later s f).started = true from h)]
      simp only [Osc.later, upTo_lt, untop_later]
  simp only [hf]
  have h1 : (o.later s f).start = upTo s o.start := rfl
  have h2 : (o.later s f).stop = upTo s o.stop := rfl
  simp only [h1, h2, lt_upTo, upTo_le]
  split
  · rfl
  · simp only [Option.map_map]
    rfl

theorem Osc.later_slow (rd : K → K) (sine : List K) (dt s : K) (f : Nat) (fs : List K) : ∀ (o : Osc K) (t : K),
    (o.later s f).slow rd sine dt (t + s) fs = (o.slow rd sine dt t fs).map fun r => (r.1, r.2.later s f) := by
  induction fs with
  | nil => intro o t; rfl
  | cons x fs ih =>
    intro o t
    simp only [Osc.slow, Osc.later_sample]
    cases o.sample rd sine dt t x with
    | none => rfl
    | some r =>
      simp only [Option.map_some, Option.bind_some]
      rw [show t + s + dt = t + dt + s by ring, ih]
      simp only [Option.map_map]
      rfl

theorem Osc.later_fast (rd : K → K) (sine : List K) (incr s : K) (f : Nat) (n : Nat) : ∀ (o : Osc K),
    (o.later s f).fast rd sine incr n = (o.fast rd sine incr n).map fun r => (r.1, r.2.later s f) := by
  induction n with
  | zero => intro o; rfl
  | succ n ih =>
    intro o
    simp only [Osc.fast]
    have h1 : (o.later s f).ty = o.ty := rfl
    have h2 : (o.later s f).wave = o.wave := rfl
    have h3 : (o.later s f).phase = o.phase := rfl
    rw [h1, h2, h3]
    cases waveform rd sine o.ty o.wave o.phase incr with
    | none => rfl
    | some v =>
      simp only [Option.bind_some, Option.map_map]
      show Option.map _ ((({ o with phase := unroll rd (rd (o.phase + incr)) } : Osc K).later s f).fast rd sine incr n) = _
      rw [ih, Option.map_map]
      rfl

theorem Osc.later_process (rd : K → K) (sine : List K) (comp : K → K → K) (dt : K) (count f m : Nat) (o : Osc K)
    (freq detune : List K) :
    (o.later (m * dt) (f + m)).process rd sine comp dt count freq detune =
      (({ o with frame := f } : Osc K).process rd sine comp dt count freq detune).map
        fun r => (r.1, r.2.1.later (m * dt) (f + m), r.2.2) := by
  have e1 : ((f + m : Nat) : K) * dt = f * dt + m * dt := by push_cast; ring
  have e2 : (f * dt + m * dt + dt * count : K) = (f * dt + dt * count) + m * dt := by ring
  have hadj : (o.later (m * dt) (f + m)).adjust dt = (({ o with frame := f } : Osc K).adjust dt).later (m * dt) (f + m) := by
    unfold Osc.adjust Osc.later
    simp only [e1, upTo_lt]
    split <;> rfl
  have hfr : (({ o with frame := f } : Osc K).adjust dt).frame = f := by
    simp only [Osc.adjust]
    split <;> rfl
  have hplay : ∀ (q : Osc K), q.frame = f → (q.later (m * dt) (f + m)).play rd sine comp dt count freq detune =
      (q.play rd sine comp dt count freq detune).map fun r => (r.1, r.2.later (m * dt) (f + m)) := by
    intro q hq
    unfold Osc.play
    have g1 : (q.later (m * dt) (f + m)).frame = f + m := rfl
    have g2 : (q.later (m * dt) (f + m)).start = upTo (m * dt) q.start := rfl
    have g3 : (q.later (m * dt) (f + m)).stop = upTo (m * dt) q.stop := rfl
    have g4 : (q.later (m * dt) (f + m)).started = q.started := rfl
    simp only [g1, g2, g3, g4, hq, e1, e2, upTo_le, le_upTo, Osc.later_slow, Osc.later_fast]
    split
    · split <;> rfl
    · rfl
  have hsend : ∀ q : Osc K, (q.later (m * dt) (f + m)).sendEnded = q.sendEnded.later (m * dt) (f + m) := by
    intro q
    unfold Osc.sendEnded
    rw [show (q.later (m * dt) (f + m)).ended = q.ended from rfl]
    split <;> rfl
  have hso : o.sendEnded.later (m * dt) (f + m) = ({ o with frame := f } : Osc K).sendEnded.later (m * dt) (f + m) := by
    unfold Osc.sendEnded
    split <;> rfl
  unfold Osc.process
  rw [hadj, hplay _ hfr]
  have g1 : (o.later (m * dt) (f + m)).frame = f + m := rfl
  have g2 : (o.later (m * dt) (f + m)).start = upTo (m * dt) o.start := rfl
  have g3 : (o.later (m * dt) (f + m)).stop = upTo (m * dt) o.stop := rfl
  simp only [g1, g2, g3, e1, e2, upTo_le, le_upTo, ne_eq, upTo_eq_top, hsend, hso]
  split
  · rfl
  · split
    · split <;> rfl
    · rw [Option.map_map, Option.map_map]
      congr 1
      funext r
      simp only [Function.comp]
      rw [show (r.2.later (m * dt) (f + m)).stop = upTo (m * dt) r.2.stop from rfl]
      simp only [upTo_le, hsend]
      split <;> rfl

/-! ## Buffer source -/

/-- the comparison of times does not depend on where they are -/
def EvenAlmost (e : BufEnv K) : Prop := ∀ a b s, e.almostEq (a + s) (b + s) = e.almostEq a b

/-- started and stopped `s` later, at frame `f` -/
def BufSt.later (s : K) (f : Nat) (b : BufSt K) : BufSt K :=
  { b with start := upTo s b.start, stop := upTo s b.stop, frame := f }

/-- the part of the state that the loop over the frames changes, `s` later -/
def Slow.later (s : K) (b : Slow K) : Slow K := { b with start := upTo s b.start }

/-- what the loop over the frames reads, `s` later -/
def SlowEnv.later (s : K) (q : SlowEnv K) : SlowEnv K := { q with stop := upTo s q.stop }

/-- a result, `s` later -/
def exMap {α β : Type} (f : α → β) : Except Fault α → Except Fault β
  | .error x => .error x
  | .ok a => .ok (f a)

theorem Slow.later_snap {e : BufEnv K} (he : EvenAlmost e) (q : SlowEnv K) (s now : K) (b : Slow K) :
    (b.later s).snap e (q.later s) (now + s) = (b.snap e q now).later s := by
  unfold Slow.snap Slow.later SlowEnv.later
  have h : eqTop e ((now + s : K) : WithTop K) (upTo s b.start) = eqTop e (now : WithTop K) b.start := by
    cases b.start with
    | top => rfl
    | coe x => exact he now x s
  simp only [h]
  split <;> rfl

theorem Slow.later_begin (q : SlowEnv K) (s now : K) {b : Slow K} (hb : b.start ≠ ⊤) :
    (b.later s).begin (q.later s) (now + s) = (b.begin q now).later s := by
  unfold Slow.begin
  by_cases h : b.started = true
  · rw [if_pos h, if_pos (show (b.later s).started = true from h)]
  · rw [if_neg h, if_neg (show ¬ (b.later s).started = true from h)]
    have : now + s - (b.later s).start.untopD 0 = now - b.start.untopD 0 := by
      unfold Slow.later
      cases hx : b.start with
      | top => exact absurd hx hb
      | coe x => rw [upTo_coe, WithTop.untopD_coe, WithTop.untopD_coe]; ring
    simp only [this]
    rfl

theorem Slow.later_wrap (e : BufEnv K) (q : SlowEnv K) (s : K) (b : Slow K) :
    Slow.wrap e (q.later s) (b.later s) = exMap (Slow.later s) (Slow.wrap e q b) := by
  unfold Slow.wrap
  have h1 : (q.later s).looping = q.looping := rfl
  have h2 : inLoop (q.later s) = inLoop q := rfl
  have h3 : snapLoop e (q.later s) = snapLoop e q := rfl
  have h4 : (q.later s).loopStart = q.loopStart := rfl
  have h5 : (q.later s).loopEnd = q.loopEnd := rfl
  have h6 : (b.later s).bufferTime = b.bufferTime := rfl
  have h7 : (b.later s).enteredLoop = b.enteredLoop := rfl
  have h8 : (b.later s).offset = b.offset := rfl
  rw [h1, h2, h3, h4, h5, h6, h7, h8]
  split
  · split
    · cases wrapDown q.loopEnd (q.loopEnd - q.loopStart) (snapLoop e q b.bufferTime) with
      | error x => rfl
      | ok t =>
        dsimp only
        cases wrapUp q.loopStart (q.loopEnd - q.loopStart) t with
        | error x => rfl
        | ok t => rfl
    · rfl
  · rfl

theorem Slow.later_frame {e : BufEnv K} (he : EvenAlmost e) (q : SlowEnv K) (s now : K) (b : Slow K) :
    Slow.frame e (q.later s) (now + s) (b.later s) = exMap (fun r => (r.1.later s, r.2)) (Slow.frame e q now b) := by
  unfold Slow.frame
  rw [Slow.later_snap he]
  generalize b.snap e q now = c
  have h1 : (c.later s).start = upTo s c.start := rfl
  have h2 : (q.later s).stop = upTo s q.stop := rfl
  have h3 : (q.later s).duration = q.duration := rfl
  have h4 : (c.later s).elapsed = c.elapsed := rfl
  simp only [h1, h2, h3, h4, lt_upTo, upTo_le]
  split
  · rfl
  · rename_i hn
    have hs : c.start ≠ ⊤ := by
      intro h
      exact hn (.inl (by rw [h]; exact WithTop.coe_lt_top now))
    rw [Slow.later_begin q s now hs, Slow.later_wrap]
    cases Slow.wrap e q (c.begin q now) with
    | error x => rfl
    | ok r => rfl

theorem Slow.later_frames {e : BufEnv K} (he : EvenAlmost e) (q : SlowEnv K) (s bt : K) (n : Nat) : ∀ (i : Nat) (b : Slow K),
    Slow.frames e (q.later s) (bt + s) n i (b.later s) = exMap (fun r => (r.1.later s, r.2)) (Slow.frames e q bt n i b) := by
  induction n with
  | zero => intro i b; rfl
  | succ n ih =>
    intro i b
    unfold Slow.frames
    rw [show bt + s + i * (1 / e.sr) = bt + i * (1 / e.sr) + s by ring, Slow.later_frame he]
    cases Slow.frame e q (bt + i * (1 / e.sr)) b with
    | error x => rfl
    | ok r =>
      simp only [exMap]
      rw [ih]
      cases Slow.frames e q bt n (i + 1) r.1 with
      | error x => rfl
      | ok r => rfl

theorem BufSt.later_slowTrack {e : BufEnv K} (he : EvenAlmost e) (f m : Nat) {b : BufSt K} (hb : b.frame = f) (chans : List (List K))
    (rate0 rate : K) :
    slowTrack e (b.later (m / e.sr) (f + m)) chans rate0 rate =
      exMap (fun r => (r.1, r.2.later (m / e.sr) (f + m))) (slowTrack e b chans rate0 rate) := by
  unfold slowTrack
  have h1 : (b.later (m / e.sr) (f + m)).slowEnv e chans rate = (b.slowEnv e chans rate).later (m / e.sr) := rfl
  have h2 : (b.later (m / e.sr) (f + m)).slow = b.slow.later (m / e.sr) := rfl
  have h3 : (((b.later (m / e.sr) (f + m)).frame : K) / e.sr) = b.frame / e.sr + m / e.sr := by
    rw [hb]
    show ((f + m : Nat) : K) / e.sr = _
    push_cast; ring
  rw [h1, h2, h3, Slow.later_frames he]
  cases Slow.frames e (b.slowEnv e chans rate) (b.frame / e.sr) e.count 0 b.slow with
  | error x => rfl
  | ok r =>
    simp only [exMap]
    have h4 : slowSample e ((b.slowEnv e chans rate).later (m / e.sr)) rate0 = slowSample e (b.slowEnv e chans rate) rate0 := by
      funext ch x
      cases x <;> rfl
    rw [h4]
    cases chans.mapM fun ch => r.2.mapM (slowSample e (b.slowEnv e chans rate) rate0 ch) with
    | none => rfl
    | some out => rfl

theorem BufSt.later_close (e : BufEnv K) (f m : Nat) {b : BufSt K} (hb : b.frame = f) (dur rate : K) :
    (b.later (m / e.sr) (f + m)).close e dur rate = (b.close e dur rate).later (m / e.sr) (f + m) := by
  have e1 : ((f + m : Nat) : K) / e.sr + 1 / e.sr * e.count = (f / e.sr + 1 / e.sr * e.count) + m / e.sr := by push_cast; ring
  have : (b.later (m / e.sr) (f + m)).finished e dur rate = b.finished e dur rate := by
    unfold BufSt.finished BufSt.later
    simp only [e1, upTo_le, hb]
  unfold BufSt.close
  rw [this]
  split <;> rfl

theorem BufSt.later_play {e : BufEnv K} (he : EvenAlmost e) (f m : Nat) {b : BufSt K} (hb : b.frame = f) (chans : List (List K))
    (rate0 rate : K) :
    (b.later (m / e.sr) (f + m)).play e chans rate0 rate =
      exMap (fun r => (r.1, r.2.later (m / e.sr) (f + m))) (b.play e chans rate0 rate) := by
  have e1 : ((f + m : Nat) : K) / e.sr = f / e.sr + m / e.sr := by push_cast; ring
  have e2 : (f / e.sr + m / e.sr + 1 / e.sr * e.count : K) = (f / e.sr + 1 / e.sr * e.count) + m / e.sr := by ring
  have hcatch : (b.later (m / e.sr) (f + m)).catchUp e = (b.catchUp e).later (m / e.sr) (f + m) := by
    unfold BufSt.catchUp BufSt.later
    simp only [e1, upTo_lt, hb]
    split <;> rfl
  have hcf : (b.catchUp e).frame = f := by
    unfold BufSt.catchUp
    split <;> exact hb
  unfold BufSt.play
  rw [hcatch]
  generalize b.catchUp e = c at hcf
  have halign : (c.later (m / e.sr) (f + m)).align e (durationOf e chans) rate = c.align e (durationOf e chans) rate := by
    unfold BufSt.align BufSt.later
    simp only [e1, e2, upTo_eq, upTo_lt, hcf]
  have hfast : fastTrack e (c.later (m / e.sr) (f + m)) chans = fastTrack e c chans := rfl
  simp only [halign, hfast]
  split
  · cases fastTrack e c chans with
    | error x => rfl
    | ok r =>
      simp only [exMap]
      have hadv : ({ c.later (m / e.sr) (f + m) with aligned := true } : BufSt K).advance e r.2 =
          (({ c with aligned := true } : BufSt K).advance e r.2).later (m / e.sr) (f + m) := by
        unfold BufSt.advance BufSt.later
        simp only [e1, upTo_eq, hcf]
      rw [hadv, BufSt.later_close e f m (by exact hcf)]
  · rw [show ({ c.later (m / e.sr) (f + m) with aligned := false } : BufSt K) =
      ({ c with aligned := false } : BufSt K).later (m / e.sr) (f + m) from rfl,
      BufSt.later_slowTrack he f m (b := { c with aligned := false }) hcf]
    cases hst : slowTrack e ({ c with aligned := false } : BufSt K) chans rate0 rate with
    | error x => rfl
    | ok r =>
      simp only [exMap]
      have hrf : r.2.frame = f := by
        unfold slowTrack at hst
        split at hst
        · cases hst
        · split at hst
          · cases hst
          · cases hst; exact hcf
      rw [BufSt.later_close e f m hrf]

theorem BufSt.later_process {e : BufEnv K} (he : EvenAlmost e) (f m : Nat) (b : BufSt K) (rate0 det : K) :
    (b.later (m / e.sr) (f + m)).process e rate0 det =
      exMap (fun r => (r.1, r.2.1.later (m / e.sr) (f + m), r.2.2)) (({ b with frame := f } : BufSt K).process e rate0 det) := by
  rw [show b.later (m / e.sr) (f + m) = ({ b with frame := f } : BufSt K).later (m / e.sr) (f + m) from rfl]
  have hb : ({ b with frame := f } : BufSt K).frame = f := rfl
  generalize ({ b with frame := f } : BufSt K) = b at hb
  have e1 : ((f + m : Nat) : K) / e.sr + 1 / e.sr * e.count = (f / e.sr + 1 / e.sr * e.count) + m / e.sr := by push_cast; ring
  unfold BufSt.process
  have g1 : (b.later (m / e.sr) (f + m)).frame = f + m := rfl
  have g2 : (b.later (m / e.sr) (f + m)).start = upTo (m / e.sr) b.start := rfl
  have g3 : (b.later (m / e.sr) (f + m)).stop = upTo (m / e.sr) b.stop := rfl
  have g4 : (b.later (m / e.sr) (f + m)).ended = b.ended := rfl
  have g5 : (b.later (m / e.sr) (f + m)).buffer = b.buffer := rfl
  simp only [g1, g2, g3, g4, g5, e1, upTo_le, le_upTo, ne_eq, upTo_eq_top, hb]
  split
  · rfl
  · split
    · rfl
    · split
      · split <;> rfl
      · cases hbuf : b.buffer with
        | none => rfl
        | some chans =>
          dsimp only
          rw [BufSt.later_play he f m hb chans rate0 (rate0 * det)]
          cases b.play e chans rate0 (rate0 * det) with
          | error x => rfl
          | ok r => rfl

theorem BufSt.later_clamp (e : BufEnv K) (s : K) (f : Nat) (b : BufSt K) :
    BufSt.clampLoop e (b.later s f) = (BufSt.clampLoop e b).later s f := by
  unfold BufSt.clampLoop
  rw [show (b.later s f).buffer = b.buffer from rfl]
  cases b.buffer <;> rfl

end

end Verif.Source
