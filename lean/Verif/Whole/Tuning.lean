import Verif.Whole.Band
import Verif.Source.OscPhase

/-!
# C112: the notes of oscillators

`Verif.Whole.Score` reduces the sound of a graph to sources and parameters alone. Here the source is an oscillator
(`/repo/src/node/oscillator.rs` l.365-676) with constant frequency: the wave of the note is the waveform at the phase
`frequency * (time - start time)`, from the start time to the stop time.
-/

namespace Verif.Whole

open Verif Verif.Render Verif.Engine

section
variable {K : Type} [Field K] [LinearOrder K] [IsStrictOrderedRing K] [FloorRing K]
variable {Q X : Type}

/-- the time of a start message -/
def SMsg.startAt : SMsg K X → Option K
  | .start t _ _ => some t
  | _ => none

/-- the time of a stop message -/
def SMsg.stopAt : SMsg K X → Option K
  | .stop t => some t
  | _ => none

/-- Specification: the time at which an oscillator starts: that of the start message, but not before the first frame that is
rendered after it. The messages of the first list arrive before the quantum at frame `f`, the next ones a quantum later. -/
def startsAt (dt : K) : Nat → List (List (SMsg K X)) → Option K
  | _, [] => none
  | f, b :: bs => match (b.filterMap SMsg.startAt).head? with
    | some t => some (max t (f * dt))
    | none => startsAt dt (f + 128) bs

/-- Specification: type and wave of an oscillator after some messages -/
def timbre (tw : Source.OscType × Option (List K)) (ms : List (SMsg K X)) : Source.OscType × Option (List K) :=
  ms.foldl (fun tw m => match m with
    | .setType ty => (ty, tw.2)
    | .setWave w => (.custom, some w)
    | _ => tw) tw

omit [IsStrictOrderedRing K] [FloorRing K] in
theorem startsAt_none {dt : K} : ∀ {bs : List (List (SMsg K X))} {f : Nat}, bs.flatten.filterMap SMsg.startAt = [] →
    startsAt dt f bs = none := by
  intro bs
  induction bs with
  | nil => intro f _; rfl
  | cons b bs ih =>
    intro f h
    rw [List.flatten_cons, List.filterMap_append, List.append_eq_nil_iff] at h
    rw [startsAt, h.1]
    exact ih h.2

/-- messages between two quanta -/
theorem osc_mail (e : Studio K Q X) {dt f0 : K} {count fr de F : Nat} : ∀ (b : List (SMsg K X)) {s : Source.Osc K}
    {p : SProc K Q} {a : Option K} {st : List K}, Source.Osc.At dt count f0 a st { s with frame := F } →
    (a.toList.length + (b.filterMap SMsg.startAt).length ≤ 1) →
    RGraph.foldOpt e.onmessage b (.osc s fr de) = some p →
    ∃ s', p = .osc s' fr de ∧ Source.Osc.At dt count f0 (a.orElse fun _ => ((b.filterMap SMsg.startAt).head?).map fun t => max t (F * dt))
      (st ++ b.filterMap SMsg.stopAt) { s' with frame := F } ∧ (s'.ty, s'.wave) = timbre (s.ty, s.wave) b := by
  intro b
  induction b with
  | nil =>
    intro s p a st h _ hp
    simp only [RGraph.foldOpt, Option.some.injEq] at hp
    exact ⟨s, hp.symm, by cases a <;> simpa using h, rfl⟩
  | cons m b ih =>
    intro s p a st h hone hp
    have same : ∀ s1 : Source.Osc K, s1.phase = s.phase → s1.start = s.start → s1.stop = s.stop → s1.started = s.started →
        Source.Osc.At dt count f0 a st { s1 with frame := F } := by
      intro s1 e1 e2 e3 e4
      refine ⟨?_, ?_, h.mult, ?_, ?_, ?_, ?_⟩
      · have := h.inv; unfold Source.Osc.Inv at this ⊢; simp only [e1, e4]; exact this
      · simp only [e3]; exact h.stop
      · simp only [e2, e4]; exact h.idle
      · simp only [e2]; exact h.low
      · simp only [e2, e4]; exact h.wait
      · simp only [e1, e2, e4]; exact h.play
    cases m with
    | start t o d =>
      have ha : a = none := by
        cases a with
        | none => rfl
        | some x => simp [SMsg.startAt] at hone
      subst ha
      have hnil : b.filterMap SMsg.startAt = [] := by
        have h' : 0 + ((b.filterMap SMsg.startAt).length + 1) ≤ 1 := hone
        exact List.length_eq_zero_iff.1 (by omega)
      obtain ⟨s', h1, h2, h3⟩ := ih (s := { s with start := t }) (Source.At.startMsg h t) (by rw [hnil]; simp) hp
      exact ⟨s', h1, h2, h3⟩
    | stop t =>
      obtain ⟨s', h1, h2, h3⟩ := ih (s := { s with stop := t }) (Source.At.stopMsg h t) hone hp
      rw [List.append_assoc] at h2
      exact ⟨s', h1, h2, h3⟩
    | setType ty =>
      obtain ⟨s', h1, h2, h3⟩ := ih (s := { s with ty := ty }) (same _ rfl rfl rfl rfl) hone hp
      exact ⟨s', h1, h2, h3⟩
    | setWave w =>
      obtain ⟨s', h1, h2, h3⟩ := ih (s := { s with ty := .custom, wave := some w }) (same _ rfl rfl rfl rfl) hone hp
      exact ⟨s', h1, h2, h3⟩
    | _ =>
      obtain ⟨s', h1, h2, h3⟩ := ih (s := s) h hone hp
      exact ⟨s', h1, h2, h3⟩

/-- what an oscillator with constant frequency plays alone -/
theorem osc_played (e : Studio K Q X) (hdt : 0 < e.dt) (hrd : e.rd = id) (hN : e.c.N = 128) {f0 : K}
    (hf : |f0| < 1 / e.dt / 2) {vals : Nat → Nat → List K} {fr de : Nat} :
    ∀ (bs : List (List (SMsg K X))) {f k : Nat} {s : Source.Osc K} {a : Option K} {st : List K} {z : MSig K e.c.N},
    Source.Osc.At e.dt e.c.N f0 a st { s with frame := f } →
    (a.toList.length + (bs.flatten.filterMap SMsg.startAt).length ≤ 1) →
    (∀ b, (a.orElse fun _ => startsAt e.dt (f + 128) bs) = some b →
      ∀ m : Nat, ¬ ((m * e.c.N : Nat) * e.dt - e.dt < b ∧ b < (m * e.c.N : Nat) * e.dt)) →
    (∀ k', k' ≤ k + bs.length → ∀ x ∈ Source.freqs e.comp e.c.N (vals k' fr) (vals k' de), x = f0) →
    e.played vals f k (.osc s fr de) bs = some z →
    z.q.length = 1 ∧ ∀ j, j < e.c.N →
      (∀ b, (a.orElse fun _ => startsAt e.dt (f + 128) bs) = some b → b ≤ (f + 128 * bs.length + j : Nat) * e.dt →
        (∀ v ∈ st ++ bs.flatten.filterMap SMsg.stopAt, (f + 128 * bs.length + j : Nat) * e.dt < v) →
        Source.waveform id e.sine (timbre (s.ty, s.wave) bs.flatten).1 (timbre (s.ty, s.wave) bs.flatten).2
          (Int.fract (f0 * ((f + 128 * bs.length + j : Nat) * e.dt - b))) (f0 * e.dt) = some (Node.sample z.q 0 j)) ∧
      ((∀ b, (a.orElse fun _ => startsAt e.dt (f + 128) bs) = some b → (f + 128 * bs.length + j : Nat) * e.dt < b) ∨
          Source.lastStop (st ++ bs.flatten.filterMap SMsg.stopAt) ≤ (((f + 128 * bs.length + j : Nat) * e.dt : K) : WithTop K) →
        Node.sample z.q 0 j = 0) := by
  intro bs
  have quantum : ∀ {f k : Nat} {s : Source.Osc K} {p : SProc K Q} {q : MSig K e.c.N},
      e.plays f (vals k) (.osc s fr de) = some (p, q) → ∃ (out : List K) (s' : Source.Osc K), p = .osc { s' with frame := 0 } fr de ∧
        ({ s with frame := f } : Source.Osc K).step id e.sine e.comp e.dt e.c.N (.block (vals k fr) (vals k de)) =
          some (out, { s' with frame := f + e.c.N }) ∧ q.q.length = 1 ∧ ∀ j, Node.sample q.q 0 j = out.getD j 0 := by
    intro f k s p q h
    simp only [Studio.plays, Option.bind_eq_some_iff, Option.map_eq_some_iff, Prod.mk.injEq] at h
    obtain ⟨r, hr, q', hq', rfl, rfl⟩ := h
    obtain ⟨q1, q2⟩ := mono_out hq'
    rw [hrd] at hr
    exact ⟨r.1, r.2.1, rfl, by simp only [Source.Osc.step, hr]; rfl, q1, q2⟩
  have time : ∀ f j : Nat, ((f + j : Nat) : K) * e.dt = f * e.dt + j * e.dt := fun f j => by push_cast; ring
  have hN0 : 0 < e.c.N := by omega
  induction bs with
  | nil =>
    intro f k s a st z hat _ hgap hfs h
    simp only [Studio.played, Option.map_eq_some_iff] at h
    obtain ⟨⟨p, q⟩, hp, rfl⟩ := h
    obtain ⟨out, s', _, hs, q1, q2⟩ := quantum hp
    have hor : (a.orElse fun _ => startsAt e.dt (f + 128) ([] : List (List (SMsg K X)))) = a := by cases a <;> rfl
    rw [hor] at hgap
    obtain ⟨_, hb⟩ := Source.At.block hdt hN0 hf hat hgap (hfs k (by simp)) hs
    refine ⟨q1, fun j hj => ?_⟩
    simp only [hor, List.length_nil, Nat.mul_zero, Nat.add_zero, List.flatten_nil, List.filterMap_nil, List.append_nil, time]
    rw [q2, List.getD_eq_getElem?_getD]
    exact hb j hj
  | cons b bs ih =>
    intro f k s a st z hat hone hgap hfs h
    simp only [Studio.played, Option.bind_eq_some_iff] at h
    obtain ⟨⟨p, q⟩, hp, p', hp', h⟩ := h
    obtain ⟨out, s', rfl, hs, q1, q2⟩ := quantum hp
    rw [List.flatten_cons, List.filterMap_append, List.length_append] at hone
    have hgapa : ∀ x, a = some x → ∀ m : Nat, ¬ ((m * e.c.N : Nat) * e.dt - e.dt < x ∧ x < (m * e.c.N : Nat) * e.dt) :=
      fun x hx => hgap x (by rw [hx]; rfl)
    obtain ⟨hat', _⟩ := Source.At.block hdt hN0 hf hat hgapa (hfs k (by simp)) hs
    obtain ⟨k1, k2, _⟩ := Source.block_keeps hdt hat.inv hs
    have hat3 : Source.Osc.At e.dt e.c.N f0 a st { ({ s' with frame := 0 } : Source.Osc K) with frame := f + 128 } := by
      have e1 : ({ s' with frame := f + e.c.N } : Source.Osc K) = { ({ s' with frame := 0 } : Source.Osc K) with frame := f + 128 } := by
        rw [hN]
      rw [← e1]
      exact hat'
    obtain ⟨s2, rfl, hat2, ht2⟩ := osc_mail e b hat3 (by omega) hp'
    have hone2 : (((a.orElse fun _ => ((b.filterMap SMsg.startAt).head?).map fun t => max t (((f + 128 : Nat) : K) * e.dt))).toList.length +
        (bs.flatten.filterMap SMsg.startAt).length ≤ 1) := by
      cases a with
      | some x =>
        have h' : 1 + ((b.filterMap SMsg.startAt).length + (bs.flatten.filterMap SMsg.startAt).length) ≤ 1 := hone
        show 1 + (bs.flatten.filterMap SMsg.startAt).length ≤ 1
        omega
      | none =>
        cases hl : b.filterMap SMsg.startAt with
        | nil => rw [hl] at hone; simpa using hone
        | cons t l =>
          rw [hl] at hone
          have h' : 0 + (l.length + 1 + (bs.flatten.filterMap SMsg.startAt).length) ≤ 1 := hone
          show 1 + (bs.flatten.filterMap SMsg.startAt).length ≤ 1
          omega
    have hor : ((a.orElse fun _ => ((b.filterMap SMsg.startAt).head?).map fun t => max t (((f + 128 : Nat) : K) * e.dt)).orElse
        fun _ => startsAt e.dt (f + 128 + 128) bs) = a.orElse fun _ => startsAt e.dt (f + 128) (b :: bs) := by
      cases a with
      | some x => rfl
      | none =>
        rw [startsAt]
        cases hl : (b.filterMap SMsg.startAt).head? <;> rfl
    obtain ⟨i1, i2⟩ := ih hat2 hone2 (by rw [hor]; exact hgap) (fun k' hk' => hfs k' (by simp only [List.length_cons]; omega)) h
    refine ⟨i1, fun j hj => ?_⟩
    have := i2 j hj
    rw [hor, ht2] at this
    simp only at this k1 k2
    rw [show timbre (timbre (s'.ty, s'.wave) b) bs.flatten = timbre (s.ty, s.wave) (b :: bs).flatten by
        rw [k1, k2, List.flatten_cons]; unfold timbre; rw [List.foldl_append],
      show f + 128 + 128 * bs.length + j = f + 128 * (b :: bs).length + j by simp; omega,
      show st ++ b.filterMap SMsg.stopAt ++ bs.flatten.filterMap SMsg.stopAt = st ++ (b :: bs).flatten.filterMap SMsg.stopAt by
        rw [List.flatten_cons, List.filterMap_append, List.append_assoc]] at this
    exact this

/-- a parameter without events keeps its value -/
theorem Par.values_rest (e : Studio K Q X) {a : Par K} (h : a.proc.timeline = []) {f : Nat} {bs : List (List (SMsg K X))}
    (hb : ∀ b ∈ bs, b = []) : a.values e f bs = some [clampTo a.mn a.mx a.proc.intrinsic] := by
  have hops : paramOps bs = List.replicate bs.length .block ++ [.block] := by
    unfold paramOps
    rw [← List.replicate_succ', List.replicate_succ]
    congr 1
    clear f
    induction bs with
    | nil => rfl
    | cons b bs ih =>
      rw [List.flatMap_cons, hb b (by simp), ih fun b' h' => hb b' (by simp [h'])]
      rfl
  unfold Par.values
  rw [hops, Param.run_append]
  obtain ⟨s', h1, h2, h3, _⟩ := run_idle (A := e.A a.mn a.mx) (dt := e.dt) (count := e.c.N) bs.length
    (s := ⟨a.proc, f⟩) h
  rw [h1]
  have hc : Param.computeBuffer (e.A a.mn a.mx) s'.p ⟨(s'.frame : K) * e.dt, e.dt, e.c.N⟩ =
      .ok { s'.p with current := (e.A a.mn a.mx).clamp s'.p.intrinsic, buffer := [s'.p.intrinsic] } := by
    simp [Param.computeBuffer, Param.isConstant, h2]
  simp only [Param.Res.bind, Param.run, Param.step, hc, resOpt, Option.map_some, paramSeen]
  rw [if_pos (.inl rfl)]
  simp only at h3
  rw [← h3]
  rfl

/-- C112, oscillators: a new oscillator that gets the messages `ms` before the quantum at frame `f`, then those of `bs`, with at
most one start message, and parameters without automation that result in the frequency `f0` below half of the sample rate. The
wave of the note is one channel; at every time `t` from the start time `a` to the stop times it is the waveform of type and wave
that were set at the phase `f0 * (t - a)` modulo 1; it is zero before the start and from the last stop time on. Missing: start
times within less than one frame before the begin of a quantum, see `C44_negated_start`. -/
theorem C112_oscillator_partial (e : Studio K Q X) (hsr : 0 < e.sr) (hrd : e.rd = id) (hN : e.c.N = 128) {v : Note K Q}
    {ty : Source.OscType} {wave : Option (List K)} {fr de : Par K} (hne : fr.id ≠ de.id) {ms : List (SMsg K X)}
    (hv : RGraph.foldOpt e.onmessage ms (.osc (Source.Osc.new ty wave) fr.id de.id) = some v.proc) (hp : v.params = [fr, de])
    {bs : List (List (Msg (SProc K Q) (SMsg K X)))}
    (hfr : fr.proc.timeline = [] ∧ ∀ b ∈ bs, mail fr.id b = []) (hde : de.proc.timeline = [] ∧ ∀ b ∈ bs, mail de.id b = [])
    {f0 : K} (hf0 : e.comp (clampTo fr.mn fr.mx fr.proc.intrinsic) (clampTo de.mn de.mx de.proc.intrinsic) = f0)
    (hlow : |f0| < e.sr / 2) {n : Nat} {starts : Option K} {stops : List K}
    (hone : ((ms ++ bs.flatMap (mail v.src)).filterMap SMsg.startAt).length ≤ 1)
    (hstart : startsAt e.dt (128 * n) (ms :: bs.map (mail v.src)) = starts)
    (hstop : (ms ++ bs.flatMap (mail v.src)).filterMap SMsg.stopAt = stops)
    (hgap : ∀ a, starts = some a → ∀ m : Nat, ¬ ((128 * m : Nat) * e.dt - e.dt < a ∧ a < (128 * m : Nat) * e.dt))
    {z : MSig K e.c.N} (hz : v.wave e (128 * n) bs = some z) :
    z.q.length = 1 ∧ ∀ j, j < e.c.N →
      let t : K := (128 * (n + bs.length) + j : Nat) * e.dt
      let tw := timbre ((Source.Osc.new ty wave).ty, (Source.Osc.new ty wave).wave) (ms ++ bs.flatMap (mail v.src))
      (∀ a, starts = some a → a ≤ t → (∀ b ∈ stops, t < b) →
        Source.waveform id e.sine tw.1 tw.2 (Int.fract (f0 * (t - a))) (f0 * e.dt) = some (Node.sample z.q 0 j)) ∧
      ((∀ a, starts = some a → t < a) ∨ (∃ b, stops.getLast? = some b ∧ b ≤ t) → Node.sample z.q 0 j = 0) := by
  have hdt : 0 < e.dt := one_div_pos.2 hsr
  have hvals : ∀ k, v.vals e (128 * n) bs k fr.id = [clampTo fr.mn fr.mx fr.proc.intrinsic] ∧
      v.vals e (128 * n) bs k de.id = [clampTo de.mn de.mx de.proc.intrinsic] := by
    intro k
    have e1 : ∀ a : Par K, a.proc.timeline = [] → (∀ b ∈ bs, mail a.id b = []) →
        a.values e (128 * n) ((bs.take k).map (mail a.id)) = some [clampTo a.mn a.mx a.proc.intrinsic] := by
      intro a ha hb
      refine Par.values_rest e ha fun b hb' => ?_
      obtain ⟨b', h1, rfl⟩ := List.mem_map.1 hb'
      exact hb b' (List.mem_of_mem_take h1)
    have f1 : ([fr, de].find? fun a => a.id == fr.id) = some fr := by simp
    have f2 : ([fr, de].find? fun a => a.id == de.id) = some de := by simp [hne]
    constructor
    · simp only [Note.vals, hp, f1]
      rw [e1 fr hfr.1 hfr.2]
      rfl
    · simp only [Note.vals, hp, f2]
      rw [e1 de hde.1 hde.2]
      rfl
  have hlow' : |f0| < 1 / e.dt / 2 := by unfold Studio.dt; rw [one_div_one_div]; exact hlow
  have hnew := Source.At.new (K := K) (dt := e.dt) (count := e.c.N) (f := f0) ty wave n
  rw [show n * e.c.N = 128 * n by rw [hN, Nat.mul_comm]] at hnew
  rw [List.filterMap_append, List.length_append] at hone
  obtain ⟨s', hs', hat, htw⟩ := osc_mail e (F := 128 * n) ms hnew (by simp; omega) hv
  unfold Note.wave at hz
  rw [hs'] at hz
  rw [List.nil_append] at hat
  simp only [Option.orElse_none] at hat
  have hor : ((((ms.filterMap SMsg.startAt).head?).map fun t => max t (((128 * n : Nat) : K) * e.dt)).orElse
      fun _ => startsAt e.dt (128 * n + 128) (bs.map (mail v.src))) = starts := by
    rw [← hstart, startsAt]
    cases hl : (ms.filterMap SMsg.startAt).head? <;> rfl
  obtain ⟨h1, h2⟩ := osc_played e hdt hrd hN hlow' (bs.map (mail v.src)) hat (by
      rw [List.flatMap_def] at hone
      have : (((ms.filterMap SMsg.startAt).head?).map fun t => max t (((128 * n : Nat) : K) * e.dt)).toList.length ≤
          (ms.filterMap SMsg.startAt).length := by
        cases ms.filterMap SMsg.startAt <;> simp
      omega)
    (by
      rw [hor]
      intro b hb m
      rw [hN, Nat.mul_comm m]
      exact hgap b hb m)
    (fun k _ x hx => by
      rw [(hvals k).1, (hvals k).2] at hx
      simp only [Source.freqs, List.mem_map, List.length_singleton, Nat.mod_one, List.getD_cons_zero, hf0] at hx
      obtain ⟨_, _, rfl⟩ := hx
      rfl) hz
  refine ⟨h1, fun j hj => ?_⟩
  have := h2 j hj
  rw [hor, htw, List.length_map, ← List.flatMap_def, ← List.filterMap_append, hstop,
    show 128 * n + 128 * bs.length + j = 128 * (n + bs.length) + j by ring,
    show timbre (timbre ((Source.Osc.new ty wave).ty, (Source.Osc.new ty wave).wave) ms) (bs.flatMap (mail v.src)) =
      timbre ((Source.Osc.new ty wave).ty, (Source.Osc.new ty wave).wave) (ms ++ bs.flatMap (mail v.src)) by
        unfold timbre; rw [List.foldl_append]] at this
  refine ⟨this.1, fun hor => this.2 ?_⟩
  rcases hor with h | ⟨b, hb, hle⟩
  · exact .inl h
  · refine .inr ?_
    unfold Source.lastStop
    rw [hb]
    exact WithTop.coe_le_coe.2 hle

end

/-- an oscillator of 2 Hz with a wave of its own, to start at 0.5 seconds -/
def hum : Note ℚ Empty where
  src := 2
  gain := 4
  proc := .osc { (Source.Osc.new .sine none) with start := ((1 / 2 : ℚ) : WithTop ℚ), ty := .custom, wave := some [0, 1, 0, -1] } 5 6
  params := [⟨5, 440, -64, 64, { intrinsic := 2, current := 2 }⟩, ⟨6, 0, -1000, 1000, { intrinsic := 0, current := 0 }⟩]
  env := ⟨3, 1, -100, 100, { intrinsic := 0, current := 0 }⟩

/-- after the first quantum: the oscillator is to stop at 1.5 seconds -/
def humMail : List (List (Render.Msg (SProc ℚ Empty) (SMsg ℚ Empty))) := [[.post 2 2 (.stop (3 / 2))]]

/-- The theorem applies to the second quantum: the phase is 1/4 at 1.125 seconds; the oscillator is silent from 1.5 seconds on. -/
example : ∃ z, hum.wave studio 0 humMail = some z ∧ Node.sample z.q 0 16 = 1 ∧ ∀ j, 64 ≤ j → j < 128 → Node.sample z.q 0 j = 0 := by
  have hs : (hum.wave studio 0 humMail).isSome := by decide +kernel
  obtain ⟨z, hz⟩ := Option.isSome_iff_exists.1 hs
  refine ⟨z, hz, ?_⟩
  obtain ⟨_, h⟩ := C112_oscillator_partial studio (by show (0 : ℚ) < 128; norm_num) rfl rfl (v := hum) (ty := .sine) (wave := none)
    (fr := ⟨5, 440, -64, 64, { intrinsic := 2, current := 2 }⟩) (de := ⟨6, 0, -1000, 1000, { intrinsic := 0, current := 0 }⟩)
    (by decide) (ms := [.setWave [0, 1, 0, -1], .start (1 / 2) 0 ⊤]) rfl rfl (bs := humMail) ⟨rfl, by simp [humMail, mail]⟩
    ⟨rfl, by simp [humMail, mail]⟩ (f0 := 2) (by decide +kernel) (by show |(2 : ℚ)| < 128 / 2; norm_num [abs_of_pos]) (n := 0)
    (starts := some (1 / 2)) (stops := [3 / 2]) (by decide) (by decide +kernel) rfl
    (by
      intro a ha m
      cases ha
      show ¬ ((128 * m : Nat) * (1 / 128 : ℚ) - 1 / 128 < 1 / 2 ∧ (1 / 2 : ℚ) < (128 * m : Nat) * (1 / 128))
      push_cast
      rintro ⟨h1, h2⟩
      have h3 : (m : ℚ) < 1 := by linarith
      have h4 : m = 0 := by
        have : m < 1 := by exact_mod_cast h3
        omega
      subst h4
      norm_num at h2) hz
  have ht : ∀ j : Nat, ((128 * (0 + humMail.length) + j : Nat) : ℚ) * studio.dt = 1 + j / 128 := by
    intro j
    show ((128 * (0 + 1) + j : Nat) : ℚ) * (1 / 128) = _
    push_cast; ring
  constructor
  · have h1 := (h 16 (by decide)).1 (1 / 2) rfl (by rw [ht]; norm_num) (by rw [ht]; norm_num)
    rw [ht] at h1
    have h2 : Source.waveform id studio.sine .custom (some [0, 1, 0, -1]) (Int.fract (2 * (1 + (16 : Nat) / 128 - 1 / 2)))
        (2 * studio.dt) = some (1 : ℚ) := by decide +kernel
    exact (Option.some.inj (h1.symm.trans h2))
  · intro j h64 hj
    refine (h j hj).2 (.inr ⟨3 / 2, rfl, ?_⟩)
    rw [ht]
    have : (64 : ℚ) ≤ j := by exact_mod_cast h64
    linarith

end Verif.Whole
