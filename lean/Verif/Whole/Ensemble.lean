import Verif.Whole.Program
import Verif.Source.OscTune
import Verif.Source.BufferAsked
import Verif.Param.RateProps

/-!
# C114: a context plays a program of oscillators and constant sources as written

As `Verif.Whole.Program`, with oscillators (`/repo/src/node/oscillator.rs` l.210-277) besides constant sources, in any number and
order. Frequency, detune, offset and gain may have any automation.
-/

namespace Verif.Whole

open Verif Verif.Render Verif.Engine

section
variable {K : Type} [Field K] [LinearOrder K] [IsStrictOrderedRing K] [FloorRing K]

/-! ## Specification -/

/-- the value of a parameter as given to the constructor, and what is scheduled for it, in any order -/
structure Line (K : Type) where
  value : K
  events : List (Param.Ev K K) := []

/-- a parameter: default value, nominal range, value and events, whether it is a-rate -/
structure Setting (K : Type) where
  dflt : K
  mn : K
  mx : K
  line : Line K
  aRate : Bool

/-- the value of the parameter at time `t`: the envelope, within the nominal range -/
def Setting.at (pw : K → K → K) (dt : K) (s : Setting K) (t : K) : K :=
  clampTo s.mn s.mx (Param.envelope pw dt t 0 s.line.value (Param.sort s.line.events))

/-- the value of a k-rate parameter in quantum `q`: that of the automation at the beginning of the quantum -/
def Setting.held (pw : K → K → K) (dt : K) (s : Setting K) (q : Nat) : K :=
  clampTo s.mn s.mx (Param.ideal pw ((q * 128 : Nat) * dt) 0 s.line.value (Param.sort s.line.events))

/-- A recording and how to play it (`AudioBufferSourceOptions` with a buffer of one channel, and the arguments of
`start_at_with_offset_and_duration`). -/
structure Clip (K : Type) where
  bufSr : K
  frames : List K
  looping : Bool := false
  loopStart : K
  loopEnd : K
  offset : K
  duration : WithTop K := ⊤
  rate : Line K
  detune : Line K

/-- constant source with its offset; oscillator with type, periodic wave, frequency and detune; buffer source -/
inductive Instrument (K : Type) where
  | const (offset : Line K)
  | osc (ty : Source.OscType) (wave : Option (List K)) (freq detune : Line K)
  | clip (c : Clip K)

/-- The parameters: `constant_source.rs` l.141-170, `oscillator.rs` l.223-246, `audio_buffer_source.rs` l.172-196. `lo` and `hi` are
the least and the greatest floating point number, `sr` the sample rate. -/
def Instrument.settings (lo hi sr : K) : Instrument K → List (Setting K)
  | .const o => [⟨1, lo, hi, o, true⟩]
  | .osc _ _ f d => [⟨440, -(sr / 2), sr / 2, f, true⟩, ⟨0, -153600, 153600, d, true⟩]
  | .clip c => [⟨0, lo, hi, c.detune, false⟩, ⟨1, lo, hi, c.rate, false⟩]

/-- a note: instrument, gain, start and stop time -/
structure Part (K : Type) where
  instrument : Instrument K
  gain : Line K
  start : K
  stop : Option K := none

/-- the gain parameter -/
def Part.gainSetting (lo hi : K) (p : Part K) : Setting K := ⟨1, lo, hi, p.gain, true⟩

/-- the stop time, if any -/
def Part.stopTime (p : Part K) : WithTop K := p.stop.elim ⊤ fun b => (b : WithTop K)

/-- The wave of a constant source or oscillator at frame `i`. Constant source: the offset between start and stop. Oscillator: see
`Source.tuneAt`, with the computed frequency of `comp` (`frequency * exp2(detune / 1200)`). -/
def Part.wave (pw : K → K → K) (comp : K → K → K) (sine : List K) (lo hi sr : K) (p : Part K) (i : Nat) : K :=
  match p.instrument with
  | .const o => if p.start ≤ i * (1 / sr) ∧ ((i * (1 / sr) : K) : WithTop K) < p.stopTime then
      (⟨1, lo, hi, o, true⟩ : Setting K).at pw (1 / sr) (i * (1 / sr)) else 0
  | .osc ty w f d => Source.tuneAt sine (1 / sr) 128 (if w = none then ty else .custom) w
      (fun k => comp ((⟨440, -(sr / 2), sr / 2, f, true⟩ : Setting K).at pw (1 / sr) (k * (1 / sr)))
        ((⟨0, -153600, 153600, d, true⟩ : Setting K).at pw (1 / sr) (k * (1 / sr)))) p.start p.stopTime i
  | .clip _ => 0

/-- the rate at which a buffer is played at frame `i`; `ex2` is `2^(detune/1200)` -/
def Clip.speed (pw : K → K → K) (ex2 : K → K) (lo hi sr : K) (c : Clip K) (i : Nat) : K :=
  (⟨1, lo, hi, c.rate, false⟩ : Setting K).held pw (1 / sr) (i / 128) * ex2 ((⟨0, lo, hi, c.detune, false⟩ : Setting K).held pw (1 / sr) (i / 128))

/-- what is asked for with a buffer source -/
def Clip.plan (pw : K → K → K) (ex2 : K → K) (lo hi sr : K) (c : Clip K) (start : K) (stop : WithTop K) : Source.Plan K where
  sr := sr
  bufSr := c.bufSr
  dur := c.frames.length / c.bufSr
  looping := c.looping
  loopStart := if c.looping then (Source.loopOf (c.frames.length / c.bufSr) c.loopStart c.loopEnd).1 else 0
  loopEnd := if c.looping then (Source.loopOf (c.frames.length / c.bufSr) c.loopStart c.loopEnd).2 else 0
  start := start
  stop := stop
  duration := c.duration
  offset := c.offset
  rate := c.speed pw ex2 lo hi sr

/-- What the source plays at frame `i` is `v`. A buffer source plays what its plan says (`Source.Plan.Reads`). -/
def Part.Plays (pw : K → K → K) (comp : K → K → K) (ex2 : K → K) (sine : List K) (lo hi sr : K) (p : Part K) (i : Nat) (v : K) : Prop :=
  match p.instrument with
  | .clip c => (c.plan pw ex2 lo hi sr p.start p.stopTime).Reads c.frames i v
  | _ => v = p.wave pw comp sine lo hi sr i

/-- the level of a note at frame `i` -/
def Part.level (pw : K → K → K) (lo hi sr : K) (p : Part K) (i : Nat) : K := (p.gainSetting lo hi).at pw (1 / sr) (i * (1 / sr))

/-- What is heard of the notes at frame `i` is `x`: the sum of what they play times their levels, up to the threshold `thr` of the gain
node for gains near 0 and 1. -/
def Heard (pw : K → K → K) (comp : K → K → K) (ex2 : K → K) (sine : List K) (lo hi sr thr : K) (ps : List (Part K)) (i : Nat) (x : K) : Prop :=
  ∃ ws : List K, List.Forall₂ (fun p w => p.Plays pw comp ex2 sine lo hi sr i w) ps ws ∧
    |x - ((ps.zip ws).map fun y => y.2 * y.1.level pw lo hi sr i).sum| ≤ thr * (ws.map fun w => |w|).sum

/-- What may be played: the events of the parameters are as in `Planned`; the start time is not negative; an oscillator of custom type
has a wave, waves are not empty; the sample rates of buffers are positive. -/
structure Part.Playable (ex : K → K) (pw : K → K → K) (lo hi sr : K) (p : Part K) : Prop where
  planned : ∀ s ∈ p.gainSetting lo hi :: p.instrument.settings lo hi sr, Planned (Param.exact ex pw s.mn s.mx) s.line.value s.line.events
  start : 0 ≤ p.start
  wave : ∀ ty w f d, p.instrument = .osc ty w f d → (∀ x, w = some x → x ≠ []) ∧ (ty = .custom → w ≠ none)
  buffer : ∀ c, p.instrument = .clip c → 0 < c.bufSr

/-- What may be played by buffer sources: the times are valid. What is excluded: values of rate or detune that are set at time 0 or exactly at the beginning of a quantum (see
`Param.C115_negated_boundary`), an empty buffer when looping, a loop that as counted by the code does not fit into the buffer (see
C34), a change of direction of a source that does not loop, a duration for a looping source that plays at the natural rate
(see `Source.C33_negated_duration`), and a start time strictly between the last frame of a quantum and the next quantum
(see `Source.C62_negated_start`). -/
structure Clip.Ok (pw : K → K → K) (ex2 : K → K) (lo hi sr : K) (c : Clip K) (start : K) (stop : WithTop K) : Prop where
  valid : 0 ≤ c.offset ∧ 0 ≤ c.duration ∧ 0 ≤ stop
  times : ∀ l ∈ [c.rate, c.detune], ∀ x ∈ l.events, 0 < x.time
  offGrid : ∀ l ∈ [c.rate, c.detune], Param.OffGrid (1 / sr) 128 (Param.sort l.events)
  frames : c.looping = true → c.frames ≠ []
  forward : c.looping = true → ∀ q, 0 ≤ (⟨1, lo, hi, c.rate, false⟩ : Setting K).held pw (1 / sr) q →
    (c.plan pw ex2 lo hi sr start stop).loopStart * sr ≤ (c.frames.length : K) - 1
  backward : c.looping = true → ∀ q, (⟨1, lo, hi, c.rate, false⟩ : Setting K).held pw (1 / sr) q < 0 →
    (c.plan pw ex2 lo hi sr start stop).loopEnd * sr < c.frames.length
  direction : c.looping = true ∨ (∀ i, 0 ≤ c.speed pw ex2 lo hi sr i) ∨ ∀ i, c.speed pw ex2 lo hi sr i ≤ 0
  duration : c.looping = true → c.duration = ⊤ ∨ c.offset ≠ 0 ∨ c.bufSr ≠ sr ∨ ∀ i, c.speed pw ex2 lo hi sr i ≠ 1
  grid : ∀ j, (c.plan pw ex2 lo hi sr start stop).first = j * 128 → start = ((c.plan pw ex2 lo hi sr start stop).first : K) / sr

/-- the buffer source of a note, if it has one, is as in `Clip.Ok` -/
def Part.Sampled (pw : K → K → K) (ex2 : K → K) (lo hi sr : K) (p : Part K) : Prop :=
  ∀ c, p.instrument = .clip c → c.Ok pw ex2 lo hi sr p.start p.stopTime

/-- for every element something, with counting numbers -/
def each {α β : Type} (F : Nat → Nat → α → List β) : Nat → Nat → List α → List β
  | _, _, [] => []
  | i, τ, x :: xs => F i τ x ++ each F (i + 1) (τ + 1) xs

/-- the processor of the source as created, the first parameter has the id `i` -/
def Instrument.proc (i : Nat) : Instrument K → SProc K Empty
  | .const _ => .const {} i
  | .osc ty _ _ _ => .osc (Source.Osc.new ty none) i (i + 1)
  | .clip c => .buffer c.bufSr (Source.BufSt.new c.looping c.loopStart c.loopEnd) (i + 1) i

/-- the message that the constructor sends -/
def Instrument.mail : Instrument K → List (SMsg K Empty)
  | .const _ => []
  | .osc _ w _ _ => w.toList.map .setWave
  | .clip c => [.buffer [c.frames]]

/-- the message of `start_at`, and of `start_at_with_offset_and_duration` for a buffer source -/
def Part.startMsg (p : Part K) : SMsg K Empty :=
  match p.instrument with
  | .clip c => .start p.start c.offset c.duration
  | _ => .start p.start 0 ⊤

/-- the processor of a parameter as created -/
def Setting.proc (s : Setting K) : SProc K Empty := .param s.dflt s.mn s.mx { intrinsic := s.dflt, current := s.dflt, aRate := s.aRate }

/-- The calls for a note, where `n` is the next id and `τ` the next serial number: the constructor of the source (id of the node; for
each parameter id, registration and value; registration of the node; the queued connections of the parameters; the wave or the buffer),
`GainNode::new`, the connections, `start_at`, `stop_at`, automation. -/
def Part.calls (lo hi sr : K) (n τ : Nat) (p : Part K) : List (Op (SProc K Empty) (SMsg K Empty)) :=
  let ps := p.instrument.settings lo hi sr
  let m := ps.length
  .acquire :: each (fun i t s => [.acquire, .register i s.proc 1 1 ⟨1, 2, 1⟩,
      .post ⟨i, t, 1, 1⟩ (.event { kind := .setValue, value := s.line.value, time := 0 })]) (n + 1) τ ps ++
  [.register n (p.instrument.proc (n + 1)) 0 1 ⟨2, 0, 0⟩] ++
  each (fun i t _ => [.connectHidden ⟨i, t, 1, 1⟩ ⟨n, τ + m, 0, 1⟩ true]) (n + 1) τ ps ++
  p.instrument.mail.map (.post ⟨n, τ + m, 0, 1⟩) ++
  [.acquire, .acquire,
   .register (n + m + 2) (p.gainSetting lo hi).proc 1 1 ⟨1, 2, 1⟩,
   .post ⟨n + m + 2, τ + m + 1, 1, 1⟩ (.event { kind := .setValue, value := p.gain.value, time := 0 }),
   .register (n + m + 1) (.gain (n + m + 2)) 1 1 ⟨2, 0, 0⟩,
   .connectHidden ⟨n + m + 2, τ + m + 1, 1, 1⟩ ⟨n + m + 1, τ + m + 2, 1, 1⟩ true,
   .connect ⟨n, τ + m, 0, 1⟩ ⟨n + m + 1, τ + m + 2, 1, 1⟩ 0 0,
   .connect ⟨n + m + 1, τ + m + 2, 1, 1⟩ ⟨0, 0, 1, 1⟩ 0 0] ++
  (p.startMsg :: p.stop.toList.map .stop).map (.post ⟨n, τ + m, 0, 1⟩) ++
  each (fun i t s => (s.line.events.map .event).map (.post ⟨i, t, 1, 1⟩)) (n + 1) τ ps ++
  (p.gain.events.map .event).map (.post ⟨n + m + 2, τ + m + 1, 1, 1⟩)

/-- the number of nodes of a note -/
def Part.size (lo hi sr : K) (p : Part K) : Nat := (p.instrument.settings lo hi sr).length + 3

/-- the calls for all notes -/
def ecalls (lo hi sr : K) : Nat → Nat → List (Part K) → List (Op (SProc K Empty) (SMsg K Empty))
  | _, _, [] => []
  | n, τ, p :: ps => p.calls lo hi sr n τ ++ ecalls lo hi sr (n + p.size lo hi sr) (τ + p.size lo hi sr) ps

/-! ## The messages -/

/-- the messages of the calls -/
def Part.msgs (lo hi sr : K) (n τ : Nat) (p : Part K) : List (Msg (SProc K Empty) (SMsg K Empty)) :=
  let ps := p.instrument.settings lo hi sr
  let m := ps.length
  each (fun i t s => [.register i t s.proc 1 1 ⟨1, 2, 1⟩,
      .post i t (.event { kind := .setValue, value := s.line.value, time := 0 })]) (n + 1) τ ps ++
  ([.register n (τ + m) (p.instrument.proc (n + 1)) 0 1 ⟨2, 0, 0⟩] ++
  (each (fun i t _ => [.connect i t ⟨0, n, none⟩ (τ + m)]) (n + 1) τ ps ++
  (p.instrument.mail.map (.post n (τ + m)) ++
  ([.register (n + m + 2) (τ + m + 1) (p.gainSetting lo hi).proc 1 1 ⟨1, 2, 1⟩,
   .post (n + m + 2) (τ + m + 1) (.event { kind := .setValue, value := p.gain.value, time := 0 }),
   .register (n + m + 1) (τ + m + 2) (.gain (n + m + 2)) 1 1 ⟨2, 0, 0⟩,
   .connect (n + m + 2) (τ + m + 1) ⟨0, n + m + 1, none⟩ (τ + m + 2),
   .connect n (τ + m) ⟨0, n + m + 1, some 0⟩ (τ + m + 2),
   .connect (n + m + 1) (τ + m + 2) ⟨0, 0, some 0⟩ 0] ++
  ((p.startMsg :: p.stop.toList.map .stop).map (.post n (τ + m)) ++
  (each (fun i t s => (s.line.events.map .event).map (.post i t)) (n + 1) τ ps ++
  (p.gain.events.map .event).map (.post (n + m + 2) (τ + m + 1))))))))

def emsgs (lo hi sr : K) : Nat → Nat → List (Part K) → List (Msg (SProc K Empty) (SMsg K Empty))
  | _, _, [] => []
  | n, τ, p :: ps => p.msgs lo hi sr n τ ++ emsgs lo hi sr (n + p.size lo hi sr) (τ + p.size lo hi sr) ps

section
variable {P S M : Type} {sem : Sem P S M} {g : RGraph P S} {α : Type}

theorem Knows.weaken {s : Sys P S M} {chan : List (Msg P M)} {n τ : Nat} {al al' : List Nat} {lv lv' : List Handle} (h : Knows s g chan n τ al lv)
    (h1 : ∀ a ∈ al', a ∈ al) (h2 : ∀ x ∈ lv', x ∈ lv) : Knows s g chan n τ al' lv' :=
  ⟨h.g, h.chan, h.n, h.τ, fun a ha => h.al a (h1 a ha), fun x hx => h.lv x (h2 x hx)⟩

/-- calls that create nothing -/
theorem Knows.each {n τ : Nat} {al : List Nat} {lv : List Handle} {F : Nat → Nat → α → List (Op P M)} {F' : Nat → Nat → α → List (Msg P M)}
    (step : ∀ (i t : Nat) (x : α) (s : Sys P S M) (chan : List (Msg P M)), (⟨i, t, 1, 1⟩ : Handle) ∈ lv → Knows s g chan n τ al lv →
      ∃ s', RGraph.foldOpt (Sys.step sem) (F i t x) s = some s' ∧ Knows s' g (chan ++ F' i t x) n τ al lv) :
    ∀ (xs : List α) (i t : Nat) {s : Sys P S M} {chan : List (Msg P M)}, (∀ k, k < xs.length → (⟨i + k, t + k, 1, 1⟩ : Handle) ∈ lv) →
      Knows s g chan n τ al lv →
      ∃ s', RGraph.foldOpt (Sys.step sem) (each F i t xs) s = some s' ∧ Knows s' g (chan ++ each F' i t xs) n τ al lv := by
  intro xs
  induction xs with
  | nil => intro i t s chan _ h; exact ⟨s, rfl, by simpa [Whole.each] using h⟩
  | cons x xs ih =>
    intro i t s chan hl h
    obtain ⟨s1, e1, h1⟩ := step i t x s chan (hl 0 (by simp)) h
    obtain ⟨s2, e2, h2⟩ := ih (i + 1) (t + 1) (fun k hk => by
      have := hl (k + 1) (by simpa using hk)
      rwa [show i + (k + 1) = i + 1 + k by omega, show t + (k + 1) = t + 1 + k by omega] at this) h1
    exact ⟨s2, by rw [Whole.each, foldOpt_append, e1]; exact e2, by simpa [Whole.each] using h2⟩

end

theorem settings_run {S : Type} {sem : Sem (SProc K Empty) S (SMsg K Empty)} {g : RGraph (SProc K Empty) S} (hr : g.reclaimed = []) {n : Nat}
    {lv : List Handle} : ∀ (ps : List (Setting K)) {s : Sys (SProc K Empty) S (SMsg K Empty)} {chan : List (Msg (SProc K Empty) (SMsg K Empty))}
    {i t : Nat}, n < i → Knows s g chan i t [n] lv →
    ∃ s', RGraph.foldOpt (Sys.step sem) (each (fun i t s => [.acquire, .register i s.proc 1 1 ⟨1, 2, 1⟩,
        .post ⟨i, t, 1, 1⟩ (.event { kind := .setValue, value := s.line.value, time := 0 })]) i t ps) s = some s' ∧
      ∃ lv', Knows s' g (chan ++ each (fun i t s => [.register i t s.proc 1 1 ⟨1, 2, 1⟩,
        .post i t (.event { kind := .setValue, value := s.line.value, time := 0 })]) i t ps) (i + ps.length) (t + ps.length) [n] lv' ∧
        (∀ x ∈ lv, x ∈ lv') ∧ ∀ k, k < ps.length → (⟨i + k, t + k, 1, 1⟩ : Handle) ∈ lv' := by
  intro ps
  induction ps generalizing lv with
  | nil => intro s chan i t _ h; exact ⟨s, rfl, lv, by simpa [each] using h, fun _ h => h, fun k hk => absurd hk (by simp)⟩
  | cons p ps ih =>
    intro s chan i t hn h
    obtain ⟨s1, e1, h1⟩ := h.acquire (sem := sem) hr
    obtain ⟨s2, e2, h2⟩ := h1.register (sem := sem) (id := i) (by simp) p.proc 1 1 ⟨1, 2, 1⟩ (al' := [n])
      (by simp; omega)
    obtain ⟨s3, e3, h3⟩ := h2.post (sem := sem) (x := ⟨i, t, 1, 1⟩) (by simp) (.event { kind := .setValue, value := p.line.value, time := 0 })
    obtain ⟨s4, e4, lv', h4, h5, h6⟩ := ih (by omega) h3
    refine ⟨s4, by simp only [each, List.cons_append, List.nil_append, RGraph.foldOpt, e1, e2, e3, e4], lv', ?_, fun x hx => h5 x (by simp [hx]), fun k hk => ?_⟩
    · rw [show i + (p :: ps).length = i + 1 + ps.length by simp; omega, show t + (p :: ps).length = t + 1 + ps.length by simp; omega]
      simpa [each] using h4
    · cases k with
      | zero => exact h5 _ (by simp)
      | succ k =>
        have := h6 k (by simpa using hk)
        rwa [show i + 1 + k = i + (k + 1) by omega, show t + 1 + k = t + (k + 1) by omega] at this

theorem Part.calls_run {S : Type} {sem : Sem (SProc K Empty) S (SMsg K Empty)} {s : Sys (SProc K Empty) S (SMsg K Empty)}
    {g : RGraph (SProc K Empty) S} {chan : List (Msg (SProc K Empty) (SMsg K Empty))} {n τ : Nat} (lo hi sr : K) (p : Part K)
    (h : Knows s g chan n τ [] [⟨0, 0, 1, 1⟩]) (hr : g.reclaimed = []) :
    ∃ s', RGraph.foldOpt (Sys.step sem) (p.calls lo hi sr n τ) s = some s' ∧
      Knows s' g (chan ++ p.msgs lo hi sr n τ) (n + p.size lo hi sr) (τ + p.size lo hi sr) [] [⟨0, 0, 1, 1⟩] := by
  unfold Part.calls Part.msgs Part.size
  generalize p.instrument.settings lo hi sr = ps
  dsimp only
  generalize hm : ps.length = m
  obtain ⟨s1, e1, h1⟩ := h.acquire (sem := sem) hr
  obtain ⟨s2, e2, lv, h2, hd, hlv⟩ := settings_run (sem := sem) hr ps (Nat.lt_succ_self n) h1
  have hdest := hd ⟨0, 0, 1, 1⟩ (by simp)
  rw [hm] at h2 hlv
  obtain ⟨s3, e3, h3⟩ := h2.register (sem := sem) (id := n) (by simp) (p.instrument.proc (n + 1)) 0 1 ⟨2, 0, 0⟩ (al' := []) (by simp)
  obtain ⟨s4, e4, h4⟩ := h3.each (sem := sem) (F := fun i t _ => [.connectHidden ⟨i, t, 1, 1⟩ ⟨n, τ + m, 0, 1⟩ true])
    (F' := fun i t _ => [.connect i t ⟨0, n, none⟩ (τ + m)]) (fun i t _ s chan hx h => by
      obtain ⟨s', e', h'⟩ := h.connectHidden (sem := sem) hx (y := ⟨n, τ + m, 0, 1⟩) (by simp) (by simp) true
      exact ⟨s', by simp only [RGraph.foldOpt, e'], h'⟩) ps (n + 1) τ (fun k hk => by simp [hlv k (by omega)])
  obtain ⟨s5, e5, h5⟩ := h4.posts (sem := sem) (x := ⟨n, τ + m, 0, 1⟩) (by simp) p.instrument.mail
  obtain ⟨s6, e6, h6⟩ := h5.acquire (sem := sem) hr
  obtain ⟨s7, e7, h7⟩ := h6.acquire (sem := sem) hr
  obtain ⟨s8, e8, h8⟩ := h7.register (sem := sem) (id := n + 1 + m + 1) (by simp) (p.gainSetting lo hi).proc 1 1 ⟨1, 2, 1⟩
    (al' := [n + 1 + m]) (by simp)
  obtain ⟨s9, e9, h9⟩ := h8.post (sem := sem) (x := ⟨n + 1 + m + 1, τ + m + 1, 1, 1⟩) (by simp)
    (.event { kind := .setValue, value := p.gain.value, time := 0 })
  obtain ⟨s10, e10, h10⟩ := h9.register (sem := sem) (id := n + 1 + m) (by simp) (.gain (n + 1 + m + 1)) 1 1 ⟨2, 0, 0⟩ (al' := []) (by simp)
  obtain ⟨s11, e11, h11⟩ := h10.connectHidden (sem := sem) (x := ⟨n + 1 + m + 1, τ + m + 1, 1, 1⟩) (y := ⟨n + 1 + m, τ + m + 1 + 1, 1, 1⟩) (by simp)
    (by simp) (by simp) true
  obtain ⟨s12, e12, h12⟩ := h11.connect (sem := sem) (x := ⟨n, τ + m, 0, 1⟩) (y := ⟨n + 1 + m, τ + m + 1 + 1, 1, 1⟩) (o := 0) (i := 0)
    (by simp) (by simp) (by simp) (by simp)
  obtain ⟨s13, e13, h13⟩ := h12.connect (sem := sem) (x := ⟨n + 1 + m, τ + m + 1 + 1, 1, 1⟩) (y := ⟨0, 0, 1, 1⟩) (o := 0) (i := 0)
    (by simp) (by simp [hdest]) (by simp) (by simp)
  obtain ⟨s14, e14, h14⟩ := h13.posts (sem := sem) (x := ⟨n, τ + m, 0, 1⟩) (by simp) (p.startMsg :: p.stop.toList.map .stop)
  obtain ⟨s15, e15, h15⟩ := h14.each (sem := sem) (F := fun i t s => (s.line.events.map SMsg.event).map (.post ⟨i, t, 1, 1⟩))
    (F' := fun i t s => (s.line.events.map SMsg.event).map (.post i t)) (fun i t x s chan hx h => h.posts hx _) ps (n + 1) τ
    (fun k hk => by simp [hlv k (by omega)])
  obtain ⟨s16, e16, h16⟩ := h15.posts (sem := sem) (x := ⟨n + 1 + m + 1, τ + m + 1, 1, 1⟩) (by simp) (p.gain.events.map .event)
  rw [show n + 1 + m = n + m + 1 by omega] at *
  simp only [show n + m + 1 + 1 = n + m + 2 by omega, show τ + m + 1 + 1 = τ + m + 2 by omega] at *
  refine ⟨s16, ?_, h16.g, ?_, by rw [h16.n]; rfl, by rw [h16.τ]; rfl, by simp, fun x hx => h16.lv x (by simp at hx; simp [hx, hdest])⟩
  · rw [foldOpt_append, foldOpt_append, foldOpt_append, foldOpt_append, foldOpt_append, foldOpt_append, foldOpt_append]
    simp only [RGraph.foldOpt, e1, e2, e3, e4, e5, e6, e7, e8, e9, e10, e11, e12, e13, e14, e15, Option.bind_some]
    exact e16
  · rw [h16.chan]
    simp only [List.append_assoc, List.cons_append, List.nil_append]

theorem ecalls_run {S : Type} {sem : Sem (SProc K Empty) S (SMsg K Empty)} {g : RGraph (SProc K Empty) S} (lo hi sr : K)
    (hr : g.reclaimed = []) (ps : List (Part K)) : ∀ {s : Sys (SProc K Empty) S (SMsg K Empty)}
    {chan : List (Msg (SProc K Empty) (SMsg K Empty))} {n τ : Nat}, Knows s g chan n τ [] [⟨0, 0, 1, 1⟩] →
    ∃ s', RGraph.foldOpt (Sys.step sem) (ecalls lo hi sr n τ ps) s = some s' ∧ s'.g = g ∧ s'.chan = chan ++ emsgs lo hi sr n τ ps := by
  induction ps with
  | nil => intro s chan n τ h; exact ⟨s, rfl, h.g, by simp [h.chan, emsgs]⟩
  | cons p ps ih =>
    intro s chan n τ h
    obtain ⟨s1, e1, h1⟩ := p.calls_run (sem := sem) lo hi sr h hr
    obtain ⟨s2, e2, h2, h3⟩ := ih h1
    exact ⟨s2, by rw [ecalls, foldOpt_append, e1]; exact e2, h2, by rw [h3, emsgs, List.append_assoc]⟩

/-! ## The graph -/

/-- one thing for every element -/
def eachOne {α β : Type} (f : Nat → Nat → α → β) (i t : Nat) (xs : List α) : List β := each (fun i t x => [f i t x]) i t xs

section
variable {α β : Type} {f : Nat → Nat → α → β}

theorem eachOne_cons (i t : Nat) (x : α) (xs : List α) : eachOne f i t (x :: xs) = f i t x :: eachOne f (i + 1) (t + 1) xs := rfl

theorem eachOne_get : ∀ (xs : List α) (i t k : Nat), (eachOne f i t xs)[k]? = (xs[k]?).map (f (i + k) (t + k)) := by
  intro xs
  induction xs with
  | nil => intro i t k; simp [eachOne, each]
  | cons x xs ih =>
    intro i t k
    rw [eachOne_cons]
    cases k with
    | zero => simp
    | succ k =>
      rw [List.getElem?_cons_succ, ih, List.getElem?_cons_succ, show i + 1 + k = i + (k + 1) by omega, show t + 1 + k = t + (k + 1) by omega]

theorem eachOne_length : ∀ (xs : List α) (i t : Nat), (eachOne f i t xs).length = xs.length := by
  intro xs
  induction xs with
  | nil => intro i t; rfl
  | cons x xs ih => intro i t; rw [eachOne_cons, List.length_cons, ih, List.length_cons]

end

/-- the graph is `g` but for the nodes from `n` on, which are those of the list -/
structure Built {P S : Type} (g : RGraph P S) (n : Nat) (l : List (Option (Render.Node P S))) (g' : RGraph P S) : Prop where
  slot : ∀ j, g'.slot j = if n ≤ j ∧ j < n + l.length then (l[j - n]?).join else g.slot j
  cap : g.cap ≤ g'.cap
  caps : ∀ (r : Nat) (x : Render.Node P S), l[r]? = some (some x) → n + r < g'.cap

section
variable {P S M : Type} {sem : Sem P S M} {g g' : RGraph P S} {n : Nat} {l : List (Option (Render.Node P S))} {r : Nat} {x : Render.Node P S}

theorem Built.get (h : Built g n l g') (hr : l[r]? = some (some x)) : g'.get (n + r) = some x := by
  have hlt : r < l.length := (List.getElem?_eq_some_iff.1 hr).1
  unfold RGraph.get
  rw [if_pos (h.caps r x hr), h.slot, if_pos ⟨by omega, by omega⟩, show n + r - n = r by omega, hr]
  rfl

theorem Built.put (h : Built g n l g') (hr : r < l.length) {cap : Nat} (hc : g'.cap ≤ cap) (hn : n + r < cap) (o : List Nat) (rc : List Nat) :
    Built g n (l.set r (some x)) { cap := cap, slot := fun j => if j = n + r then some x else g'.slot j, ordered := o, reclaimed := rc } := by
  refine ⟨fun j => ?_, h.cap.trans hc, fun k y hk => ?_⟩
  · simp only
    by_cases hj : j = n + r
    · rw [if_pos hj, List.length_set, if_pos ⟨by omega, by omega⟩, hj, show n + r - n = r by omega, List.getElem?_set_self hr]
      rfl
    · rw [if_neg hj, h.slot, List.length_set]
      by_cases hb : n ≤ j ∧ j < n + l.length
      · rw [if_pos hb, if_pos hb, List.getElem?_set_ne (by omega)]
      · rw [if_neg hb, if_neg hb]
  · simp only
    by_cases hkr : r = k
    · rw [← hkr]; exact hn
    · rw [List.getElem?_set_ne hkr] at hk
      exact lt_of_lt_of_le (h.caps k y hk) hc

theorem Built.register (h : Built g n l g') (hr : r < l.length) (tag : Nat) (p : P) (nin nout : Nat) (cfg : Cfg) :
    ∃ g'', g'.handle sem (.register (n + r) tag p nin nout cfg) = some g'' ∧ Built g n (l.set r (some (fresh sem tag p nin nout cfg []))) g'' :=
  ⟨_, handle_register g' (n + r) tag p nin nout cfg, h.put hr (le_max_right _ _) (lt_of_lt_of_le (Nat.lt_succ_self _) (le_max_left _ _)) _ _⟩

theorem Built.connect (h : Built g n l g') (hx : l[r]? = some (some x)) (st dt : Nat) (e : Edge) :
    ∃ g'', g'.handle sem (.connect (n + r) st e dt) = some g'' ∧ Built g n (l.set r (some { x with edges := x.edges ++ [e] })) g'' ∧
      g''.ordered = [] :=
  ⟨_, handle_connect (h.get hx), h.put (List.getElem?_eq_some_iff.1 hx).1 le_rfl (h.caps r x hx) _ _, rfl⟩

theorem Built.posts (h : Built g n l g') (hx : l[r]? = some (some x)) (tag : Nat) {ms : List M} {p : P}
    (hp : RGraph.foldOpt sem.onmessage ms x.proc = some p) :
    ∃ g'', RGraph.foldOpt (RGraph.handle sem) (ms.map (.post (n + r) tag)) g' = some g'' ∧
      Built g n (l.set r (some { x with proc := p })) g'' ∧ g''.ordered = g'.ordered :=
  ⟨_, handle_posts ms (h.get hx) hp, h.put (List.getElem?_eq_some_iff.1 hx).1 le_rfl (h.caps r x hx) _ _, rfl⟩

/-- the same for every element of a list -/
theorem Built.each {α : Type} {F : Nat → Nat → α → List (Msg P M)} {B C : Nat → Nat → α → Option (Render.Node P S)} (R : RGraph P S → RGraph P S → Prop)
    (hR : ∀ a, R a a) (hRt : ∀ a b c, R a b → R b c → R a c) {xs : List α}
    (step : ∀ (g' : RGraph P S) (l : List (Option (Render.Node P S))) (r t : Nat) (x : α), x ∈ xs → Built g n l g' → l[r]? = some (B (n + r) t x) →
      ∃ g'', RGraph.foldOpt (RGraph.handle sem) (F (n + r) t x) g' = some g'' ∧ Built g n (l.set r (C (n + r) t x)) g'' ∧ R g' g'') :
    ∀ (a c : List (Option (Render.Node P S))) (t : Nat) {i : Nat} {g' : RGraph P S}, i = n + a.length → Built g n (a ++ eachOne B i t xs ++ c) g' →
      ∃ g'', RGraph.foldOpt (RGraph.handle sem) (Whole.each F i t xs) g' = some g'' ∧ Built g n (a ++ eachOne C i t xs ++ c) g'' ∧ R g' g'' := by
  induction xs with
  | nil => intro a c t i g' _ h; exact ⟨g', rfl, h, hR _⟩
  | cons x xs ih =>
    intro a c t i g' hi h
    subst hi
    rw [eachOne_cons] at h
    obtain ⟨g1, e1, h1, r1⟩ := step g' _ a.length t x (by simp) h (by simp)
    have hset : (a ++ B (n + a.length) t x :: eachOne B (n + a.length + 1) (t + 1) xs ++ c).set a.length (C (n + a.length) t x) =
        (a ++ [C (n + a.length) t x]) ++ eachOne B (n + a.length + 1) (t + 1) xs ++ c := by
      simp [List.set_append]
    rw [hset] at h1
    obtain ⟨g2, e2, h2, r2⟩ := ih (fun g' l r t y hy => step g' l r t y (by simp [hy])) (a ++ [C (n + a.length) t x]) c (t + 1)
      (i := n + a.length + 1) (by simp; omega) h1
    exact ⟨g2, by rw [Whole.each, foldOpt_append, e1]; exact e2, by rw [eachOne_cons]; simpa using h2, hRt _ _ _ r1 r2⟩

end

/-- a parameter after scheduling -/
def Setting.plan (s : Setting K) : Param.Proc K K :=
  { intrinsic := s.line.value, current := s.dflt, timeline := Param.setEv s.line.value :: Param.sort s.line.events, aRate := s.aRate }

theorem setting_events (e : Studio K Empty Empty) (d lo hi : K) {f : Nat} (A : Param.Arith K K) (dt : K) (N : Nat) : ∀ (es : List (Param.Ev K K)) {p p' : Param.Proc K K},
    Param.run A dt N ⟨p, f⟩ (es.map .event) = .ok ⟨p', f⟩ →
    RGraph.foldOpt e.onmessage (es.map .event) (.param d lo hi p : SProc K Empty) = some (.param d lo hi p') := by
  intro es
  induction es with
  | nil => intro p p' h; cases h; rfl
  | cons x es ih =>
    intro p p' h
    simp only [List.map_cons, Param.run, Param.step] at h
    cases hh : Param.handle p x with
    | ok p1 =>
      rw [hh] at h
      simp only [Param.Res.bind] at h
      simp only [List.map_cons, RGraph.foldOpt, Studio.onmessage, hh, resOpt, Option.map_some]
      exact ih h
    | panic => rw [hh] at h; cases h
    | fuel => rw [hh] at h; cases h

/-- scheduling does not depend on the rate -/
theorem events_slow {A : Param.Arith K K} {dt : K} {N f : Nat} (bf : List K) (c : K) : ∀ (es : List (Param.Ev K K)) {p p' : Param.Proc K K},
    Param.run A dt N ⟨p, f⟩ (es.map .event) = .ok ⟨p', f⟩ → Param.run A dt N ⟨p.slow bf c, f⟩ (es.map .event) = .ok ⟨p'.slow bf c, f⟩ := by
  intro es
  induction es with
  | nil => intro p p' h; cases h; rfl
  | cons x es ih =>
    intro p p' h
    simp only [List.map_cons, Param.run, Param.step, Param.handle_slow] at h ⊢
    cases hh : Param.handle p x with
    | ok p1 =>
      rw [hh] at h
      simp only [Param.Res.bind, Param.Res.map] at h ⊢
      exact ih h
    | panic => rw [hh] at h; cases h
    | fuel => rw [hh] at h; cases h

/-- scheduling for a new parameter -/
theorem Setting.run_new {A : Param.Arith K K} {dt : K} {N : Nat} (s : Setting K) (h : Planned A s.line.value s.line.events) :
    Param.run A dt N { p := { intrinsic := s.dflt, current := s.dflt, aRate := s.aRate } }
      (.event (Param.setEv s.line.value) :: s.line.events.map .event) = .ok { p := s.plan } := by
  have := Param.run_new (A := A) (dt := dt) (count := N) s.dflt s.dflt s.line.value (es := s.line.events)
    (fun x hx => h.schedule.simple x (by simp [Param.mem_sort.2 hx])) h.pos
  unfold Setting.plan
  cases hr : s.aRate with
  | true => exact this
  | false => exact events_slow (A := A) (dt := dt) (N := N) (f := 0) [] s.dflt (Param.setEv s.line.value :: s.line.events) this

theorem Setting.mail {A : Param.Arith K K} (s : Setting K) (h : Planned A s.line.value s.line.events) (e : Studio K Empty Empty) :
    ∃ p1, RGraph.foldOpt e.onmessage [.event { kind := .setValue, value := s.line.value, time := 0 }] s.proc = some p1 ∧
      RGraph.foldOpt e.onmessage (s.line.events.map .event) p1 = some (.param s.dflt s.mn s.mx s.plan) := by
  have := s.run_new (dt := 1) (N := 1) h
  have := setting_events e s.dflt s.mn s.mx A 1 1 (Param.setEv s.line.value :: s.line.events) (f := 0) this
  rw [List.map_cons, show (SMsg.event (Param.setEv s.line.value) :: s.line.events.map SMsg.event : List (SMsg K Empty)) =
    [SMsg.event (Param.setEv s.line.value)] ++ s.line.events.map SMsg.event from rfl, foldOpt_append] at this
  obtain ⟨p1, h1, h2⟩ := Option.bind_eq_some_iff.1 this
  exact ⟨p1, h1, h2⟩

/-- the processor of the source after scheduling -/
def Part.source (p : Part K) (i : Nat) : SProc K Empty :=
  match p.instrument with
  | .const _ => .const { start := (p.start : WithTop K), stop := p.stopTime } i
  | .osc ty w _ _ => .osc { (Source.Osc.new ty none : Source.Osc K) with
      ty := if w = none then ty else .custom, wave := w, start := (p.start : WithTop K), stop := p.stopTime } i (i + 1)
  | .clip c => .buffer c.bufSr { (Source.BufSt.new c.looping c.loopStart c.loopEnd : Source.BufSt K) with
      buffer := some [c.frames], start := (p.start : WithTop K), stop := p.stopTime, offset := c.offset, duration := c.duration,
      loopStart := min (max c.loopStart 0) (c.frames.length / c.bufSr),
      loopEnd := if c.loopEnd ≤ 0 ∨ c.frames.length / c.bufSr < c.loopEnd then c.frames.length / c.bufSr else c.loopEnd } (i + 1) i

/-- the loop points as clamped -/
theorem Part.source_clip (e : Studio K Empty Empty) (p : Part K) {c : Clip K} (hins : p.instrument = .clip c) (hb : 0 < c.bufSr) (i : Nat) :
    p.source i = .buffer c.bufSr { (Source.BufSt.clampLoop (e.bufEnv c.bufSr)
      { Source.BufSt.new c.looping c.loopStart c.loopEnd with buffer := some [c.frames] }) with
      start := (p.start : WithTop K), stop := p.stopTime, offset := c.offset, duration := c.duration } (i + 1) i := by
  have hbs : 0 < (e.bufEnv c.bufSr).bufSr := hb
  have hd : 0 ≤ Source.durationOf (e.bufEnv c.bufSr) [c.frames] := by unfold Source.durationOf; positivity
  have hls : ∀ x d : K, 0 ≤ d → (if x < 0 then 0 else if d < x then d else x) = min (max x 0) d := by
    intro x d hd
    split
    · rename_i h; rw [max_eq_right h.le, min_eq_left hd]
    · rename_i h
      rw [max_eq_left (not_lt.1 h)]
      split
      · rename_i h; rw [min_eq_right h.le]
      · rename_i h; rw [min_eq_left (not_lt.1 h)]
  unfold Part.source
  rw [hins]
  dsimp only
  rw [show min (max c.loopStart 0) ((c.frames.length : K) / c.bufSr) = _ from (hls c.loopStart _ hd).symm]
  rfl

theorem Part.inbox (e : Studio K Empty Empty) (p : Part K) (i : Nat) (hp : ∀ c, p.instrument = .clip c → 0 < c.bufSr) :
    ∃ p1, RGraph.foldOpt e.onmessage p.instrument.mail (p.instrument.proc i) = some p1 ∧
      RGraph.foldOpt e.onmessage (p.startMsg :: p.stop.toList.map .stop) p1 = some (p.source i) := by
  obtain ⟨ins, g, a, z⟩ := p
  cases ins with
  | const o => cases z <;> exact ⟨_, rfl, rfl⟩
  | osc ty w f d => cases w <;> cases z <;> exact ⟨_, rfl, rfl⟩
  | clip c =>
    have hbs : 0 < (e.bufEnv c.bufSr).bufSr := hp c rfl
    have hd : 0 ≤ Source.durationOf (e.bufEnv c.bufSr) [c.frames] := by unfold Source.durationOf; positivity
    have hidem := Source.clampLoop_idem (e.bufEnv c.bufSr)
      (s := { Source.BufSt.new c.looping c.loopStart c.loopEnd with buffer := some [c.frames] }) rfl hd
    have hbu : (Source.BufSt.clampLoop (e.bufEnv c.bufSr)
      { Source.BufSt.new c.looping c.loopStart c.loopEnd with buffer := some [c.frames] }).buffer = some [c.frames] := rfl
    have hstop : (Source.BufSt.clampLoop (e.bufEnv c.bufSr)
      { Source.BufSt.new c.looping c.loopStart c.loopEnd with buffer := some [c.frames] }).stop = ⊤ := rfl
    have hmail : RGraph.foldOpt e.onmessage [.buffer [c.frames]]
        (.buffer c.bufSr (Source.BufSt.new c.looping c.loopStart c.loopEnd) (i + 1) i : SProc K Empty) =
        some (.buffer c.bufSr (Source.BufSt.clampLoop (e.bufEnv c.bufSr)
          { Source.BufSt.new c.looping c.loopStart c.loopEnd with buffer := some [c.frames] }) (i + 1) i) := rfl
    have hsrc : ({ instrument := .clip c, gain := g, start := a, stop := z } : Part K).source i = _ := Part.source_clip e _ rfl (hp c rfl) i
    rw [hsrc]
    generalize Source.BufSt.clampLoop (e.bufEnv c.bufSr)
      { Source.BufSt.new c.looping c.loopStart c.loopEnd with buffer := some [c.frames] } = w at hidem hbu hmail hstop
    refine ⟨_, hmail, ?_⟩
    have hs : e.onmessage (.buffer c.bufSr w (i + 1) i : SProc K Empty) (.start a c.offset c.duration) =
        some (.buffer c.bufSr { w with start := (a : WithTop K), offset := c.offset, duration := c.duration } (i + 1) i) := by
      exact congrArg (fun s => some (SProc.buffer c.bufSr s (i + 1) i)) <| hidem { w with start := (a : WithTop K), offset := c.offset, duration := c.duration } hbu rfl rfl
    have hz : ∀ z : K, e.onmessage (.buffer c.bufSr { w with start := (a : WithTop K), offset := c.offset, duration := c.duration } (i + 1) i : SProc K Empty)
        (.stop z) = some (.buffer c.bufSr
          { w with start := (a : WithTop K), offset := c.offset, duration := c.duration, stop := (z : WithTop K) } (i + 1) i) := by
      intro z
      exact congrArg (fun s => some (SProc.buffer c.bufSr s (i + 1) i)) <| hidem { w with start := (a : WithTop K), offset := c.offset, duration := c.duration, stop := (z : WithTop K) } hbu rfl rfl
    cases z with
    | none =>
      show RGraph.foldOpt e.onmessage [.start a c.offset c.duration] _ = _
      simp only [RGraph.foldOpt, hs]
      rw [hstop]
      rfl
    | some z =>
      show RGraph.foldOpt e.onmessage [.start a c.offset c.duration, .stop z] _ = _
      simp only [RGraph.foldOpt, hs, hz]
      rfl

section
variable {S : Type} (sem : Sem (SProc K Empty) S (SMsg K Empty)) (lo hi sr : K) (n τ : Nat) (p : Part K)

/-- the node of a parameter of the source -/
def Setting.node (src i t : Nat) (s : Setting K) : Render.Node (SProc K Empty) S :=
  fresh sem t (.param s.dflt s.mn s.mx s.plan) 1 1 ⟨1, 2, 1⟩ [⟨0, src, none⟩]

def Part.srcNode : Render.Node (SProc K Empty) S :=
  fresh sem (τ + (p.instrument.settings lo hi sr).length) (p.source (n + 1)) 0 1 ⟨2, 0, 0⟩ [⟨0, n + (p.instrument.settings lo hi sr).length + 1, some 0⟩]

def Part.gainNode : Render.Node (SProc K Empty) S :=
  fresh sem (τ + (p.instrument.settings lo hi sr).length + 2) (.gain (n + (p.instrument.settings lo hi sr).length + 2)) 1 1 ⟨2, 0, 0⟩
    [⟨0, 0, some 0⟩]

def Part.levNode : Render.Node (SProc K Empty) S :=
  fresh sem (τ + (p.instrument.settings lo hi sr).length + 1) (.param 1 lo hi (p.gainSetting lo hi).plan) 1 1 ⟨1, 2, 1⟩
    [⟨0, n + (p.instrument.settings lo hi sr).length + 1, none⟩]

/-- the nodes of a note, from id `n` on -/
def Part.nodes : List (Render.Node (SProc K Empty) S) :=
  [p.srcNode sem lo hi sr n τ] ++ eachOne (Setting.node sem n) (n + 1) τ (p.instrument.settings lo hi sr) ++
    [p.gainNode sem lo hi sr n τ, p.levNode sem lo hi sr n τ]

end

/-- the graph after the messages for a note -/
theorem Part.msgs_run {ex : K → K} {pw : K → K → K} (e : Studio K Empty Empty) (lo hi sr : K) (n τ : Nat) (p : Part K)
    (hp : p.Playable ex pw lo hi sr) (g : RGraph (SProc K Empty) (MSig K e.c.N)) (hg : ∀ j, n ≤ j → g.slot j = none) :
    ∃ g', RGraph.foldOpt (RGraph.handle e.timed.base) (p.msgs lo hi sr n τ) g = some g' ∧
      Built g n ((p.nodes e.timed.base lo hi sr n τ).map some) g' ∧ g'.ordered = [] := by
  have hset : ∀ s ∈ p.instrument.settings lo hi sr, ∃ A, Planned A s.line.value s.line.events := fun s hs => ⟨_, hp.planned s (by simp [hs])⟩
  have hgs : Planned _ (p.gainSetting lo hi).line.value (p.gainSetting lo hi).line.events := hp.planned _ (by simp)
  unfold Part.msgs Part.nodes Part.srcNode Part.gainNode Part.levNode
  generalize p.instrument.settings lo hi sr = ps at hset
  dsimp only
  generalize hm : ps.length = m
  -- at the beginning
  have b0 : Built g n ([none] ++ eachOne (fun _ _ (_ : Setting K) => none) (n + 1) τ ps ++ [none, none]) g := by
    have hnone : ∀ x ∈ [none] ++ eachOne (fun _ _ (_ : Setting K) => (none : Option (Render.Node (SProc K Empty) (MSig K e.c.N)))) (n + 1) τ ps ++ [none, none],
        x = none := by
      intro x hx
      simp only [List.mem_append, List.mem_cons, List.not_mem_nil, or_false] at hx
      rcases hx with (hx | hx) | hx
      · exact hx
      · obtain ⟨k, hk⟩ := List.getElem?_of_mem hx
        rw [eachOne_get] at hk
        obtain ⟨_, _, rfl⟩ := Option.map_eq_some_iff.1 hk
        rfl
      · tauto
    refine ⟨fun j => ?_, le_rfl, fun r x hr => ?_⟩
    · split
      · rename_i hj
        rw [hg j hj.1]
        generalize hgj : ([none] ++ eachOne (fun _ _ (_ : Setting K) => (none : Option (Render.Node (SProc K Empty) (MSig K e.c.N)))) (n + 1) τ ps ++ [none, none])[j - n]? = y
        cases y with
        | none => rfl
        | some y => rw [hnone y (List.mem_of_getElem? hgj)]; rfl
      · rfl
    · cases hnone _ (List.mem_of_getElem? hr)
  -- the parameters of the source
  let mid : Setting K → SProc K Empty := fun s =>
    (RGraph.foldOpt e.timed.base.onmessage [.event { kind := .setValue, value := s.line.value, time := 0 }] s.proc).getD s.proc
  have hmid : ∀ s, (∃ A, Planned A s.line.value s.line.events) →
      RGraph.foldOpt e.timed.base.onmessage [.event { kind := .setValue, value := s.line.value, time := 0 }] s.proc = some (mid s) ∧
      RGraph.foldOpt e.timed.base.onmessage (s.line.events.map .event) (mid s) = some (.param s.dflt s.mn s.mx s.plan) := by
    rintro s ⟨A, hA⟩
    obtain ⟨p1, k1, k2⟩ := s.mail hA e
    have k1' : RGraph.foldOpt e.timed.base.onmessage [.event { kind := .setValue, value := s.line.value, time := 0 }] s.proc = some p1 := k1
    have : mid s = p1 := by simp only [mid, k1', Option.getD_some]
    rw [this]
    exact ⟨k1, k2⟩
  obtain ⟨g1, e1, b1, _⟩ := b0.each (sem := e.timed.base) (F := fun i t s => [.register i t s.proc 1 1 ⟨1, 2, 1⟩,
      .post i t (.event { kind := .setValue, value := s.line.value, time := 0 })])
    (C := fun i t s => some (fresh e.timed.base t (mid s) 1 1 ⟨1, 2, 1⟩ [])) (fun _ _ => True) (fun _ => trivial) (fun _ _ _ _ _ => trivial)
    (fun g' l r t s hs hb hr => by
      have hlt : r < l.length := (List.getElem?_eq_some_iff.1 hr).1
      obtain ⟨g1, e1, b1⟩ := hb.register (sem := e.timed.base) hlt t s.proc 1 1 ⟨1, 2, 1⟩
      obtain ⟨g2, e2, b2, _⟩ := b1.posts (sem := e.timed.base) (r := r) (List.getElem?_set_self hlt) t (hmid s (hset s hs)).1
      refine ⟨g2, by simp only [RGraph.foldOpt, e1]; exact e2, ?_, trivial⟩
      rw [List.set_set] at b2
      exact b2)
    [none] [none, none] τ rfl
  rw [List.length_singleton] at e1 b1
  -- the source
  have hl : ∀ (B : Nat → Nat → Setting K → Option (Render.Node (SProc K Empty) (MSig K e.c.N))) (x y z : Option (Render.Node (SProc K Empty) (MSig K e.c.N))),
      (∀ w, ([x] ++ eachOne B (n + 1) τ ps ++ [y, z]).set 0 w = [w] ++ eachOne B (n + 1) τ ps ++ [y, z]) ∧
      (∀ w, ([x] ++ eachOne B (n + 1) τ ps ++ [y, z]).set (m + 1) w = [x] ++ eachOne B (n + 1) τ ps ++ [w, z]) ∧
      (∀ w, ([x] ++ eachOne B (n + 1) τ ps ++ [y, z]).set (m + 2) w = [x] ++ eachOne B (n + 1) τ ps ++ [y, w]) ∧
      ([x] ++ eachOne B (n + 1) τ ps ++ [y, z])[0]? = some x ∧ ([x] ++ eachOne B (n + 1) τ ps ++ [y, z])[m + 1]? = some y ∧
      ([x] ++ eachOne B (n + 1) τ ps ++ [y, z])[m + 2]? = some z ∧ ([x] ++ eachOne B (n + 1) τ ps ++ [y, z]).length = m + 3 := by
    intro B x y z
    have hle : (eachOne B (n + 1) τ ps).length = m := by rw [eachOne_length, hm]
    refine ⟨fun w => rfl, fun w => ?_, fun w => ?_, rfl, ?_, ?_, by simp [hle]⟩
    · simp [hle]
    · rw [List.set_append_right _ _ (by simp [hle])]
      simp [hle, show m + 2 - (m + 1) = 1 by omega]
    · simp [hle]
    · rw [List.getElem?_append_right (by simp [hle])]
      simp [hle, show m + 2 - (m + 1) = 1 by omega]
  obtain ⟨q1, i1, i2⟩ := p.inbox e (n + 1) hp.buffer
  obtain ⟨g2, e2, b2⟩ := b1.register (sem := e.timed.base) (r := 0) (by rw [(hl _ _ _ _).2.2.2.2.2.2]; omega) (τ + m) (p.instrument.proc (n + 1)) 0 1 ⟨2, 0, 0⟩
  rw [(hl _ _ _ _).1] at b2
  obtain ⟨g3, e3, b3, _⟩ := b2.each (sem := e.timed.base) (F := fun i t s => [.connect i t ⟨0, n, none⟩ (τ + m)])
    (C := fun i t s => some (fresh e.timed.base t (mid s) 1 1 ⟨1, 2, 1⟩ [⟨0, n, none⟩])) (fun _ _ => True) (fun _ => trivial) (fun _ _ _ _ _ => trivial)
    (fun g' l r t s hs hb hr => by
      obtain ⟨g1, e1, b1, _⟩ := hb.connect (sem := e.timed.base) hr t (τ + m) ⟨0, n, none⟩
      exact ⟨g1, by simp only [RGraph.foldOpt, e1], b1, trivial⟩)
    [some (fresh e.timed.base (τ + m) (p.instrument.proc (n + 1)) 0 1 ⟨2, 0, 0⟩ [])] [none, none] τ rfl
  rw [List.length_singleton] at e3 b3
  obtain ⟨g4, e4, b4, _⟩ := b3.posts (sem := e.timed.base) (r := 0) (hl _ _ _ _).2.2.2.1 (τ + m) i1
  rw [(hl _ _ _ _).1] at b4
  -- the gain node
  obtain ⟨g5, e5, b5⟩ := b4.register (sem := e.timed.base) (r := m + 2) (by rw [(hl _ _ _ _).2.2.2.2.2.2]; omega) (τ + m + 1) (p.gainSetting lo hi).proc 1 1 ⟨1, 2, 1⟩
  rw [(hl _ _ _ _).2.2.1] at b5
  obtain ⟨m1, m2⟩ := hmid _ ⟨_, hgs⟩
  obtain ⟨g6, e6, b6, _⟩ := b5.posts (sem := e.timed.base) (r := m + 2) (hl _ _ _ _).2.2.2.2.2.1 (τ + m + 1) m1
  rw [(hl _ _ _ _).2.2.1] at b6
  obtain ⟨g7, e7, b7⟩ := b6.register (sem := e.timed.base) (r := m + 1) (by rw [(hl _ _ _ _).2.2.2.2.2.2]; omega) (τ + m + 2) (.gain (n + m + 2)) 1 1 ⟨2, 0, 0⟩
  rw [(hl _ _ _ _).2.1] at b7
  obtain ⟨g8, e8, b8, _⟩ := b7.connect (sem := e.timed.base) (r := m + 2) (hl _ _ _ _).2.2.2.2.2.1 (τ + m + 1) (τ + m + 2) ⟨0, n + m + 1, none⟩
  rw [(hl _ _ _ _).2.2.1] at b8
  obtain ⟨g9, e9, b9, _⟩ := b8.connect (sem := e.timed.base) (r := 0) (hl _ _ _ _).2.2.2.1 (τ + m) (τ + m + 2) ⟨0, n + m + 1, some 0⟩
  rw [(hl _ _ _ _).1] at b9
  obtain ⟨g10, e10, b10, o10⟩ := b9.connect (sem := e.timed.base) (r := m + 1) (hl _ _ _ _).2.2.2.2.1 (τ + m + 2) 0 ⟨0, 0, some 0⟩
  rw [(hl _ _ _ _).2.1] at b10
  -- scheduling
  obtain ⟨g11, e11, b11, o11⟩ := b10.posts (sem := e.timed.base) (r := 0) (hl _ _ _ _).2.2.2.1 (τ + m) i2
  rw [(hl _ _ _ _).1] at b11
  obtain ⟨g12, e12, b12, o12⟩ := b11.each (sem := e.timed.base) (F := fun i t s => (s.line.events.map SMsg.event).map (.post i t))
    (C := fun i t s => some (Setting.node e.timed.base n i t s)) (fun a b => b.ordered = a.ordered) (fun _ => rfl) (fun _ _ _ h1 h2 => h2.trans h1)
    (fun g' l r t s hs hb hr => by
      obtain ⟨g1, e1, b1, o1⟩ := hb.posts (sem := e.timed.base) hr t (hmid s (hset s hs)).2
      exact ⟨g1, e1, b1, o1⟩)
    [_] _ τ rfl
  rw [List.length_singleton] at e12 b12
  obtain ⟨g13, e13, b13, o13⟩ := b12.posts (sem := e.timed.base) (r := m + 2) (hl _ _ _ _).2.2.2.2.2.1 (τ + m + 1) m2
  rw [(hl _ _ _ _).2.2.1] at b13
  refine ⟨g13, ?_, ?_, by rw [o13, o12, o11, o10]⟩
  · rw [foldOpt_append, e1]
    rw [Option.bind_some]
    rw [foldOpt_append]
    simp only [RGraph.foldOpt, show RGraph.handle e.timed.base g1 (.register n (τ + m) (p.instrument.proc (n + 1)) 0 1 ⟨2, 0, 0⟩) = some g2 from e2, Option.bind_some]
    rw [foldOpt_append, e3]
    rw [Option.bind_some]
    rw [foldOpt_append, show RGraph.foldOpt (RGraph.handle e.timed.base) (p.instrument.mail.map (.post n (τ + m))) g3 = some g4 from e4]
    rw [Option.bind_some]
    rw [foldOpt_append]
    have e6' : RGraph.handle e.timed.base g5 (.post (n + m + 2) (τ + m + 1) (.event { kind := .setValue, value := p.gain.value, time := 0 })) = some g6 := by
      have e6'' := e6
      simp only [List.map_cons, List.map_nil, RGraph.foldOpt] at e6''
      revert e6''
      cases h : RGraph.handle e.timed.base g5 (.post (n + (m + 2)) (τ + m + 1) (.event { kind := .setValue, value := (p.gainSetting lo hi).line.value, time := 0 })) with
      | none => intro h'; cases h'
      | some x => intro h'; rw [← h']; exact h
    simp only [RGraph.foldOpt, show RGraph.handle e.timed.base g4 (.register (n + m + 2) (τ + m + 1) (p.gainSetting lo hi).proc 1 1 ⟨1, 2, 1⟩) = some g5 from e5, e6',
      show RGraph.handle e.timed.base g6 (.register (n + m + 1) (τ + m + 2) (.gain (n + m + 2)) 1 1 ⟨2, 0, 0⟩) = some g7 from e7,
      show RGraph.handle e.timed.base g7 (.connect (n + m + 2) (τ + m + 1) ⟨0, n + m + 1, none⟩ (τ + m + 2)) = some g8 from e8,
      show RGraph.handle e.timed.base g8 (.connect n (τ + m) ⟨0, n + m + 1, some 0⟩ (τ + m + 2)) = some g9 from e9,
      show RGraph.handle e.timed.base g9 (.connect (n + m + 1) (τ + m + 2) ⟨0, 0, some 0⟩ 0) = some g10 from e10, Option.bind_some]
    rw [foldOpt_append, show RGraph.foldOpt (RGraph.handle e.timed.base) ((p.startMsg :: p.stop.toList.map .stop).map (.post n (τ + m))) g10 = some g11 from e11]
    rw [Option.bind_some]
    rw [foldOpt_append, e12, Option.bind_some]
    exact e13
  · have hmap : ∀ (xs : List (Setting K)) (i t : Nat), (eachOne (Setting.node e.timed.base n) i t xs).map some =
        eachOne (fun i t s => some (Setting.node (S := MSig K e.c.N) e.timed.base n i t s)) i t xs := by
      intro xs i t
      apply List.ext_getElem?
      intro k
      rw [List.getElem?_map, eachOne_get, eachOne_get, Option.map_map]
      rfl
    rw [List.map_append, List.map_append, hmap]
    exact b13

end

end Verif.Whole
