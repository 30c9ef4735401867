import Verif.Whole.EnsembleSound
import Verif.Whole.Deliver

/-!
# C114: a context plays a program of oscillators and constant sources as written

The specification (`Part.wave`, `Part.level`) is in `Verif.Whole.Ensemble`.
-/

namespace Verif.Whole

open Verif Verif.Render Verif.Engine

section
variable {K : Type} [Field K] [LinearOrder K] [IsStrictOrderedRing K] [FloorRing K]

theorem each_le {α β γ : Type} {F : Nat → Nat → α → List β} {G : Nat → Nat → α → List γ} (h : ∀ i t x, (F i t x).length ≤ (G i t x).length) :
    ∀ (xs : List α) (i t : Nat), (each F i t xs).length ≤ (each G i t xs).length := by
  intro xs
  induction xs with
  | nil => intro i t; exact le_rfl
  | cons x xs ih =>
    intro i t
    simp only [each, List.length_append]
    exact Nat.add_le_add (h i t x) (ih _ _)

theorem Part.msgs_le (lo hi sr : K) (p : Part K) (n τ : Nat) : (p.msgs lo hi sr n τ).length ≤ (p.calls lo hi sr n τ).length := by
  have h1 := each_le (F := fun i t (s : Setting K) => ([.register i t s.proc 1 1 ⟨1, 2, 1⟩,
      .post i t (.event { kind := .setValue, value := s.line.value, time := 0 })] : List (Msg (SProc K Empty) (SMsg K Empty))))
    (G := fun i t s => ([.acquire, .register i s.proc 1 1 ⟨1, 2, 1⟩,
      .post ⟨i, t, 1, 1⟩ (.event { kind := .setValue, value := s.line.value, time := 0 })] : List (Op (SProc K Empty) (SMsg K Empty))))
    (by simp) (p.instrument.settings lo hi sr) (n + 1) τ
  have h2 := each_le (F := fun i t (_ : Setting K) => ([.connect i t ⟨0, n, none⟩ (τ + (p.instrument.settings lo hi sr).length)] : List (Msg (SProc K Empty) (SMsg K Empty))))
    (G := fun i t _ => ([.connectHidden ⟨i, t, 1, 1⟩ ⟨n, τ + (p.instrument.settings lo hi sr).length, 0, 1⟩ true] : List (Op (SProc K Empty) (SMsg K Empty))))
    (by simp) (p.instrument.settings lo hi sr) (n + 1) τ
  have h3 := each_le (F := fun i t (s : Setting K) => ((s.line.events.map .event).map (.post i t) : List (Msg (SProc K Empty) (SMsg K Empty))))
    (G := fun i t s => ((s.line.events.map .event).map (.post ⟨i, t, 1, 1⟩) : List (Op (SProc K Empty) (SMsg K Empty))))
    (by simp) (p.instrument.settings lo hi sr) (n + 1) τ
  simp only [Part.msgs, Part.calls, List.length_append, List.length_map, List.length_cons, List.length_nil]
  omega

theorem emsgs_le (lo hi sr : K) (ps : List (Part K)) : ∀ n τ, (emsgs lo hi sr n τ ps).length ≤ (ecalls lo hi sr n τ ps).length := by
  induction ps with
  | nil => intro n τ; exact le_rfl
  | cons p ps ih =>
    intro n τ
    simp only [emsgs, ecalls, List.length_append]
    exact Nat.add_le_add (p.msgs_le lo hi sr n τ) (ih _ _)

theorem ensemble_ready (e : Studio K Empty Empty) {ex : K → K} {pw : K → K → K} {lo hi sr : K} (ps : List (Part K))
    (hp : ∀ p ∈ ps, p.Playable ex pw lo hi sr) {k : Nat} (hk : (ecalls lo hi sr 11 1 ps).length ≤ k) :
    ∃ s2, RGraph.foldOpt (Sys.step e.timed.base) (ecalls lo hi sr 11 1 ps ++ List.replicate k .recv)
      (Sys.init e.timed.base .destination ⟨2, 2, 0⟩) = some s2 ∧ EScene e lo hi sr ps s2.g := by
  obtain ⟨s1, a1, a2, a3⟩ := ecalls_run (sem := e.timed.base) lo hi sr rfl ps
    (s := Sys.init e.timed.base .destination ⟨2, 2, 0⟩) (chan := []) (n := 11) (τ := 1)
    ⟨rfl, rfl, rfl, rfl, by simp, by simp [Sys.init]⟩
  rw [List.nil_append] at a3
  obtain ⟨g, b1, b2⟩ := escene_fold (done := []) ps (escene_init e lo hi sr) hp
  rw [List.nil_append] at b2
  obtain ⟨s2, c1, c2⟩ := recv_run (sem := e.timed.base) k (s := s1) (g := g) (by rw [a3]; exact (emsgs_le lo hi sr ps 11 1).trans hk)
    (by rw [a2, a3]; exact b1)
  subst c2
  exact ⟨s2, by rw [foldOpt_append, a1]; exact c1, b2⟩

/-- C116: For every list of notes (constant sources, oscillators and buffer sources, in any order) and every length: the application
creates and connects the nodes of all notes, sets the buffers and schedules everything, then renders. Nothing panics, and at every
frame of both channels there are values, one for each note, that its source must play there, whose sum, each times the envelope of the
gain, is what is heard (up to the threshold of the gain node for gains near 0 and 1). A buffer source must play its buffer at the
position that follows from start time, offset, the playback rates and detunes of the quanta so far and the loop points
(`Source.Plan.Reads`). -/
theorem C116_program (e : Studio K Empty Empty) (hsr : 0 < e.sr) (hN : e.c.N = 128) (h0 : 0 ≤ e.c.thr) (hrd : e.rd = id) (hne : e.sine ≠ [])
    {ex : K → K} {pw : K → K → K} (hA : ∀ mn mx, e.A mn mx = Param.exact ex pw mn mx) {lo hi : K} (ps : List (Part K))
    (hp : ∀ p ∈ ps, p.Playable ex pw lo hi e.sr) (hc : ∀ p ∈ ps, p.Sampled pw e.ex2 lo hi e.sr)
    (he : ∀ p ∈ ps, ∀ c, p.instrument = .clip c → e.Samples pw) (length : Nat) (dead : Nat → Bool) {k : Nat}
    (hk : (ecalls lo hi e.sr 11 1 ps).length ≤ k) :
    ∃ o l r, Thread.offRender (worldSem e.timed stereo) dead 2 length length [] (start e.timed .destination ⟨2, 2, 0⟩)
        [program e.timed.base (ecalls lo hi e.sr 11 1 ps ++ List.replicate k .recv)] = some ([], o) ∧
      o.buffer = [l, r] ∧ l.length = length ∧ r.length = length ∧
      ∀ f, f < length → ∀ b ∈ [l, r], Heard pw e.comp e.ex2 e.sine lo hi e.sr e.c.thr ps f (b.getD f 0) := by
  obtain ⟨s2, h1, h2⟩ := ensemble_ready e ps hp hk
  exact deliver_offline e h1 (by rw [h2.dest]; rfl) (Heard pw e.comp e.ex2 e.sine lo hi e.sr e.c.thr ps)
    (fun q => h2.quantum e hsr hN h0 hrd hne hA hp hc he q) length dead

/-- C116 for a live context: the device gets, frame by frame, what is described in `C116_program`, whatever the sizes of its buffers. -/
theorem C116_live (e : Studio K Empty Empty) (hsr : 0 < e.sr) (hN : e.c.N = 128) (h0 : 0 ≤ e.c.thr) (hrd : e.rd = id) (hne : e.sine ≠ [])
    {ex : K → K} {pw : K → K → K} (hA : ∀ mn mx, e.A mn mx = Param.exact ex pw mn mx) {lo hi : K} (ps : List (Part K))
    (hp : ∀ p ∈ ps, p.Playable ex pw lo hi e.sr) (hc : ∀ p ∈ ps, p.Sampled pw e.ex2 lo hi e.sr)
    (he : ∀ p ∈ ps, ∀ c, p.instrument = .clip c → e.Samples pw) {k : Nat} (hk : (ecalls lo hi e.sr 11 1 ps).length ≤ k) (buf : List K)
    (bufs : List (List K)) (hbufs : ∀ b ∈ buf :: bufs, b.length % 2 = 0) :
    ∃ s' out, Thread.run (worldSem e.timed stereo) 2 (buf :: bufs) (start e.timed .destination ⟨2, 2, 0⟩)
        [program e.timed.base (ecalls lo hi e.sr 11 1 ps ++ List.replicate k .recv)] = some (s', out, []) ∧
      out.length = ((buf :: bufs).map List.length).sum ∧
      ∀ f c, c < 2 → f * 2 + c < out.length → Heard pw e.comp e.ex2 e.sine lo hi e.sr e.c.thr ps f (out.getD (f * 2 + c) 0) := by
  obtain ⟨s2, h1, h2⟩ := ensemble_ready e ps hp hk
  exact deliver_live e h1 (by rw [h2.dest]; rfl) (Heard pw e.comp e.ex2 e.sine lo hi e.sr e.c.thr ps)
    (fun q => h2.quantum e hsr hN h0 hrd hne hA hp hc he q) buf bufs hbufs

/-- C114: For every list of notes (constant sources and oscillators, in any order) and every length: the application creates and
connects the nodes of all notes and schedules everything, then renders. Nothing panics, and the result is a buffer of two channels of
the requested length, which at every frame contain the sum over the notes of the wave of the source times the envelope of the gain (up
to the threshold of the gain node for gains near 0 and 1). The wave of an oscillator is its waveform at the phase that is the
sum of its frequencies so far, with all automation of frequency and detune. The number of `recv` only has to suffice for all
messages. -/
theorem C114_program (e : Studio K Empty Empty) (hsr : 0 < e.sr) (hN : e.c.N = 128) (h0 : 0 ≤ e.c.thr) (hrd : e.rd = id) (hne : e.sine ≠ [])
    {ex : K → K} {pw : K → K → K} (hA : ∀ mn mx, e.A mn mx = Param.exact ex pw mn mx) {lo hi : K} (ps : List (Part K))
    (hp : ∀ p ∈ ps, p.Playable ex pw lo hi e.sr)
    (hps : ∀ p ∈ ps, ∀ c, p.instrument ≠ .clip c) (length : Nat) (dead : Nat → Bool) {k : Nat}
    (hk : (ecalls lo hi e.sr 11 1 ps).length ≤ k) :
    ∃ o l r, Thread.offRender (worldSem e.timed stereo) dead 2 length length [] (start e.timed .destination ⟨2, 2, 0⟩)
        [program e.timed.base (ecalls lo hi e.sr 11 1 ps ++ List.replicate k .recv)] = some ([], o) ∧
      o.buffer = [l, r] ∧ l.length = length ∧ r.length = length ∧
      ∀ f, f < length → ∀ b ∈ [l, r],
        |b.getD f 0 - (ps.map fun p => p.wave pw e.comp e.sine lo hi e.sr f * p.level pw lo hi e.sr f).sum| ≤
          e.c.thr * (ps.map fun p => |p.wave pw e.comp e.sine lo hi e.sr f|).sum := by
  obtain ⟨o, l, r, h1, h2, h3, h4, h5⟩ := C116_program e hsr hN h0 hrd hne hA ps hp (fun p hm c h => absurd h (hps p hm c))
    (fun p hm c h => absurd h (hps p hm c)) length dead hk
  exact ⟨o, l, r, h1, h2, h3, h4, fun f hf b hb => (h5 f hf b hb).waves hps⟩

/-- C114 for a live context: whatever the sizes of the buffers of the device, if the notes have been set up before the first of its
callbacks, the device gets, frame by frame (two samples per frame), the same sum of the notes. -/
theorem C114_live (e : Studio K Empty Empty) (hsr : 0 < e.sr) (hN : e.c.N = 128) (h0 : 0 ≤ e.c.thr) (hrd : e.rd = id) (hne : e.sine ≠ [])
    {ex : K → K} {pw : K → K → K} (hA : ∀ mn mx, e.A mn mx = Param.exact ex pw mn mx) {lo hi : K} (ps : List (Part K))
    (hp : ∀ p ∈ ps, p.Playable ex pw lo hi e.sr) (hps : ∀ p ∈ ps, ∀ c, p.instrument ≠ .clip c) {k : Nat} (hk : (ecalls lo hi e.sr 11 1 ps).length ≤ k) (buf : List K)
    (bufs : List (List K)) (hbufs : ∀ b ∈ buf :: bufs, b.length % 2 = 0) :
    ∃ s' out, Thread.run (worldSem e.timed stereo) 2 (buf :: bufs) (start e.timed .destination ⟨2, 2, 0⟩)
        [program e.timed.base (ecalls lo hi e.sr 11 1 ps ++ List.replicate k .recv)] = some (s', out, []) ∧
      out.length = ((buf :: bufs).map List.length).sum ∧
      ∀ f c, c < 2 → f * 2 + c < out.length →
        |out.getD (f * 2 + c) 0 - (ps.map fun p => p.wave pw e.comp e.sine lo hi e.sr f * p.level pw lo hi e.sr f).sum| ≤
          e.c.thr * (ps.map fun p => |p.wave pw e.comp e.sine lo hi e.sr f|).sum := by
  obtain ⟨s', out, h1, h2, h3⟩ := C116_live e hsr hN h0 hrd hne hA ps hp (fun p hm c h => absurd h (hps p hm c))
    (fun p hm c h => absurd h (hps p hm c)) hk buf bufs hbufs
  exact ⟨s', out, h1, h2, fun f c hc hf => (h3 f c hc hf).waves hps⟩

end

/-! ## A case that meets the hypotheses -/

/-- a studio at 128 frames per second with a coarse sine table; `comp` without detune -/
def band : Studio ℚ Empty Empty := { studio with sine := [0, 1, 0, -1] }

/-- A sine whose frequency rises from 2 to 4 within a second, from 0.25 seconds on, at half gain; a constant source from 1 to 2
seconds; a custom wave of two points. -/
def trio : List (Part ℚ) :=
  [{ instrument := .osc .sine none { value := 2, events := [⟨.linear, 4, 1, none⟩] } { value := 0 }, gain := { value := 1 / 2 }, start := 1 / 4 },
   { instrument := .const { value := 3 }, gain := { value := 1 }, start := 1, stop := some 2 },
   { instrument := .osc .sine (some [1, -1]) { value := 1 } { value := 0 }, gain := { value := 2 }, start := 0 }]

theorem trio_playable : ∀ p ∈ trio, p.Playable (fun _ => 0) (fun _ _ => 0) (-1000) 1000 band.sr := by
  have h : ∀ w mn mx : ℚ, Planned (Param.exact (K := ℚ) (fun _ => 0) (fun _ _ => 0) mn mx) w [] := fun w mn mx =>
    ⟨⟨by norm_num [Param.Simple, Param.sort], by norm_num [Param.sort], by norm_num [Param.Sorted, Param.sort], by simp, by
      norm_num [Param.sort]⟩, by simp⟩
  intro p hp
  simp only [trio, List.mem_cons, List.not_mem_nil, or_false] at hp
  rcases hp with rfl | rfl | rfl
  · refine ⟨fun s hs => ?_, by norm_num, fun ty w f d h => by cases h; exact ⟨nofun, nofun⟩, nofun⟩
    simp only [Instrument.settings, Part.gainSetting, List.mem_cons, List.not_mem_nil, or_false] at hs
    rcases hs with rfl | rfl | rfl
    · exact h _ _ _
    · refine ⟨⟨by norm_num [Param.Simple, Param.sort], by norm_num [Param.sort], by norm_num [Param.Sorted, Param.sort], by simp, by
        norm_num [Param.sort]
        exact nofun⟩, by norm_num⟩
    · exact h _ _ _
  · refine ⟨fun s hs => ?_, by norm_num, (fun ty w f d h => by cases h), nofun⟩
    simp only [Instrument.settings, Part.gainSetting, List.mem_cons, List.not_mem_nil, or_false] at hs
    rcases hs with rfl | rfl <;> exact h _ _ _
  · refine ⟨fun s hs => ?_, by norm_num, fun ty w f d h => by cases h; exact ⟨fun x hx => by cases hx; simp, nofun⟩, nofun⟩
    simp only [Instrument.settings, Part.gainSetting, List.mem_cons, List.not_mem_nil, or_false] at hs
    rcases hs with rfl | rfl | rfl <;> exact h _ _ _

theorem trio_plain : ∀ p ∈ trio, ∀ c, p.instrument ≠ .clip c := by simp [trio]

/-- the wave of each note at some frames -/
example : ([10, 33, 200] : List Nat).map (fun i => trio.map fun p => p.wave (fun _ _ => 0) band.comp band.sine (-1000) 1000 128 i) =
    [[0, 0, 11 / 16], [5 / 64, 0, -1 / 32], [-93 / 128, 3, -3 / 4]] := by decide +kernel

/-- two and a half seconds -/
example := C114_program band (by show (0 : ℚ) < 128; norm_num) rfl (by show (0 : ℚ) ≤ 1 / 1000000; norm_num) rfl (by simp [band])
  (ex := fun _ => 0) (pw := fun _ _ => 0) (lo := -1000) (hi := 1000) (fun _ _ => rfl) trio trio_playable trio_plain 320 (fun _ => false) le_rfl

example (b1 b2 : List ℚ) (h1 : b1.length = 200) (h2 : b2.length = 400) :=
  C114_live band (by show (0 : ℚ) < 128; norm_num) rfl (by show (0 : ℚ) ≤ 1 / 1000000; norm_num) rfl (by simp [band])
    (ex := fun _ => 0) (pw := fun _ _ => 0) (lo := -1000) (hi := 1000) (fun _ _ => rfl) trio trio_playable trio_plain le_rfl b1 [b2] (by simp [h1, h2])

end Verif.Whole
