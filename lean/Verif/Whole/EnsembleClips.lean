import Verif.Whole.EnsembleProps

/-! # A program with buffer sources (case for C116) -/

namespace Verif.Whole

open Verif

/-- powers, as far as they are needed -/
def pow01 (x t : ℚ) : ℚ := if t = 0 then 1 else x

/-- a studio at 128 frames per second -/
def hall : Studio ℚ Empty Empty := { band with A := Param.exact (fun _ => 0) pow01 }

/-- A buffer of four frames at 64 frames per second, played at half speed with an offset of one frame from 0.5 seconds on, whose
detune changes at 100/128 seconds; a buffer of 200 frames in a loop, from frame 10.5 on; an oscillator. -/
def medley : List (Part ℚ) :=
  [{ instrument := .clip { bufSr := 64, frames := [1, 3, 5, 4], loopStart := 0, loopEnd := 0, offset := 1 / 64, rate := { value := 1 / 2 }, detune := { value := 0, events := [⟨.setValueAtTime, 7, 100 / 128, none⟩] } },
     gain := { value := 1 / 2 }, start := 1 / 2 },
   { instrument := .clip { bufSr := 100, frames := List.replicate 200 2, looping := true, loopStart := 1, loopEnd := 3 / 2, offset := 0, rate := { value := 1 }, detune := { value := 0 } },
     gain := { value := 3 }, start := 21 / 256, stop := some 9 },
   { instrument := .osc .sine none { value := 2 } { value := 0 }, gain := { value := 1 / 2 }, start := 1 / 4 }]

theorem hall_samples : hall.Samples pow01 where
  exact b := ⟨fun a b h => by simpa [hall, band, studio, Studio.bufEnv] using h, fun a h => by simpa [hall, band, studio, Studio.bufEnv] using h⟩
  zero x := if_pos rfl
  one x := if_neg one_ne_zero

theorem medley_playable : ∀ p ∈ medley, p.Playable (fun _ => 0) pow01 (-1000) 1000 hall.sr := by
  have h : ∀ w mn mx : ℚ, Planned (Param.exact (K := ℚ) (fun _ => 0) pow01 mn mx) w [] := fun w mn mx =>
    ⟨⟨by norm_num [Param.Simple, Param.sort], by norm_num [Param.sort], by norm_num [Param.Sorted, Param.sort], by simp, by
      norm_num [Param.sort]⟩, by simp⟩
  intro p hp
  simp only [medley, List.mem_cons, List.not_mem_nil, or_false] at hp
  rcases hp with rfl | rfl | rfl
  · refine ⟨fun s hs => ?_, by norm_num, (fun ty w f d h => by cases h), fun c h => by cases h; norm_num⟩
    simp only [Instrument.settings, Part.gainSetting, List.mem_cons, List.not_mem_nil, or_false] at hs
    rcases hs with rfl | rfl | rfl
    · exact h _ _ _
    · refine ⟨⟨by norm_num [Param.Simple, Param.sort], by norm_num [Param.sort], by norm_num [Param.Sorted, Param.sort], by simp, by
        norm_num [Param.sort]
        exact nofun⟩, by norm_num⟩
    · exact h _ _ _
  · refine ⟨fun s hs => ?_, by norm_num, (fun ty w f d h => by cases h), fun c h => by cases h; norm_num⟩
    simp only [Instrument.settings, Part.gainSetting, List.mem_cons, List.not_mem_nil, or_false] at hs
    rcases hs with rfl | rfl | rfl <;> exact h _ _ _
  · refine ⟨fun s hs => ?_, by norm_num, (fun ty w f d h => by cases h; exact ⟨nofun, nofun⟩), nofun⟩
    simp only [Instrument.settings, Part.gainSetting, List.mem_cons, List.not_mem_nil, or_false] at hs
    rcases hs with rfl | rfl | rfl <;> exact h _ _ _

theorem held_const (w : ℚ) (hw : -1000 ≤ w ∧ w ≤ 1000) (d : ℚ) (q : Nat) (a : Bool) :
    (⟨d, -1000, 1000, { value := w }, a⟩ : Setting ℚ).held pow01 (1 / 128) q = w := by
  simp [Setting.held, Param.sort, Param.ideal, Engine.clampTo, hw.1, hw.2]

theorem medley_sampled : ∀ p ∈ medley, p.Sampled pow01 hall.ex2 (-1000) 1000 hall.sr := by
  have hsr : hall.sr = 128 := rfl
  intro p hp
  simp only [medley, List.mem_cons, List.not_mem_nil, or_false] at hp
  rcases hp with rfl | rfl | rfl
  · intro c h
    cases h
    refine ⟨⟨by norm_num, le_top, le_top⟩, by norm_num, ?_, nofun, nofun, nofun, Or.inr (Or.inl fun i => ?_), nofun, ?_⟩
    · intro l hl
      simp only [List.mem_cons, List.not_mem_nil, or_false] at hl
      rcases hl with rfl | rfl
      · refine ⟨?_, ?_⟩ <;> simp [Param.sort]
      · refine ⟨?_, by simp [Param.sort]⟩
        norm_num [Param.sort, hsr, Param.Ev.isRamp]
        rintro ⟨n, hn⟩
        have : (128 * n : ℚ) = 100 := by push_cast at hn; linarith
        have : 128 * n = 100 := by exact_mod_cast this
        omega
    · unfold Clip.speed
      rw [hsr, held_const _ (by norm_num)]
      norm_num [hall, band, studio]
    · intro j hj
      exfalso
      have : (64 : Nat) = j * 128 := by
        rw [← hj]
        simp only [Source.Plan.first, Clip.plan, hsr]
        norm_num
      omega
  · intro c h
    cases h
    refine ⟨⟨by norm_num, le_top, by simp [Part.stopTime]⟩, by norm_num, ?_, by simp, ?_, ?_, Or.inl rfl, fun _ => Or.inl rfl, ?_⟩
    · intro l hl
      simp only [List.mem_cons, List.not_mem_nil, or_false] at hl
      rcases hl with rfl | rfl <;> refine ⟨?_, ?_⟩ <;> simp [Param.sort]
    · intro _ _ _
      rw [hsr]
      simp only [Clip.plan, Source.loopOf, List.length_replicate]
      norm_num
    · intro _ q hq
      rw [hsr, held_const _ (by norm_num)] at hq
      norm_num at hq
    · intro j hj
      exfalso
      have : (11 : Nat) = j * 128 := by
        rw [← hj]
        simp only [Source.Plan.first, Clip.plan, hsr]
        norm_num
        decide +kernel
      omega
  · nofun

/-- two and a half seconds -/
example := C116_program hall (by show (0 : ℚ) < 128; norm_num) rfl (by show (0 : ℚ) ≤ 1 / 1000000; norm_num) rfl (by simp [hall, band])
  (ex := fun _ => 0) (pw := pow01) (lo := -1000) (hi := 1000) (fun _ _ => rfl) medley medley_playable medley_sampled (fun _ _ _ _ => hall_samples)
  320 (fun _ => false) le_rfl

example (b1 b2 : List ℚ) (h1 : b1.length = 200) (h2 : b2.length = 400) :=
  C116_live hall (by show (0 : ℚ) < 128; norm_num) rfl (by show (0 : ℚ) ≤ 1 / 1000000; norm_num) rfl (by simp [hall, band])
    (ex := fun _ => 0) (pw := pow01) (lo := -1000) (hi := 1000) (fun _ _ => rfl) medley medley_playable medley_sampled (fun _ _ _ _ => hall_samples)
    le_rfl b1 [b2] (by simp [h1, h2])

end Verif.Whole
