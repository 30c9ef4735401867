import Verif.Node.Quantum
import Verif.Mix.Model
import Mathlib.Analysis.SpecialFunctions.Trigonometric.Basic

/-!
# C41: stereo panner

Models `get_stereo_gains` and `StereoPannerRenderer::process` (`/repo/src/node/stereo_panner.rs` l.74-79, l.219-317)
over the reals: rounding, and the error of the `sin` of `f32`, are not modelled. `N` is the number of frames. The
pan has one value for the quantum or one per frame.
-/

namespace Verif.Node

open Real

/-- `get_stereo_gains`, l.74-79 -/
noncomputable def stereoGains (x : ℝ) : ℝ × ℝ := (sin ((1 - x) * π / 2), sin (x * π / 2))

/-- one frame of a mono input, l.244-270 -/
noncomputable def panMono (pan s : ℝ) : ℝ × ℝ :=
  let x := (pan + 1) * 0.5
  let g := stereoGains x
  (s * g.1, s * g.2)

/-- one frame of a stereo input, l.271-312 -/
noncomputable def panStereo (pan l r : ℝ) : ℝ × ℝ :=
  if pan ≤ 0 then
    let g := stereoGains (pan + 1)
    (r * g.1 + l, r * g.2)
  else
    let g := stereoGains pan
    (l * g.1, l * g.2 + r)

/-- the value of the pan at frame `f`: `pan_values.len() == 1` or zipped -/
noncomputable def panAt (pan : List ℝ) (f : Nat) : ℝ := if pan.length = 1 then pan.getD 0 0 else pan.getD f 0

/-- `process`, l.219-317; `none` is the panic of l.313 -/
noncomputable def panner (N : Nat) (pan : List ℝ) (input : Quantum ℝ) : Option (Quantum ℝ) :=
  if isSilent input then some silence
  else
    match input with
    | [] => some (setChannels silence 2)
    | [m] =>
      some [some ((List.range N).map fun f => (panMono (panAt pan f) ((m.data N).getD f 0)).1),
        some ((List.range N).map fun f => (panMono (panAt pan f) ((m.data N).getD f 0)).2)]
    | [l, r] =>
      some [some ((List.range N).map fun f => (panStereo (panAt pan f) ((l.data N).getD f 0) ((r.data N).getD f 0)).1),
        some ((List.range N).map fun f => (panStereo (panAt pan f) ((l.data N).getD f 0) ((r.data N).getD f 0)).2)]
    | _ => none

theorem gains_eq (x : ℝ) : stereoGains x = (cos (x * π / 2), sin (x * π / 2)) := by
  unfold stereoGains
  rw [show (1 - x) * π / 2 = π / 2 - x * π / 2 by ring, sin_pi_div_two_sub]

/-- C41: the gains have constant power for every position. -/
theorem C41_equal_power (x : ℝ) : (stereoGains x).1 ^ 2 + (stereoGains x).2 ^ 2 = 1 := by
  rw [gains_eq]
  exact cos_sq_add_sin_sq _

/-- The gains are never negative. -/
theorem C41_gains_nonneg {x : ℝ} (h0 : 0 ≤ x) (h1 : x ≤ 1) : 0 ≤ (stereoGains x).1 ∧ 0 ≤ (stereoGains x).2 := by
  have hp := pi_pos
  constructor
  · exact sin_nonneg_of_nonneg_of_le_pi (by have : 0 ≤ 1 - x := by linarith
                                            positivity) (by nlinarith)
  · exact sin_nonneg_of_nonneg_of_le_pi (by positivity) (by nlinarith)

/-- Specification: `p` is the pan in frame `f`; one value stands for all frames. -/
def PanIs (N : Nat) (pan : List ℝ) (f : Nat) (p : ℝ) : Prop := pan = [p] ∨ (pan.length = N ∧ pan[f]? = some p)

theorem PanIs.panAt {N : Nat} {pan : List ℝ} {f : Nat} {p : ℝ} (hf : f < N) (h : PanIs N pan f p) : panAt pan f = p := by
  unfold Node.panAt
  rcases h with h | ⟨h1, h2⟩
  · subst h; simp
  · by_cases h : pan.length = 1
    · have : f = 0 := by omega
      subst this
      rw [if_pos h, List.getD_eq_getElem?_getD, h2]; rfl
    · rw [if_neg h, List.getD_eq_getElem?_getD, h2]; rfl

/-- C41: mono input. Left and right are the input times gains with constant power; at -1 everything is left, at 1
everything is right. -/
theorem C41_mono (N : Nat) (pan : List ℝ) (m : Chan ℝ) (r : Quantum ℝ)
    (h : panner N pan [m] = some r) (f : Nat) (hf : f < N) (p : ℝ) (hp : PanIs N pan f p) :
    sample r 0 f ^ 2 + sample r 1 f ^ 2 = sample [m] 0 f ^ 2 ∧
    (p = -1 → sample r 0 f = sample [m] 0 f ∧ sample r 1 f = 0) ∧
    (p = 1 → sample r 0 f = 0 ∧ sample r 1 f = sample [m] 0 f) ∧
    (p = 0 → sample r 0 f = sample r 1 f) := by
  rw [← hp.panAt hf]
  unfold panner at h
  split at h
  · rename_i hs
    injection h with h
    subst h
    simp only [sample_silence, sample_of_isSilent hs]
    simp
  · injection h with h
    subst h
    have hm : sample [m] 0 f = (m.data N).getD f 0 := by
      rw [data_getD]
      unfold sample
      simp only [List.getElem?_cons_zero]
      cases m <;> rfl
    rw [hm]
    have e0 : ∀ (a b : Nat → ℝ), sample [some ((List.range N).map a), some ((List.range N).map b)] 0 f = a f := by
      intro a b; simp [sample, hf]
    have e1 : ∀ (a b : Nat → ℝ), sample [some ((List.range N).map a), some ((List.range N).map b)] 1 f = b f := by
      intro a b; simp [sample, hf]
    rw [e0, e1]
    generalize (m.data N).getD f 0 = x
    unfold panMono
    simp only [gains_eq]
    refine ⟨?_, fun hp => ?_, fun hp => ?_, fun hp => ?_⟩
    · have := cos_sq_add_sin_sq ((panAt pan f + 1) * 0.5 * π / 2)
      nlinarith [this]
    · rw [hp]; norm_num
    · rw [hp]; norm_num
    · rw [hp]
      have : ((0 : ℝ) + 1) * 0.5 * π / 2 = π / 4 := by ring
      rw [this, cos_pi_div_four, sin_pi_div_four]

/-- C41: stereo input. Pan 0 is the identity, at -1 and 1 everything is on one side, the sum is kept. -/
theorem C41_stereo (N : Nat) (pan : List ℝ) (l r : Chan ℝ) (q : Quantum ℝ)
    (h : panner N pan [l, r] = some q) (f : Nat) (hf : f < N) (p : ℝ) (hp : PanIs N pan f p) :
    (p = 0 → sample q 0 f = sample [l, r] 0 f ∧ sample q 1 f = sample [l, r] 1 f) ∧
    (p = -1 → sample q 0 f = sample [l, r] 0 f + sample [l, r] 1 f ∧ sample q 1 f = 0) ∧
    (p = 1 → sample q 0 f = 0 ∧ sample q 1 f = sample [l, r] 0 f + sample [l, r] 1 f) ∧
    (p ≤ 0 → (sample q 0 f - sample [l, r] 0 f) ^ 2 + sample q 1 f ^ 2 = sample [l, r] 1 f ^ 2) ∧
    (0 ≤ p → sample q 0 f ^ 2 + (sample q 1 f - sample [l, r] 1 f) ^ 2 = sample [l, r] 0 f ^ 2) := by
  rw [← hp.panAt hf]
  clear hp
  unfold panner at h
  split at h
  · rename_i hs
    injection h with h
    subst h
    simp only [sample_silence, sample_of_isSilent hs]
    simp
  · injection h with h
    subst h
    have hl : sample [l, r] 0 f = (l.data N).getD f 0 := by
      rw [data_getD]
      unfold sample
      simp only [List.getElem?_cons_zero]
      cases l <;> rfl
    have hr : sample [l, r] 1 f = (r.data N).getD f 0 := by
      rw [data_getD]
      unfold sample
      simp only [List.getElem?_cons_succ, List.getElem?_cons_zero]
      cases r <;> rfl
    rw [hl, hr]
    have e0 : ∀ (a b : Nat → ℝ), sample [some ((List.range N).map a), some ((List.range N).map b)] 0 f = a f := by
      intro a b; simp [sample, hf]
    have e1 : ∀ (a b : Nat → ℝ), sample [some ((List.range N).map a), some ((List.range N).map b)] 1 f = b f := by
      intro a b; simp [sample, hf]
    rw [e0, e1]
    generalize (l.data N).getD f 0 = x
    generalize (r.data N).getD f 0 = y
    unfold panStereo
    simp only [gains_eq]
    generalize panAt pan f = p
    refine ⟨fun hp => ?_, fun hp => ?_, fun hp => ?_, fun hp => ?_, fun hp => ?_⟩
    · subst hp; norm_num
    · subst hp; norm_num [add_comm]
    · subst hp; norm_num
    · rw [if_pos hp]
      have := cos_sq_add_sin_sq ((p + 1) * π / 2)
      simp only [add_sub_cancel_right]
      nlinarith [this]
    · by_cases h0 : p ≤ 0
      · have : p = 0 := le_antisymm h0 hp
        subst this
        norm_num
      · rw [if_neg h0]
        have := cos_sq_add_sin_sq (p * π / 2)
        simp only [add_sub_cancel_right]
        nlinarith [this]

/-- The panic cannot happen: the channel count of the node is 1 or 2 and its mode is not `max` (l.44-68), so that the
graph mixes the input to at most two channels (`Mix.newCount` is the computation of the graph). -/
theorem C41_no_panic (N : Nat) (pan : List ℝ) (mode : Mix.Mode) (count n1 n2 : Nat) (hc : count ≤ 2)
    (hm : mode ≠ .max) (input : Quantum ℝ) (h : input.length = Mix.newCount mode count n1 n2) :
    ∃ r, panner N pan input = some r := by
  have hl : input.length ≤ 2 := by
    rw [h]
    unfold Mix.newCount
    cases mode with
    | max => exact absurd rfl hm
    | explicit => exact hc
    | clampedMax => exact le_trans (Nat.min_le_right _ _) hc
  unfold panner
  split
  · exact ⟨_, rfl⟩
  · match input, hl with
    | [], _ => exact ⟨_, rfl⟩
    | [m], _ => exact ⟨_, rfl⟩
    | [l, r], _ => exact ⟨_, rfl⟩
    | _ :: _ :: _ :: _, h => simp at h

/-- Hypotheses are met: the sound is in the middle, on both sides with the same gain. -/
example : ∃ r, panner 1 [0] [some [1]] = some r ∧ sample r 0 0 = sample r 1 0 :=
  ⟨_, rfl, (C41_mono 1 [0] (some [1]) _ rfl 0 (by omega) 0 (.inl rfl)).2.2.2 rfl⟩

example : ∃ r, panner 1 [-1] [some [1], some [2]] = some r ∧ sample r 0 0 = 3 ∧ sample r 1 0 = 0 := by
  refine ⟨_, rfl, ?_⟩
  have := (C41_stereo 1 [-1] (some [1]) (some [2]) _ rfl 0 (by omega) (-1) (.inl rfl)).2.1 rfl
  rw [this.1, this.2]
  norm_num [sample]

end Verif.Node
