import Verif.Node.Quantum
import Mathlib.Data.Int.Basic

/-!
# C38: channel merger and channel splitter

Models `ChannelMergerRenderer::process` (`/repo/src/node/channel_merger.rs` l.146-171) and
`ChannelSplitterRenderer::process` (`/repo/src/node/channel_splitter.rs` l.183-209). The mixing of the inputs to one
channel (merger) and to the number of outputs (splitter) happens before, in the graph (C12, C13).
-/

namespace Verif.Node

section
variable {K : Type} [Zero K]

/-- the loop over the inputs, `channel_merger.rs` l.163-165: writes channel `i`, `i + 1`, … of the output. `none`: index
out of bounds. -/
def mergeLoop : Nat → List (Quantum K) → Quantum K → Option (Quantum K)
  | _, [], out => some out
  | i, q :: qs, out =>
    match q with
    | [] => none
    | c :: _ => if i < out.length then mergeLoop (i + 1) qs (out.set i c) else none

/-- `process` of the merger, l.146-171; `out` is what is in the output before -/
def merger (inputs : List (Quantum K)) (out : Quantum K) : Option (Quantum K) :=
  if inputs.any (fun q => !isSilent q) then mergeLoop 0 inputs (setChannels out inputs.length)
  else some silence

/-- one output of the splitter, `channel_splitter.rs` l.198-205 -/
def splitOne (input : Quantum K) (i : Nat) (out : Quantum K) : Quantum K :=
  match input[i]? with
  | some c => (setChannels out 1).set 0 c
  | none => silence

/-- `process` of the splitter, l.184-209; the assertion of l.194 is the first condition -/
def splitter (numberOfOutputs : Nat) (input : Quantum K) (outs : List (Quantum K)) : Option (List (Quantum K)) :=
  if numberOfOutputs = outs.length then
    some ((List.range outs.length).map fun i => splitOne input i (outs.getD i []))
  else none

theorem mergeLoop_spec (qs : List (Quantum K)) : ∀ (i : Nat) (out : Quantum K), out.length = i + qs.length →
    (∀ q ∈ qs, q ≠ []) → ∃ r, mergeLoop i qs out = some r ∧ r.length = out.length ∧
      ∀ j, r[j]? = if i ≤ j ∧ j < i + qs.length then some ((qs.getD (j - i) []).headD none) else out[j]? := by
  induction qs with
  | nil =>
    intro i out _ _
    refine ⟨out, rfl, rfl, fun j => ?_⟩
    rw [if_neg]
    simp
  | cons q qs ih =>
    intro i out hlen hne
    simp only [List.length_cons] at hlen
    cases q with
    | nil => exact absurd rfl (hne [] (by simp))
    | cons c cs =>
      obtain ⟨r, hr, hl, hj⟩ := ih (i + 1) (out.set i c) (by simp; omega) (fun x hx => hne x (by simp [hx]))
      refine ⟨r, by rw [mergeLoop]; rw [if_pos (by omega)]; exact hr, by simpa using hl, fun j => ?_⟩
      rw [hj]
      by_cases h1 : i + 1 ≤ j ∧ j < i + 1 + qs.length
      · rw [if_pos h1, if_pos ⟨by omega, by simp only [List.length_cons]; omega⟩]
        obtain ⟨m, hm⟩ : ∃ m, j - i = m + 1 := ⟨j - i - 1, by omega⟩
        rw [hm, show j - (i + 1) = m by omega]
        simp only [List.getD, List.getElem?_cons_succ]
      · rw [if_neg h1]
        by_cases h2 : j = i
        · subst h2
          rw [if_pos ⟨le_refl _, by simp only [List.length_cons]; omega⟩, List.getElem?_set_self (by omega)]
          simp
        · rw [List.getElem?_set_ne (by omega), if_neg]
          simp only [List.length_cons]
          omega

/-- The merger never faults, and its output has one channel per input unless all inputs are silent. -/
theorem C38_merger_ok (inputs : List (Quantum K)) (out : Quantum K) (hne : ∀ q ∈ inputs, q ≠ []) :
    ∃ r, merger inputs out = some r ∧
      r.length = if inputs.any (fun q => !isSilent q) then inputs.length else 1 := by
  unfold merger
  split
  · obtain ⟨r, hr, hl, _⟩ := mergeLoop_spec inputs 0 (setChannels out inputs.length)
      (by rw [setChannels_length, Nat.zero_add]) hne
    exact ⟨r, hr, by rw [hl, setChannels_length]⟩
  · exact ⟨_, rfl, rfl⟩

/-- C38: channel `i` of the output is the signal of input `i`, sample by sample. -/
theorem C38_merger (inputs : List (Quantum K)) (out r : Quantum K) (hne : ∀ q ∈ inputs, q ≠ [])
    (h : merger inputs out = some r) (i f : Nat) :
    sample r i f = sample (inputs.getD i []) 0 f := by
  unfold merger at h
  split at h
  · obtain ⟨r', hr, hl, hj⟩ := mergeLoop_spec inputs 0 (setChannels out inputs.length)
      (by rw [setChannels_length, Nat.zero_add]) hne
    rw [hr] at h
    injection h with h
    subst h
    unfold sample
    rw [hj]
    by_cases hi : i < inputs.length
    · rw [if_pos ⟨Nat.zero_le _, by omega⟩, Nat.sub_zero]
      simp only [List.getD, List.getElem?_eq_getElem hi, Option.getD_some]
      have := hne _ (List.getElem_mem hi)
      cases hq : inputs[i] with
      | nil => exact absurd hq this
      | cons c cs => simp
    · rw [if_neg (by omega), List.getElem?_eq_none (by rw [setChannels_length]; omega)]
      simp only [List.getD, List.getElem?_eq_none (by omega : inputs.length ≤ i), Option.getD_none]
      rfl
  · rename_i hs
    injection h with h
    subst h
    rw [sample_silence]
    by_cases hi : i < inputs.length
    · simp only [List.getD, List.getElem?_eq_getElem hi, Option.getD_some]
      refine (sample_of_isSilent ?_ _ _).symm
      have hall : ∀ q ∈ inputs, isSilent q = true := by
        simpa [List.any_eq_true] using hs
      exact hall _ (List.getElem_mem hi)
    · simp only [List.getD, List.getElem?_eq_none (by omega : inputs.length ≤ i), Option.getD_none]
      rfl

/-- C38: no other input has an influence on channel `i`. -/
theorem C38_merger_independent (a b : List (Quantum K)) (out out' ra rb : Quantum K) (ha : ∀ q ∈ a, q ≠ [])
    (hb : ∀ q ∈ b, q ≠ []) (h : merger a out = some ra) (h' : merger b out' = some rb) (i : Nat)
    (hi : a.getD i [] = b.getD i []) (f : Nat) : sample ra i f = sample rb i f := by
  rw [C38_merger a out ra ha h, C38_merger b out' rb hb h', hi]

/-- C38: output `i` of the splitter is mono and carries channel `i` of the input, or silence when the input has no
such channel. -/
theorem C38_splitter (n : Nat) (input : Quantum K) (outs rs : List (Quantum K))
    (h : splitter n input outs = some rs) :
    rs.length = n ∧ ∀ i, i < n → ∃ q, rs[i]? = some q ∧ q.length = 1 ∧ ∀ f, sample q 0 f = sample input i f := by
  unfold splitter at h
  split at h
  · rename_i hn
    injection h with h
    subst h
    refine ⟨by simp [hn], fun i hi => ?_⟩
    refine ⟨splitOne input i (outs.getD i []), ?_, ?_, fun f => ?_⟩
    · rw [List.getElem?_map, List.getElem?_range (by omega)]; rfl
    · unfold splitOne
      split
      · simp [setChannels_length]
      · rfl
    · unfold splitOne
      cases hc : input[i]? with
      | none => simp only [sample, hc, silence]; rfl
      | some c =>
        simp only [sample, hc]
        rw [List.getElem?_set_self (by rw [setChannels_length]; omega)]
  · cases h

/-- C38: splitting in as many outputs as there are channels and merging gives the same samples; when the input is not
silent also the same number of channels. -/
theorem C38_split_merge (input out r : Quantum K) (outs rs : List (Quantum K))
    (h : splitter input.length input outs = some rs) (h' : merger rs out = some r) :
    (∀ c f, sample r c f = sample input c f) ∧ (isSilent input = false → r.length = input.length) := by
  obtain ⟨hl, hs⟩ := C38_splitter _ _ _ _ h
  have hne : ∀ q ∈ rs, q ≠ [] := by
    intro q hq hc
    obtain ⟨i, hi, hiq⟩ := List.mem_iff_getElem.1 hq
    obtain ⟨q', hq', h1, _⟩ := hs i (by omega)
    rw [List.getElem?_eq_getElem hi, hiq] at hq'
    injection hq' with hq'
    subst hq'
    rw [hc] at h1
    simp at h1
  refine ⟨fun c f => ?_, fun hsil => ?_⟩
  · rw [C38_merger rs out r hne h']
    by_cases hc : c < input.length
    · obtain ⟨q, hq, _, h3⟩ := hs c hc
      simp only [List.getD, hq, Option.getD_some]
      exact h3 f
    · simp only [List.getD, List.getElem?_eq_none (by omega : rs.length ≤ c), Option.getD_none]
      unfold sample
      rw [List.getElem?_eq_none (by omega : input.length ≤ c)]
      rfl
  · obtain ⟨r', hr', hlen⟩ := C38_merger_ok rs out hne
    rw [hr'] at h'
    injection h' with h'
    subst h'
    rw [hlen, if_pos]
    · exact hl
    · -- one of the parts is not silent
      unfold isSilent at hsil
      rw [List.all_eq_false] at hsil
      obtain ⟨c, hc, hcn⟩ := hsil
      obtain ⟨i, hi, hic⟩ := List.mem_iff_getElem.1 hc
      rw [List.any_eq_true]
      unfold splitter at h
      split at h
      · rename_i hn
        injection h with h
        refine ⟨splitOne input i (outs.getD i []), ?_, ?_⟩
        · rw [← h]
          exact List.mem_map.2 ⟨i, List.mem_range.2 (by omega), rfl⟩
        · unfold splitOne
          rw [List.getElem?_eq_getElem hi]
          simp only
          cases c with
          | none => simp at hcn
          | some l =>
            unfold isSilent
            rw [hic]
            have : 0 < (setChannels (outs.getD i []) 1).length := by rw [setChannels_length]; omega
            cases hq : setChannels (outs.getD i []) 1 with
            | nil => rw [hq] at this; simp at this
            | cons x xs => simp
      · cases h

end

example : merger [[some [1, 2]], [none], [some [3, 4]]] [none] = some [some [(1 : ℤ), 2], none, some [3, 4]] := by
  decide +kernel

example : (splitter 3 [some [(1 : ℤ), 2], some [3, 4]] [[none], [none], [none]]) =
    some [[some [1, 2]], [some [3, 4]], [none]] := by decide +kernel

/-- the hypotheses of the round trip -/
example : ∃ rs r, splitter 2 [some [(1 : ℤ), 2], none] [[none], [none]] = some rs ∧ merger rs [none] = some r ∧
    r = [some [1, 2], none] := ⟨_, _, rfl, rfl, by decide +kernel⟩

end Verif.Node
