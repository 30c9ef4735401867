import Mathlib.Algebra.Field.Basic
import Mathlib.Data.List.Basic

/-!
# Quanta with silent channels

Models the part of `AudioRenderQuantum` (`/repo/src/render/quantum.rs` l.179-262, l.511-516) that the nodes use. A channel
either is the shared block of zeros (`none`; `is_silent` compares pointers, l.109-111) or has its own samples.
`N` is the number of frames, 128 in the code.
-/

namespace Verif.Node

section
variable {K : Type} [Zero K]

/-- A channel, l.90-93. -/
abbrev Chan (K : Type) := Option (List K)

/-- A quantum, l.179-184; it always has a channel. -/
abbrev Quantum (K : Type) := List (Chan K)

/-- samples of a channel -/
def Chan.data (N : Nat) : Chan K → List K
  | none => List.replicate N 0
  | some l => l

/-- `is_silent`, l.257-259 -/
def isSilent (q : Quantum K) : Bool := q.all (·.isNone)

/-- `make_silent`, l.511-516 -/
def silence : Quantum K := [none]

/-- `set_number_of_channels`, l.220-226 -/
def setChannels (q : Quantum K) (n : Nat) : Quantum K :=
  (q ++ List.replicate (n - q.length) (q.headD none)).take n

/-- Specification: sample `f` of channel `c`, zero outside -/
def sample (q : Quantum K) (c f : Nat) : K :=
  match q[c]? with
  | some (some l) => l.getD f 0
  | _ => 0

theorem sample_silence (c f : Nat) : sample (silence : Quantum K) c f = 0 := by
  unfold sample silence
  cases c <;> simp

theorem sample_of_isSilent {q : Quantum K} (h : isSilent q = true) (c f : Nat) : sample q c f = 0 := by
  unfold sample
  cases hc : q[c]? with
  | none => rfl
  | some a =>
    unfold isSilent at h
    rw [List.all_eq_true] at h
    have := h a (List.mem_of_getElem? hc)
    cases a with
    | none => rfl
    | some l => simp at this

theorem setChannels_length {q : Quantum K} {n : Nat} : (setChannels q n).length = n := by
  unfold setChannels
  simp
  omega

theorem data_getD (N : Nat) (c : Chan K) (f : Nat) : (c.data N).getD f 0 = match c with
    | some l => l.getD f 0
    | none => 0 := by
  cases c with
  | some l => rfl
  | none =>
    simp only [Chan.data, List.getD]
    by_cases h : f < N
    · rw [List.getElem?_replicate_of_lt h]; rfl
    · rw [List.getElem?_eq_none (by simpa using h)]; rfl

end

end Verif.Node
