import Verif.Mix.Proofs
import Mathlib.Algebra.Field.Rat
import Mathlib.Tactic.NormNum
import Mathlib.Algebra.BigOperators.Group.List.Lemmas

/-!
# C12, C13: mixing of channel layouts and summing of connections

Specification: one *frame* is the list of the samples of all channels at one moment. `w3cMatrix` are
the mixing rules of the Web Audio specification (section "Channel up-mixing and down-mixing") between
the speaker layouts mono (1), stereo (2), quad (4) and 5.1 (6), one row of coefficients per output
channel; `r` is the constant sqrt(1/2). All other combinations are "discrete": channels are matched by
index, surplus channels are dropped and missing ones are silent.
-/

namespace Verif.Mix

variable {K : Type} [Field K]

/-- The matrices of the Web Audio specification. Channel order: L R | L R SL SR | L R C LFE SL SR -/
def w3cMatrix (r : K) : Nat → Nat → Option (List (List K))
  | 1, 2 => some [[1], [1]]
  | 1, 4 => some [[1], [1], [0], [0]]
  | 1, 6 => some [[0], [0], [1], [0], [0], [0]]
  | 2, 4 => some [[1, 0], [0, 1], [0, 0], [0, 0]]
  | 2, 6 => some [[1, 0], [0, 1], [0, 0], [0, 0], [0, 0], [0, 0]]
  | 4, 6 => some [[1, 0, 0, 0], [0, 1, 0, 0], [0, 0, 0, 0], [0, 0, 0, 0], [0, 0, 1, 0], [0, 0, 0, 1]]
  | 2, 1 => some [[1 / 2, 1 / 2]]
  | 4, 1 => some [[1 / 4, 1 / 4, 1 / 4, 1 / 4]]
  | 6, 1 => some [[r, r, 1, 0, 1 / 2, 1 / 2]]
  | 4, 2 => some [[1 / 2, 0, 1 / 2, 0], [0, 1 / 2, 0, 1 / 2]]
  | 6, 2 => some [[1, 0, r, 0, r, 0], [0, 1, r, 0, 0, r]]
  | 6, 4 => some [[1, 0, r, 0, 0, 0], [0, 1, r, 0, 0, 0], [0, 0, 0, 0, 1, 0], [0, 0, 0, 0, 0, 1]]
  | _, _ => none

/-- scalar product of a row of coefficients with a frame -/
def rowTimes : List K → List K → K
  | a :: as, x :: xs => a * x + rowTimes as xs
  | _, _ => 0

/-- The frame after mixing to `m` channels according to the Web Audio specification. -/
def w3cMix (r : K) (interp : Interp) (m : Nat) (x : List K) : List K :=
  match interp, w3cMatrix r x.length m with
  | .speakers, some rows => rows.map fun row => rowTimes row x
  | _, _ => (List.range m).map fun j => x.getD j 0

/-- the samples of all channels at time `i` -/
def samplesAt (cs : List (Chan K)) (i : Nat) : List K := cs.map fun c => c.data i

theorem rowTimes_eq_dot (row x : List K) : rowTimes row x = dot row x := by
  induction row generalizing x with
  | nil => simp [rowTimes, dot]
  | cons a row ih =>
    cases x with
    | nil => simp [rowTimes, dot]
    | cons y x =>
      have := ih x
      simp only [dot] at this
      simp [rowTimes, dot, this]

theorem w3cMatrix_eq (r : K) (n m : Nat) (h : ¬ (n = 4 ∧ m = 5)) : w3cMatrix r n m = codeMatrix r n m := by
  rcases n with _ | _ | _ | _ | _ | _ | _ | n <;> rcases m with _ | _ | _ | _ | _ | _ | _ | m <;>
    first | rfl | exact absurd ⟨rfl, rfl⟩ h

theorem w3cMix_eq (r : K) (interp : Interp) (m : Nat) (x : List K)
    (h : interp = .speakers → ¬ (x.length = 4 ∧ m = 5)) : w3cMix r interp m x = mixF r interp m x := by
  cases interp with
  | discrete => rw [mixF_none (by simp)]; rfl
  | speakers =>
    unfold w3cMix mixF
    rw [w3cMatrix_eq r _ _ (h rfl), if_pos rfl]
    cases codeMatrix r x.length m with
    | none => rfl
    | some rows => simp only [rowTimes_eq_dot]

/-- **C12** Mixing a buffer of any number of channels to any number of channels gives the frames of
the Web Audio specification, for every sample. Exception (see `C12_negated`): speakers
interpretation from 4 to 5 channels. -/
theorem C12_mix_partial (r : K) (next : Nat) (cs : List (Chan K)) (m : Nat) (interp : Interp)
    (hexc : interp = .speakers → ¬ (cs.length = 4 ∧ m = 5)) :
    (mix r next cs m interp).1.length = m ∧
    ∀ i, samplesAt (mix r next cs m interp).1 i = w3cMix r interp m (samplesAt cs i) := by
  refine ⟨mix_length r next cs m interp, fun i => ?_⟩
  rw [w3cMix_eq r interp m _ (by simpa [samplesAt] using hexc)]
  exact mix_frame r next cs m interp i

/-- a 5.1 signal mixed to stereo -/
example (l rr c lfe sl sr : Chan ℚ) (i : Nat) :
    samplesAt (mix (7 / 10 : ℚ) 9 [l, rr, c, lfe, sl, sr] 2 .speakers).1 i =
      [l.data i + 7 / 10 * c.data i + 7 / 10 * sl.data i,
       rr.data i + 7 / 10 * c.data i + 7 / 10 * sr.data i] := by
  rw [(C12_mix_partial (7 / 10 : ℚ) 9 [l, rr, c, lfe, sl, sr] 2 .speakers (by simp)).2 i]
  simp [w3cMix, w3cMatrix, samplesAt, rowTimes]
  constructor <;> ring

/-- **C12, exception.** From 4 to 5 channels with speakers interpretation the implementation leaves
the third channel silent and moves the surround channels behind it; 5 channels is not one of the
speaker layouts of the specification, so that the rule is discrete mixing. -/
theorem C12_negated :
    ∃ (cs : List (Chan ℚ)) (m i : Nat), ∀ r : ℚ,
      samplesAt (mix r 5 cs m .speakers).1 i ≠ w3cMix r .speakers m (samplesAt cs i) := by
  refine ⟨[⟨1, fun _ => 1⟩, ⟨2, fun _ => 2⟩, ⟨3, fun _ => 3⟩, ⟨4, fun _ => 4⟩], 5, 0, fun r => ?_⟩
  simp [mix, mixInner, samplesAt, w3cMix, w3cMatrix, zero, List.range_succ]

/-! ## Summing -/

/-- The buffers of `bufs` live in one memory: channels with the same address have the same samples,
address 0 is silence and addresses from `next` on are free. -/
def Memory (next : Nat) (bufs : List (List (Chan K))) : Prop :=
  0 < next ∧ (∀ o ∈ bufs, ∀ c ∈ o, c.ptr < next ∧ (c.ptr = 0 → ∀ i, c.data i = 0)) ∧
  ∀ o ∈ bufs, ∀ c ∈ o, ∀ o' ∈ bufs, ∀ c' ∈ o', c.ptr = c'.ptr → c.data = c'.data

/-- channel count of an input according to the Web Audio specification -/
def computedChannels (mode : Mode) (count : Nat) (lens : List Nat) : Nat :=
  match mode with
  | .max => lens.foldl Nat.max 1
  | .clampedMax => Nat.min (lens.foldl Nat.max 1) count
  | .explicit => count

/-- the specified input frame: every connected output is mixed to the computed number of channels,
then channel `j` is the sum of the channels `j` -/
def specSum (r : K) (mode : Mode) (count : Nat) (interp : Interp) (frames : List (List K)) : List K :=
  let m := computedChannels mode count (frames.map List.length)
  (List.range m).map fun j => (frames.map fun x => (w3cMix r interp m x).getD j 0).sum

theorem memory_con {next : Nat} {bufs : List (List (Chan K))} (h : Memory next bufs) :
    ∃ H : Nat → Nat → K, H 0 = (fun _ => 0) ∧ ∀ o ∈ bufs, Con H next o := by
  classical
  obtain ⟨h0, h1, h2⟩ := h
  refine ⟨fun p => if p = 0 then fun _ => 0 else
    if hp : ∃ c : Chan K, (∃ o ∈ bufs, c ∈ o) ∧ c.ptr = p then hp.choose.data else fun _ => 0,
    by simp, ?_⟩
  intro o ho c hc
  refine ⟨(h1 o ho c hc).1, ?_⟩
  by_cases hz : c.ptr = 0
  · simp only [hz, if_true]
    exact funext ((h1 o ho c hc).2 hz)
  · have hp : ∃ c' : Chan K, (∃ o ∈ bufs, c' ∈ o) ∧ c'.ptr = c.ptr := ⟨c, ⟨o, ho, hc⟩, rfl⟩
    simp only [hz, if_false, dif_pos hp]
    obtain ⟨⟨o', ho', hc'⟩, he⟩ := hp.choose_spec
    exact (h2 _ ho' _ hc' o ho c hc he).symm

/-- **C13** The input of a node is the specified sum, if the interpretation is discrete, or if only
mono and stereo signals and channel counts are involved. What is missing from the full property is
false: see `C13_negated_fast_path`, `C13_negated_order`. -/
theorem C13_sum_partial [NeZero (2 : K)] (r : K) (mode : Mode) (count : Nat) (hcount : 0 < count)
    (interp : Interp) (next : Nat) (bufs : List (List (Chan K))) (hmem : Memory next bufs)
    (hne : bufs ≠ []) (hch : ∀ o ∈ bufs, o ≠ [])
    (hlayout : interp = .speakers → (∀ o ∈ bufs, o.length ≤ 2) ∧ (mode = .explicit → count ≤ 2)) (i : Nat) :
    samplesAt (sumInto r mode count interp next bufs).1 i =
      specSum r mode count interp (bufs.map fun o => samplesAt o i) := by
  obtain ⟨H, h0, hcon⟩ := memory_con hmem
  have hok : SumOk mode count interp (bufs.map List.length) := by
    cases interp with
    | discrete => exact .inl rfl
    | speakers =>
      refine .inr ⟨?_, (hlayout rfl).2⟩
      intro n hn
      obtain ⟨o, ho, rfl⟩ := List.mem_map.1 hn
      exact (hlayout rfl).1 o ho
  have h := sum_frame h0 hmem.1 r mode count hcount interp bufs hcon hch hok hne i
  have hlen : (bufs.map fun o => samplesAt o i).map List.length = bufs.map List.length := by
    simp [samplesAt, Function.comp_def]
  have hT : computedChannels mode count (bufs.map List.length) =
      target mode count (bufs.map List.length) := by cases mode <;> rfl
  show frame _ i = _
  rw [h]
  simp only [specSum, hlen, hT, vsum, List.map_map]
  apply List.map_congr_left
  intro j _
  congr 1
  apply List.map_congr_left
  intro o ho
  simp only [Function.comp]
  rw [w3cMix_eq]
  · rfl
  · intro hi
    have := (hlayout hi).1 o ho
    simp only [samplesAt, List.length_map]
    omega

theorem computedChannels_perm (mode : Mode) (count : Nat) {l l' : List Nat} (h : l.Perm l') :
    computedChannels mode count l = computedChannels mode count l' := by
  have : l.foldl Nat.max 1 = l'.foldl Nat.max 1 :=
    h.foldl_eq' (fun x _ y _ z => by
      show max (max z x) y = max (max z y) x
      omega) 1
  cases mode <;> simp [computedChannels, this]

/-- **C13, order independence** in the same situations: connecting the same signals in another order
(and with any other layout in memory) gives the same input. -/
theorem C13_order_partial [NeZero (2 : K)] (r : K) (mode : Mode) (count : Nat) (hcount : 0 < count)
    (interp : Interp) (next next' : Nat) (bufs bufs' : List (List (Chan K))) (hmem : Memory next bufs)
    (hmem' : Memory next' bufs') (hne : bufs ≠ []) (hch : ∀ o ∈ bufs, o ≠ [])
    (hlayout : interp = .speakers → (∀ o ∈ bufs, o.length ≤ 2) ∧ (mode = .explicit → count ≤ 2)) (i : Nat)
    (hperm : (bufs.map fun o => samplesAt o i).Perm (bufs'.map fun o => samplesAt o i)) :
    samplesAt (sumInto r mode count interp next bufs).1 i =
      samplesAt (sumInto r mode count interp next' bufs').1 i := by
  have back : ∀ o' ∈ bufs', ∃ o ∈ bufs, o.length = o'.length := by
    intro o' ho'
    have : samplesAt o' i ∈ bufs.map fun o => samplesAt o i :=
      hperm.mem_iff.2 (List.mem_map.2 ⟨o', ho', rfl⟩)
    obtain ⟨o, ho, he⟩ := List.mem_map.1 this
    exact ⟨o, ho, by simpa [samplesAt] using congrArg List.length he⟩
  have hne' : bufs' ≠ [] := by
    rintro rfl
    have := hperm.length_eq
    simp only [List.length_map, List.length_nil] at this
    exact hne (List.length_eq_zero_iff.1 this)
  rw [C13_sum_partial r mode count hcount interp next bufs hmem hne hch hlayout i,
    C13_sum_partial r mode count hcount interp next' bufs' hmem' hne' _ _ i]
  · unfold specSum
    have hp := hperm.map List.length
    simp only [computedChannels_perm mode count hp]
    apply List.map_congr_left
    intro j _
    exact (hperm.map _).sum_eq
  · intro o' ho' he
    obtain ⟨o, ho, hl⟩ := back o' ho'
    rw [he] at hl
    exact hch o ho (List.length_eq_zero_iff.1 hl)
  · intro hi
    refine ⟨fun o' ho' => ?_, (hlayout hi).2⟩
    obtain ⟨o, ho, hl⟩ := back o' ho'
    rw [← hl]
    exact (hlayout hi).1 o ho

/-- buffers for the examples: mono `x`, stereo `(y, z)`, and the same mono signal on two channels -/
def exBufs : List (List (Chan ℚ)) :=
  [[⟨1, fun i => i⟩], [⟨2, fun _ => 5⟩, ⟨3, fun _ => 7⟩], [⟨1, fun i => i⟩, ⟨1, fun i => i⟩]]

theorem exBufs_memory : Memory 4 exBufs := by
  refine ⟨by omega, ?_, ?_⟩
  · simp [exBufs]
  · simp [exBufs]

example (i : Nat) : samplesAt (sumInto (7 / 10 : ℚ) .max 2 .speakers 4 exBufs).1 i =
    [2 * (i : ℚ) + 5, 2 * (i : ℚ) + 7] := by
  rw [C13_sum_partial _ _ _ (by omega) _ _ _ exBufs_memory (by simp [exBufs]) (by simp [exBufs])
    (by simp [exBufs])]
  simp [specSum, exBufs, samplesAt, computedChannels, w3cMix, w3cMatrix, rowTimes, List.range_succ]
  constructor <;> ring

example (i : Nat) : samplesAt (sumInto (7 / 10 : ℚ) .max 2 .speakers 4 exBufs).1 i =
    samplesAt (sumInto (7 / 10 : ℚ) .max 2 .speakers 4 exBufs.reverse).1 i :=
  C13_order_partial _ _ _ (by omega) _ _ _ _ _ exBufs_memory
    ⟨by omega, by simp [exBufs], by simp [exBufs]⟩ (by simp [exBufs]) (by simp [exBufs])
    (by simp [exBufs]) i (by rw [List.map_reverse]; exact (List.reverse_perm _).symm)

/-- **C13 is false (1).** One connection whose four channels share the same memory (for instance a
`ChannelMergerNode` with the same mono source at all inputs) into an input with speakers
interpretation and 4 channels: the two surround channels are lost. The fast path of `add` reduces
buffers with identical channels to mono and mixes back to 4 channels. -/
theorem C13_negated_fast_path :
    ∃ (bufs : List (List (Chan ℚ))) (i : Nat), Memory 2 bufs ∧ ∀ r : ℚ,
      samplesAt (sumInto r .max 4 .speakers 2 bufs).1 i = [1, 1, 0, 0] ∧
      specSum r .max 4 .speakers (bufs.map fun o => samplesAt o i) = [1, 1, 1, 1] := by
  refine ⟨[[⟨1, fun _ => 1⟩, ⟨1, fun _ => 1⟩, ⟨1, fun _ => 1⟩, ⟨1, fun _ => 1⟩]], 0,
    ⟨by omega, by simp, by simp⟩, fun r => ⟨?_, ?_⟩⟩
  · simp [sumInto, add, identical, zero, Chan.add, Chan.isSilent, newCount, mix, mixInner, samplesAt]
  · simp [specSum, computedChannels, w3cMix, w3cMatrix, samplesAt, List.range_succ]

/-- **C13 is false (2).** The order of the connections matters in speakers interpretation with mode
`max`: mono first brought to stereo and then to 5.1 ends up left and right, otherwise in the centre. -/
theorem C13_negated_order :
    ∃ (a b c : List (Chan ℚ)) (i : Nat), Memory 20 [a, b, c] ∧ ∀ r : ℚ,
      samplesAt (sumInto r .max 2 .speakers 20 [a, b, c]).1 i ≠
        samplesAt (sumInto r .max 2 .speakers 20 [c, b, a]).1 i := by
  refine ⟨[⟨1, fun _ => 1⟩], [⟨2, fun _ => 10⟩, ⟨3, fun _ => 20⟩],
    [⟨4, fun _ => 100⟩, ⟨5, fun _ => 200⟩, ⟨6, fun _ => 300⟩, ⟨7, fun _ => 400⟩, ⟨8, fun _ => 500⟩,
      ⟨9, fun _ => 600⟩], 0, ⟨by omega, by simp, by simp⟩, fun r => ?_⟩
  refine ne_of_eq_of_ne (b := [1 + 10 + 100, 1 + 20 + 200, 300, 400, 500, 600]) rfl
    (ne_of_ne_of_eq (b := [100 + 10, 200 + 20, 300 + 1, 400, 500, 600]) ?_ rfl)
  norm_num

end Verif.Mix
