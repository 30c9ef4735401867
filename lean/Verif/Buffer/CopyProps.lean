import Verif.Buffer.Model
import Mathlib.Algebra.Order.Field.Rat

/-!
# C48: `AudioBuffer` copy operations are exact and bounded
-/

namespace Verif.Buffer

variable {K V : Type}

theorem slice_some (xs : List V) {a e : Nat} (h : a ≤ e ∧ e ≤ xs.length) :
    slice xs a e = some ((xs.drop a).take (e - a)) := if_pos h

theorem copyIn_some (xs : List V) {a e : Nat} (src : List V)
    (h : a ≤ e ∧ e ≤ xs.length ∧ src.length = e - a) :
    copyIn xs a e src = some (xs.take a ++ src ++ xs.drop e) := if_pos h

theorem copyFrom_eq {b : Buf K V} (hb : b.WF) {ch : Nat} {c : List V} (hc : b.channels[ch]? = some c)
    (dest : List V) (off : Nat) :
    b.copyFrom dest ch off = some (((c.drop off).take dest.length) ++ dest.drop (b.length - off)) := by
  have hl : c.length = b.length := hb c (List.mem_of_getElem? hc)
  simp only [Buf.copyFrom, hc]
  rw [slice_some _ (by omega), Option.bind_some, copyIn_some _ _ (by simp; omega)]
  congr 1
  simp only [List.take_zero, List.nil_append, Nat.add_sub_cancel]
  by_cases h : off ≤ b.length
  · rw [Nat.min_eq_left h]
    congr 1
    · rw [← hl, ← List.length_drop, Nat.min_comm, ← List.take_take, List.take_length]
    · rcases Nat.le_total (b.length - off) dest.length with h' | h'
      · rw [Nat.min_eq_left h']
      · rw [Nat.min_eq_right h', List.drop_length, List.drop_eq_nil_of_le h']
  · have hm : min off b.length = b.length := by omega
    have h0 : b.length - off = 0 := by omega
    rw [hm, h0]
    simp [List.drop_eq_nil_of_le (show c.length ≤ off by omega)]

theorem copyTo_eq {b : Buf K V} (hb : b.WF) {ch : Nat} {c : List V} (hc : b.channels[ch]? = some c)
    (src : List V) (off : Nat) :
    b.copyTo src ch off =
      some ⟨b.channels.set ch (c.take off ++ src.take (b.length - off) ++ c.drop (off + src.length)),
        b.rate⟩ := by
  have hl : c.length = b.length := hb c (List.mem_of_getElem? hc)
  simp only [Buf.copyTo, hc]
  rw [slice_some _ (by omega), Option.bind_some, copyIn_some _ _ (by simp; omega), Option.map_some]
  congr 3
  simp only [List.drop_zero, Nat.sub_zero]
  by_cases h : off ≤ b.length
  · rw [Nat.min_eq_left h]
    congr 1
    · congr 1
      rw [← List.take_take, List.take_length]
    · rcases Nat.le_total (b.length - off) src.length with h' | h'
      · rw [List.drop_eq_nil_of_le (by omega), List.drop_eq_nil_of_le (by omega)]
      · rw [Nat.min_eq_right h', Nat.add_comm]
  · have hm : min off b.length = b.length := by omega
    have h0 : b.length - off = 0 := by omega
    rw [hm, h0, ← hl]
    simp [List.drop_eq_nil_of_le (show c.length ≤ off + src.length by omega),
      List.take_of_length_le (show c.length ≤ off by omega)]

/-- **C48** `copy_from_channel_with_offset` changes the elements of the destination that have a frame in
the buffer at their index plus the offset, to exactly that frame, and no others. -/
theorem C48_copy_from {b : Buf K V} (hb : b.WF) {ch : Nat} (hch : ch < b.channels.length)
    (dest : List V) (off : Nat) :
    ∃ d, b.copyFrom dest ch off = some d ∧ d.length = dest.length ∧
      ∀ i < dest.length, d[i]? = if off + i < b.length then b.sample ch (off + i) else dest[i]? := by
  obtain ⟨c, hc⟩ : ∃ c, b.channels[ch]? = some c := ⟨_, List.getElem?_eq_getElem hch⟩
  have hl : c.length = b.length := hb c (List.mem_of_getElem? hc)
  refine ⟨_, copyFrom_eq hb hc dest off, by simp; omega, fun i hi => ?_⟩
  simp only [Buf.sample, hc, Option.bind_some]
  rw [List.getElem?_append]
  split
  · rename_i h
    simp only [List.length_take, List.length_drop] at h
    rw [if_pos (by omega), List.getElem?_take_of_lt (by omega), List.getElem?_drop]
  · rename_i h
    simp only [List.length_take, List.length_drop] at h
    rw [if_neg (by omega), List.getElem?_drop]
    congr 1
    simp
    omega

/-- **C48** `copy_to_channel_with_offset` changes the frames of the channel from the offset on that have
an element in the source, to exactly that element. No other frame and no other channel changes, and
neither do the length, the number of channels and the sample rate. -/
theorem C48_copy_to {b : Buf K V} (hb : b.WF) {ch : Nat} (hch : ch < b.channels.length)
    (src : List V) (off : Nat) :
    ∃ b', b.copyTo src ch off = some b' ∧ b'.WF ∧ b'.length = b.length ∧ b'.rate = b.rate ∧
      b'.channels.length = b.channels.length ∧
      ∀ c i, b'.sample c i =
        if c = ch ∧ off ≤ i ∧ i < b.length ∧ i - off < src.length then src[i - off]?
        else b.sample c i := by
  obtain ⟨c, hc⟩ : ∃ c, b.channels[ch]? = some c := ⟨_, List.getElem?_eq_getElem hch⟩
  have hl : c.length = b.length := hb c (List.mem_of_getElem? hc)
  have hnew : (c.take off ++ src.take (b.length - off) ++ c.drop (off + src.length)).length
      = b.length := by simp; omega
  have hlen : Buf.length (⟨b.channels.set ch
      (c.take off ++ src.take (b.length - off) ++ c.drop (off + src.length)), b.rate⟩ : Buf K V)
      = b.length := by
    cases hbc : b.channels with
    | nil => rw [hbc] at hch; simp at hch
    | cons x xs =>
      cases ch with
      | zero =>
        show List.length _ = _
        exact hnew
      | succ k => simp [Buf.length, hbc]
  refine ⟨_, copyTo_eq hb hc src off, ?_, hlen, rfl, by simp, ?_⟩
  · intro x hx
    rw [hlen]
    rcases List.mem_or_eq_of_mem_set hx with h | h
    · exact hb x h
    · rw [h, hnew]
  · intro k i
    simp only [Buf.sample]
    by_cases hk : k = ch
    · subst hk
      rw [List.getElem?_set_self hch, hc, Option.bind_some, Option.bind_some, List.append_assoc,
        List.getElem?_append]
      split
      · rename_i h
        simp only [List.length_take] at h
        rw [if_neg (by omega), List.getElem?_take_of_lt (by omega)]
      · rename_i h
        simp only [List.length_take] at h
        rw [List.getElem?_append]
        split
        · rename_i h'
          have : i - (c.take off).length = i - off := by
            simp only [List.length_take] at h' ⊢
            omega
          rw [this] at h' ⊢
          simp only [List.length_take] at h'
          by_cases hoff : off ≤ i
          · rw [if_pos ⟨rfl, hoff, by omega, by omega⟩, List.getElem?_take_of_lt (by omega)]
          · omega
        · rename_i h'
          simp only [List.length_take] at h'
          rw [List.getElem?_drop]
          simp only [List.length_take]
          by_cases hi : i < b.length
          · rw [if_neg (by omega)]
            congr 1
            omega
          · rw [if_neg (by omega), List.getElem?_eq_none (by omega), List.getElem?_eq_none (by omega)]
    · rw [List.getElem?_set_ne (by omega), if_neg (by tauto)]

/-- **C48** The copy operations panic exactly for a channel that does not exist. -/
theorem C48_panic {b : Buf K V} (hb : b.WF) (data : List V) (ch off : Nat) :
    (b.copyFrom data ch off = none ↔ b.channels.length ≤ ch) ∧
    (b.copyTo data ch off = none ↔ b.channels.length ≤ ch) := by
  rcases Nat.lt_or_ge ch b.channels.length with h | h
  · obtain ⟨d, hd, -⟩ := C48_copy_from hb h data off
    obtain ⟨d', hd', -⟩ := C48_copy_to hb h data off
    rw [hd, hd']
    simp only [reduceCtorEq, false_iff]
    omega
  · simp [Buf.copyFrom, Buf.copyTo, List.getElem?_eq_none h, h]

/-- **C48** Samples written to a channel are read back: as many as fit between the offset and the end of
the buffer. -/
theorem C48_roundtrip {b b' : Buf K V} (hb : b.WF) {ch : Nat} (src dest : List V) (off : Nat)
    (hd : dest.length = src.length) (h : b.copyTo src ch off = some b') :
    ∃ d, b'.copyFrom dest ch off = some d ∧
      d.take (b.length - off) = src.take (b.length - off) ∧
      d.drop (b.length - off) = dest.drop (b.length - off) := by
  have hch : ch < b.channels.length := by
    by_contra hge
    rw [(C48_panic hb src ch off).2.2 (not_lt.1 hge)] at h
    cases h
  obtain ⟨b₁, h₁, hwf, hlen, -, hn, hs⟩ := C48_copy_to hb hch src off
  obtain rfl : b' = b₁ := Option.some.inj (h.symm.trans h₁)
  obtain ⟨d, hd1, hd2, hd3⟩ := C48_copy_from hwf (hn.symm ▸ hch : ch < b'.channels.length) dest off
  refine ⟨d, hd1, ?_, ?_⟩
  · apply List.ext_getElem?
    intro i
    rcases Nat.lt_or_ge i (b.length - off) with hi | hi
    · rw [List.getElem?_take_of_lt hi, List.getElem?_take_of_lt hi]
      rcases Nat.lt_or_ge i src.length with hi' | hi'
      · rw [hd3 i (by omega), if_pos (by omega), hs, if_pos ⟨rfl, by omega, by omega, by omega⟩]
        congr 1
        omega
      · rw [List.getElem?_eq_none (by omega), List.getElem?_eq_none hi']
    · rw [List.getElem?_eq_none (by simp; omega), List.getElem?_eq_none (by simp; omega)]
  · apply List.ext_getElem?
    intro i
    rw [List.getElem?_drop, List.getElem?_drop]
    rcases Nat.lt_or_ge (b.length - off + i) dest.length with hi | hi
    · rw [hd3 _ hi, if_neg (by omega)]
    · rw [List.getElem?_eq_none (by omega), List.getElem?_eq_none (by omega)]

/-- **C48** An offset at or beyond the end copies nothing, in either direction. -/
theorem C48_out_of_range {b : Buf K V} (hb : b.WF) {ch : Nat} (hch : ch < b.channels.length)
    (data : List V) {off : Nat} (hoff : b.length ≤ off) :
    b.copyFrom data ch off = some data ∧ b.copyTo data ch off = some b := by
  obtain ⟨c, hc⟩ : ∃ c, b.channels[ch]? = some c := ⟨_, List.getElem?_eq_getElem hch⟩
  have hl : c.length = b.length := hb c (List.mem_of_getElem? hc)
  rw [copyFrom_eq hb hc, copyTo_eq hb hc]
  have hcc : b.channels[ch] = c := by
    rw [List.getElem?_eq_getElem hch] at hc
    exact Option.some.inj hc
  have h0 : b.length - off = 0 := by omega
  rw [List.drop_eq_nil_of_le (show c.length ≤ off by omega),
    List.drop_eq_nil_of_le (show c.length ≤ off + data.length by omega),
    List.take_of_length_le (show c.length ≤ off by omega), h0]
  simp [← hcc]

/-! ## Well-formedness: every buffer a user can make has channels of equal length -/

theorem wf_new [Field K] [LinearOrder K] [Zero V] {n len : Nat} {sr : K} {b : Buf K V}
    (h : Buf.new n len sr = some b) : b.WF := by
  simp only [Buf.new] at h
  split at h
  · rename_i hv
    obtain rfl := Option.some.inj h
    intro c hc
    obtain ⟨n, rfl⟩ : ∃ m, n = m + 1 := ⟨n - 1, by omega⟩
    simp only [List.mem_replicate] at hc
    rw [hc.2]
    simp [Buf.length, List.replicate_succ]
  · cases h

theorem wf_from [Field K] [LinearOrder K] {cs : List (List V)} {sr : K} {b : Buf K V}
    (h : Buf.from cs sr = some b) : b.WF := by
  simp only [Buf.from] at h
  split at h
  · rename_i hv
    obtain rfl := Option.some.inj h
    intro c hc
    rw [hv.2.2.2 c hc]
    cases cs <;> simp [Buf.length]
  · cases h

/-- **C48** `AudioBuffer::new` is silent in every channel; `AudioBuffer::from` contains the given
samples; both have channels of equal length. -/
theorem C48_construct [Field K] [LinearOrder K] [Zero V] :
    (∀ (n len : Nat) (sr : K) (b : Buf K V), Buf.new n len sr = some b →
      b.WF ∧ b.channels.length = n ∧ b.length = len ∧ b.rate = sr ∧
      ∀ c < n, ∀ i < len, b.sample c i = some 0) ∧
    (∀ (cs : List (List V)) (sr : K) (b : Buf K V), Buf.from cs sr = some b →
      b.WF ∧ b.rate = sr ∧ ∀ c i, b.sample c i = (cs[c]?).bind (·[i]?)) := by
  refine ⟨fun n len sr b h => ⟨wf_new h, ?_⟩, fun cs sr b h => ⟨wf_from h, ?_⟩⟩
  · simp only [Buf.new] at h
    split at h
    · rename_i hv
      obtain rfl := Option.some.inj h
      obtain ⟨n, rfl⟩ : ∃ m, n = m + 1 := ⟨n - 1, by omega⟩
      refine ⟨by simp, by simp [Buf.length, List.replicate_succ], rfl, fun c hc i hi => ?_⟩
      simp only [Buf.sample]
      rw [List.getElem?_replicate, if_pos hc, Option.bind_some, List.getElem?_replicate, if_pos hi]
    · cases h
  · simp only [Buf.from] at h
    split at h
    · obtain rfl := Option.some.inj h
      exact ⟨rfl, fun _ _ => rfl⟩
    · cases h

/-- two channels of three frames -/
def exBuf : Buf ℚ ℤ := ⟨[[1, 2, 3], [4, 5, 6]], 48000⟩

example : exBuf.WF := by decide +kernel
example : Buf.from exBuf.channels 48000 = some exBuf := by decide +kernel
example : exBuf.copyFrom [0, 0, 0, 0] 1 1 = some [5, 6, 0, 0] := by decide +kernel
example : exBuf.copyTo [7, 8, 9] 0 1 = some ⟨[[1, 7, 8], [4, 5, 6]], 48000⟩ := by decide +kernel
example : (exBuf.copyTo [7, 8, 9] 0 1).bind (·.copyFrom [0, 0, 0] 0 1) = some [7, 8, 0] := by
  decide +kernel
example : exBuf.copyTo [7] 0 5 = some exBuf ∧ exBuf.copyTo [7] 2 0 = none := by decide +kernel

end Verif.Buffer
