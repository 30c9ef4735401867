import Verif.Buffer.CopyProps
import Verif.Float.Mono
import Mathlib.Data.Rat.Floor
import Mathlib.Algebra.Order.Floor.Ring
import Mathlib.Tactic.Linarith
import Mathlib.Tactic.FieldSimp
import Mathlib.Tactic.Ring

/-!
# C49: `AudioBuffer::resample`

The theorems hold for every rounding `r64` of the index computation that is monotone and exact for
natural numbers up to `N` (`f64`: `N = 2^53`), and every rounding `r32` of the fraction that is monotone
and exact for 0 and 1.
-/

namespace Verif.Buffer

open Verif.Float (Rounding)

theorem mapM_eq_map {α β : Type} {f : α → Option β} {g : α → β} {l : List α}
    (h : ∀ a ∈ l, f a = some (g a)) : l.mapM f = some (l.map g) := by
  induction l with
  | nil => rfl
  | cons a l ih =>
    rw [List.mapM_cons, h a (by simp), ih fun x hx => h x (by simp [hx])]
    rfl

variable {K : Type} [Field K] [LinearOrder K] [IsStrictOrderedRing K] [FloorSemiring K]
  {r64 r32 : K → K}

/-- The playhead is between 0 and the last source index, and exact at both ends. -/
theorem playhead_spec {N : Nat} (h64 : Rounding r64 N) {sl tl : Nat} (htl : 2 ≤ tl)
    (hs : sl - 1 ≤ N) (hN : 1 ≤ N) {i : Nat} (hi : i < tl) :
    ∃ p, playhead r64 sl tl i = some p ∧ 0 ≤ p ∧ p ≤ ((sl - 1 : Nat) : K) ∧
      (i = 0 → p = 0) ∧ (i = tl - 1 → p = ((sl - 1 : Nat) : K)) := by
  have h0 : r64 0 = 0 := by simpa using h64.nat 0 (by omega)
  have h1 : r64 1 = 1 := by simpa using h64.nat 1 hN
  have hpos : (0 : K) < ((tl - 1 : Nat) : K) := by exact_mod_cast (by omega : 0 < tl - 1)
  have hq0 : 0 ≤ (i : K) / ((tl - 1 : Nat) : K) := by positivity
  have hq1 : (i : K) / ((tl - 1 : Nat) : K) ≤ 1 := by
    rw [div_le_one hpos]
    exact_mod_cast (by omega : i ≤ tl - 1)
  have hp0 : 0 ≤ r64 ((i : K) / ((tl - 1 : Nat) : K)) := h0 ▸ h64.mono hq0
  have hp1 : r64 ((i : K) / ((tl - 1 : Nat) : K)) ≤ 1 := h1 ▸ h64.mono hq1
  have hs0 : (0 : K) ≤ ((sl - 1 : Nat) : K) := Nat.cast_nonneg _
  have hsl := h64.nat (sl - 1) hs
  refine ⟨_, if_neg (by omega), ?_, ?_, ?_, ?_⟩
  · exact h0 ▸ h64.mono (mul_nonneg hp0 hs0)
  · have := h64.mono (mul_le_of_le_one_left hs0 hp1)
    rwa [hsl] at this
  · rintro rfl
    simp [h0]
  · rintro rfl
    rw [div_self hpos.ne', h1, one_mul, hsl]

theorem frac_bounds (h32 : Rounding r32 1) {p : K} (hp : 0 ≤ p) :
    0 ≤ r32 (p - ⌊p⌋₊) ∧ r32 (p - ⌊p⌋₊) ≤ 1 := by
  have h0 : r32 0 = 0 := by simpa using h32.nat 0 (by omega)
  have h1 : r32 1 = 1 := by simpa using h32.nat 1 le_rfl
  have ha := Nat.floor_le hp
  have hb := Nat.lt_floor_add_one p
  exact ⟨h0 ▸ h32.mono (by linarith : (0 : K) ≤ p - ⌊p⌋₊),
    h1 ▸ h32.mono (by linarith : p - (⌊p⌋₊ : K) ≤ 1)⟩

/-- `frameAt` never indexes out of bounds, and interpolates between neighbours. -/
theorem frameAt_spec {N : Nat} (h64 : Rounding r64 N) (h32 : Rounding r32 1) {c : List (Option K)}
    {tl : Nat} (htl : 2 ≤ tl) (hs : c.length - 1 ≤ N) (hN : 1 ≤ N) (hc : 0 < c.length) {i : Nat}
    (hi : i < tl) :
    ∃ p : K, ∃ j : Nat, ∃ a b : Option K, playhead r64 c.length tl i = some p ∧ j = ⌊p⌋₊ ∧
      c[j]? = some a ∧ c[min (j + 1) (c.length - 1)]? = some b ∧
      frameAt r64 r32 c c.length tl i = some (lerp (some (r32 (p - ⌊p⌋₊))) a b) := by
  obtain ⟨p, hp, h0, h1, -, -⟩ := playhead_spec h64 htl hs hN hi
  have hj : ⌊p⌋₊ < c.length := by
    have : ⌊p⌋₊ ≤ c.length - 1 := by
      rw [← Nat.floor_natCast (R := K) (c.length - 1)]
      exact Nat.floor_le_floor h1
    omega
  have hn : min (⌊p⌋₊ + 1) (c.length - 1) < c.length := by omega
  refine ⟨p, _, _, _, hp, rfl, List.getElem?_eq_getElem hj, List.getElem?_eq_getElem hn, ?_⟩
  simp only [frameAt, hp, prevIndex, frac, List.getElem?_eq_getElem hj, List.getElem?_eq_getElem hn]

theorem resample_eq {N : Nat} (h64 : Rounding r64 N) (h32 : Rounding r32 1) {b : Buf K (Option K)}
    (hb : b.WF) {sr : K} (hsr : validRate sr) (hdiff : 1 / 10 < |b.rate - sr|) (hlen : 0 < b.length)
    (hs : b.length - 1 ≤ N) (hN : 1 ≤ N) (htl : 2 ≤ targetLength r64 b.length b.rate sr) :
    b.resample r64 r32 sr = some ⟨b.channels.map fun c =>
      (List.range (targetLength r64 b.length b.rate sr)).map fun i =>
        (frameAt r64 r32 c b.length (targetLength r64 b.length b.rate sr) i).getD none, sr⟩ := by
  simp only [Buf.resample]
  rw [if_neg (not_not.2 hsr), if_neg (not_le.2 hdiff), if_neg (by omega), mapM_eq_map, Option.map_some]
  intro c hc
  apply mapM_eq_map
  intro i hi
  have hcl := hb c hc
  obtain ⟨p, j, a, b', -, -, -, -, h⟩ := frameAt_spec h64 h32 htl (hcl ▸ hs) hN (hcl ▸ hlen)
    (List.mem_range.1 hi)
  rw [hcl] at h
  rw [h]
  rfl

omit [IsStrictOrderedRing K] [FloorSemiring K] in
theorem lerp_zero (a : K) (b : Option K) (hb : b.isSome) : lerp (some 0) (some a) b = some a := by
  obtain ⟨b, rfl⟩ := Option.isSome_iff_exists.1 hb
  simp [lerp]

/-- **C49** Resampling to another rate succeeds, keeps the number of channels, gives every channel
`targetLength` frames, and every frame is a convex combination of two neighbouring source samples: finite
and between the two. (Provided there are at least two target frames.) -/
theorem C49_convex_partial {N : Nat} (h64 : Rounding r64 N) (h32 : Rounding r32 1)
    {b : Buf K (Option K)} (hb : b.WF) (hfin : ∀ c ∈ b.channels, none ∉ c) {sr : K} (hsr : validRate sr)
    (hdiff : 1 / 10 < |b.rate - sr|) (hlen : 0 < b.length) (hs : b.length - 1 ≤ N) (hN : 1 ≤ N)
    (htl : 2 ≤ targetLength r64 b.length b.rate sr) :
    ∃ b', b.resample r64 r32 sr = some b' ∧ b'.rate = sr ∧ b'.WF ∧
      b'.length = targetLength r64 b.length b.rate sr ∧ b'.channels.length = b.channels.length ∧
      ∀ ch < b.channels.length, ∀ i < targetLength r64 b.length b.rate sr, ∃ j : Nat, ∃ x y k : K,
        b.sample ch j = some (some x) ∧ b.sample ch (min (j + 1) (b.length - 1)) = some (some y) ∧
        0 ≤ k ∧ k ≤ 1 ∧ b'.sample ch i = some (some ((1 - k) * x + k * y)) ∧
        min x y ≤ (1 - k) * x + k * y ∧ (1 - k) * x + k * y ≤ max x y := by
  have hcs : b.channels ≠ [] := by
    intro h
    simp [Buf.length, h] at hlen
  refine ⟨_, resample_eq h64 h32 hb hsr hdiff hlen hs hN htl, rfl, ?_, ?_, by simp, ?_⟩
  · intro c hc
    obtain ⟨c0, cs, hcc⟩ := List.exists_cons_of_ne_nil hcs
    obtain ⟨c', -, rfl⟩ := List.mem_map.1 hc
    simp [Buf.length, hcc]
  · obtain ⟨c0, cs, hcc⟩ := List.exists_cons_of_ne_nil hcs
    simp only [Buf.length, hcc, List.map_cons, List.length_map, List.length_range]
  · intro ch hch i hi
    have hcm : b.channels[ch] ∈ b.channels := List.getElem_mem hch
    have hcl := hb _ hcm
    obtain ⟨p, j, a, a', hp, hj, h1, h2, h3⟩ := frameAt_spec h64 h32 htl (hcl ▸ hs) hN (hcl ▸ hlen) hi
    obtain ⟨x, rfl⟩ : ∃ x, a = some x := by
      cases a with
      | none => exact absurd (List.mem_of_getElem? h1) (hfin _ hcm)
      | some x => exact ⟨x, rfl⟩
    obtain ⟨y, rfl⟩ : ∃ y, a' = some y := by
      cases a' with
      | none => exact absurd (List.mem_of_getElem? h2) (hfin _ hcm)
      | some x => exact ⟨x, rfl⟩
    have hp0 : 0 ≤ p := by
      obtain ⟨p', hp', h0, -⟩ := playhead_spec h64 htl (hcl ▸ hs) hN hi
      rw [hp] at hp'
      rw [Option.some.inj hp']
      exact h0
    obtain ⟨k0, k1⟩ := frac_bounds h32 hp0
    rw [hcl] at h2 h3
    refine ⟨j, x, y, r32 (p - ⌊p⌋₊), ?_, ?_, k0, k1, ?_, ?_, ?_⟩
    · simp [Buf.sample, List.getElem?_eq_getElem hch, h1]
    · simp [Buf.sample, List.getElem?_eq_getElem hch, h2]
    · simp only [Buf.sample, List.getElem?_map, List.getElem?_eq_getElem hch, Option.map_some,
        Option.bind_some, List.getElem?_range hi, h3, Option.getD_some]
      rfl
    · rcases le_total x y with h | h
      · rw [min_eq_left h]
        nlinarith
      · rw [min_eq_right h]
        nlinarith
    · rcases le_total x y with h | h
      · rw [max_eq_right h]
        nlinarith
      · rw [max_eq_left h]
        nlinarith

/-- **C49** The first and the last sample of every channel are preserved. (Provided there are at least
two target frames.) -/
theorem C49_endpoints_partial {N : Nat} (h64 : Rounding r64 N) (h32 : Rounding r32 1)
    {b b' : Buf K (Option K)} (hb : b.WF) (hfin : ∀ c ∈ b.channels, none ∉ c) {sr : K}
    (hsr : validRate sr) (hdiff : 1 / 10 < |b.rate - sr|) (hlen : 0 < b.length) (hs : b.length - 1 ≤ N)
    (hN : 1 ≤ N) (htl : 2 ≤ targetLength r64 b.length b.rate sr)
    (h : b.resample r64 r32 sr = some b') {ch : Nat} (hch : ch < b.channels.length) :
    b'.sample ch 0 = b.sample ch 0 ∧ b'.sample ch (b'.length - 1) = b.sample ch (b.length - 1) := by
  obtain ⟨b₁, e₁, -, -, hl', -⟩ := C49_convex_partial h64 h32 hb hfin hsr hdiff hlen hs hN htl
  obtain rfl : b' = b₁ := Option.some.inj (h.symm.trans e₁)
  have he := resample_eq h64 h32 hb hsr hdiff hlen hs hN htl
  rw [h] at he
  have he := Option.some.inj he
  have hcm : b.channels[ch] ∈ b.channels := List.getElem_mem hch
  have hcl := hb _ hcm
  have h0 : r32 0 = 0 := by simpa using h32.nat 0 (by omega)
  -- a frame whose playhead is exactly at index `j`
  have key : ∀ i j : Nat, i < targetLength r64 b.length b.rate sr → j < b.length →
      playhead r64 b.length (targetLength r64 b.length b.rate sr) i = some (j : K) →
      b'.sample ch i = b.sample ch j := by
    intro i j hi hj hp
    obtain ⟨p, j', a, a', hp', hj', h1, h2, h3⟩ :=
      frameAt_spec h64 h32 htl (hcl ▸ hs) hN (hcl ▸ hlen) hi
    rw [hcl, hp] at hp'
    obtain rfl := Option.some.inj hp'
    rw [Nat.floor_natCast] at hj' h3
    subst hj'
    obtain ⟨x, rfl⟩ : ∃ x, a = some x := by
      cases a with
      | none => exact absurd (List.mem_of_getElem? h1) (hfin _ hcm)
      | some x => exact ⟨x, rfl⟩
    have hs' : a'.isSome := by
      cases a' with
      | none => exact absurd (List.mem_of_getElem? h2) (hfin _ hcm)
      | some x => rfl
    rw [hcl, sub_self, h0, lerp_zero _ _ hs'] at h3
    rw [he]
    simp only [Buf.sample, List.getElem?_map, List.getElem?_eq_getElem hch, Option.map_some,
      Option.bind_some, List.getElem?_range hi, h3, Option.getD_some, h1]
  constructor
  · obtain ⟨p, hp, -, -, hp0, -⟩ := playhead_spec h64 htl hs hN (i := 0) (by omega)
    refine key 0 0 (by omega) hlen ?_
    rw [hp, hp0 rfl, Nat.cast_zero]
  · obtain ⟨p, hp, -, -, -, hp1⟩ := playhead_spec h64 htl hs hN
      (i := targetLength r64 b.length b.rate sr - 1) (by omega)
    rw [hl']
    refine key _ (b.length - 1) (by omega) (by omega) ?_
    rw [hp, hp1 rfl]

omit [IsStrictOrderedRing K] in
/-- **C49** Resampling to the same rate (or one that differs by at most 0.1 Hz) leaves every sample as it
is, and so does resampling of an empty buffer. -/
theorem C49_identity (b : Buf K (Option K)) {sr : K} (hsr : validRate sr)
    (h : |b.rate - sr| ≤ 1 / 10 ∨ b.length = 0) :
    ∃ b', b.resample r64 r32 sr = some b' ∧ b'.rate = sr ∧ ∀ c i, b'.sample c i = b.sample c i := by
  refine ⟨⟨b.channels, sr⟩, ?_, rfl, fun _ _ => rfl⟩
  simp only [Buf.resample]
  rw [if_neg (not_not.2 hsr)]
  by_cases h1 : |b.rate - sr| ≤ 1 / 10
  · rw [if_pos h1]
  · rw [if_neg h1, if_pos (h.resolve_left h1)]

/-- **C49** In exact arithmetic there are `⌈length * ratio⌉` frames, at least two if the new length in
seconds exceeds one new frame, and frame `i` is read at the proportional position in the source. -/
theorem C49_exact_partial (len : Nat) (source target : K) :
    targetLength id len source target = ⌈(len : K) * (target / source)⌉₊ ∧
    (2 ≤ targetLength id len source target ↔ 1 < (len : K) * (target / source)) ∧
    ∀ i tl : Nat, 2 ≤ tl →
      playhead id len tl i = some ((i : K) * ((len - 1 : Nat) : K) / ((tl - 1 : Nat) : K)) := by
  refine ⟨rfl, ?_, fun i tl htl => ?_⟩
  · simp only [targetLength, id]
    rw [show (2 : ℕ) = 1 + 1 from rfl, Nat.succ_le_iff, Nat.lt_ceil, Nat.cast_one]
  · simp only [playhead, id, if_neg (show ¬ tl - 1 = 0 by omega)]
    congr 1
    ring

omit [IsStrictOrderedRing K] in
/-- **C49** negated: a buffer that is resampled to a single frame becomes NaN, whatever it contains. -/
theorem C49_negated_single_frame {b b' : Buf K (Option K)} {sr : K} (hsr : validRate sr)
    (hdiff : 1 / 10 < |b.rate - sr|) (hlen : 0 < b.length)
    (htl : targetLength r64 b.length b.rate sr = 1) (h : b.resample r64 r32 sr = some b') :
    b'.channels = b.channels.map fun _ => [none] := by
  simp only [Buf.resample] at h
  rw [if_neg (not_not.2 hsr), if_neg (not_le.2 hdiff), if_neg (by omega), htl] at h
  obtain ⟨cs, hcs, rfl⟩ := Option.map_eq_some_iff.1 h
  show cs = _
  clear h
  have hone : ∀ c : List (Option K), ∀ r,
      (List.range 1).mapM (fun i => frameAt r64 r32 c b.length 1 i) = some r → r = [none] := by
    intro c r hr
    simp only [frameAt, playhead, frac, prevIndex, lerp, List.range_one, List.mapM_cons, List.mapM_nil,
      Nat.sub_self, if_true, Option.bind_none] at hr
    split at hr
    · simp at hr
      exact hr.symm
    · simp at hr
  generalize b.channels = l at hcs
  induction l generalizing cs with
  | nil =>
    simp at hcs
    subst hcs
    rfl
  | cons c l ih =>
    rw [List.mapM_cons] at hcs
    simp only [Option.bind_eq_bind, Option.pure_def] at hcs
    obtain ⟨r, hr, hcs⟩ := Option.bind_eq_some_iff.1 hcs
    obtain ⟨rs, hrs, hcs⟩ := Option.bind_eq_some_iff.1 hcs
    rw [← Option.some.inj hcs, hone c r hr, ih rs hrs]
    rfl

/-- **C49** negated: one frame at 48 kHz, resampled to 44.1 kHz, is NaN. -/
theorem C49_negated_single_frame_witness :
    Buf.resample (K := ℚ) id id ⟨[[some 1]], 48000⟩ 44100 = some ⟨[[none]], 44100⟩ := by decide +kernel

/-- **C49** negated: with `f64` rounding, 147 frames at 44.1 kHz are 161 frames at 48 kHz instead of
`147 * 48000 / 44100 = 160`. -/
theorem C49_negated_length :
    targetLength Float.f64 147 44100 48000 = 161 ∧ ⌈(147 : ℚ) * (48000 / 44100)⌉₊ = 160 := by
  decide +kernel

/-- four frames at 4 kHz, resampled to 8 kHz -/
def exRes : Buf ℚ (Option ℚ) := ⟨[[some 1, some 2, some 3, some 9]], 4000⟩

example : exRes.WF ∧ validRate (8000 : ℚ) ∧ 1 / 10 < |exRes.rate - 8000| ∧ 0 < exRes.length ∧
    (∀ c ∈ exRes.channels, none ∉ c) ∧ 2 ≤ targetLength Float.f64 exRes.length exRes.rate 8000 := by
  decide +kernel
example : exRes.resample id id 8000 = some ⟨[[some 1, some (10 / 7), some (13 / 7), some (16 / 7),
    some (19 / 7), some (27 / 7), some (45 / 7), some 9]], 8000⟩ := by decide +kernel
example : Rounding Float.f64 (2 ^ 53) := Float.rounding_rnd (by omega)
example : Rounding Float.f32 1 :=
  ⟨(Float.rounding_rnd (p := 24) (by omega)).mono, fun n hn =>
    (Float.rounding_rnd (p := 24) (by omega)).nat n (by omega)⟩
example : ((exRes.resample Float.f64 Float.f32 8000).map fun b => (b.length, b.sample 0 0, b.sample 0 7)) =
    some (8, some (some 1), some (some 9)) := by decide +kernel

end Verif.Buffer
