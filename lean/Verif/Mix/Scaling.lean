import Verif.Mix.Rounding
import Verif.Float.Mono

/-!
# Powers of two

Rounding to `p` bits commutes with the multiplication by a power of two and with the change of the sign. So does mixing and summing with
rounding (`Verif.Mix.Rounding`).
-/

namespace Verif.Float

/-- the exponent is determined by its property -/
theorem expo_eq {x : ℚ} {e : ℤ} (h1 : (2 : ℚ) ^ e ≤ x) (h2 : x < 2 ^ (e + 1)) : expo x = e := by
  have hx : 0 < x := lt_of_lt_of_le (by positivity) h1
  obtain ⟨a1, a2⟩ := expo_spec hx
  have b1 : expo x < e + 1 := (zpow_lt_zpow_iff_right₀ (by norm_num : (1 : ℚ) < 2)).1 (a1.trans_lt h2)
  have b2 : e < expo x + 1 := (zpow_lt_zpow_iff_right₀ (by norm_num : (1 : ℚ) < 2)).1 (h1.trans_lt a2)
  omega

theorem expo_scale {x : ℚ} (hx : 0 < x) (k : ℤ) : expo (2 ^ k * x) = expo x + k := by
  obtain ⟨a1, a2⟩ := expo_spec hx
  have hk : (0 : ℚ) < 2 ^ k := by positivity
  refine expo_eq ?_ ?_
  · rw [zpow_add₀ (by norm_num), mul_comm]
    exact mul_le_mul_of_nonneg_left a1 hk.le
  · rw [show expo x + k + 1 = k + (expo x + 1) by ring, zpow_add₀ (by norm_num)]
    exact mul_lt_mul_of_pos_left a2 hk

theorem rndPos_scale (p : Nat) {x : ℚ} (hx : 0 < x) (k : ℤ) : rndPos p (2 ^ k * x) = 2 ^ k * rndPos p x := by
  unfold rndPos
  dsimp only
  rw [expo_scale hx]
  have e1 : (2 : ℚ) ^ k * x * 2 ^ ((p : ℤ) - 1 - (expo x + k)) = x * 2 ^ ((p : ℤ) - 1 - expo x) := by
    rw [show (p : ℤ) - 1 - (expo x + k) = ((p : ℤ) - 1 - expo x) - k by ring, zpow_sub₀ (by norm_num)]
    field_simp
  have e2 : (2 : ℚ) ^ (-((p : ℤ) - 1 - (expo x + k))) = 2 ^ k * 2 ^ (-((p : ℤ) - 1 - expo x)) := by
    rw [← zpow_add₀ (by norm_num)]
    congr 1
    ring
  rw [e1, e2]
  ring

/-- rounding commutes with powers of two -/
theorem rnd_scale (p : Nat) (x : ℚ) (k : ℤ) : rnd p (2 ^ k * x) = 2 ^ k * rnd p x := by
  have hk : (0 : ℚ) < 2 ^ k := by positivity
  unfold rnd
  rcases lt_trichotomy x 0 with h | rfl | h
  · rw [if_neg (mul_ne_zero hk.ne' h.ne), if_pos (mul_neg_of_pos_of_neg hk h), if_neg h.ne, if_pos h, ← mul_neg, rndPos_scale p (by linarith)]
    ring
  · simp
  · rw [if_neg (mul_pos hk h).ne', if_neg (mul_pos hk h).le.not_gt, if_neg h.ne', if_neg h.le.not_gt, rndPos_scale p h]

/-- rounding commutes with the sign -/
theorem rnd_neg (p : Nat) (x : ℚ) : rnd p (-x) = -rnd p x := by
  unfold rnd
  rcases lt_trichotomy x 0 with h | rfl | h
  · rw [if_neg (by linarith), if_neg (by linarith), if_neg h.ne, if_pos h, neg_neg]
  · simp
  · rw [if_neg (by linarith), if_pos (by linarith), if_neg h.ne', if_neg h.le.not_gt, neg_neg]

end Verif.Float

namespace Verif.Mix

open Float

section
variable {K : Type} [Field K]

/-- Specification: all channels of a buffer louder by a factor (in memory that is shared in the same way) -/
def scaled (c : K) (cs : List (Chan K)) : List (Chan K) := cs.map fun x => ⟨x.ptr, fun i => c * x.data i⟩

theorem scaled_zero (c : K) : (⟨(zero : Chan K).ptr, fun i => c * (zero : Chan K).data i⟩ : Chan K) = zero := by simp [zero]

theorem scaled_fill (c : K) (cs : List (Chan K)) (m : Nat) : fill (scaled c cs) m = scaled c (fill cs m) := by
  simp [fill, scaled, List.map_take, scaled_zero]

theorem scaled_identical (c : K) (cs : List (Chan K)) : identical (scaled c cs) = identical cs := by
  cases cs <;> simp [identical, scaled, Function.comp_def]

variable {rd : K → K} {c : K} (hc : ∀ x, rd (c * x) = c * rd x)
include hc

theorem scaled_add (next : Nat) (a b : Chan K) :
    Chan.addR rd next ⟨a.ptr, fun i => c * a.data i⟩ ⟨b.ptr, fun i => c * b.data i⟩ =
      (⟨(Chan.addR rd next a b).1.ptr, fun i => c * (Chan.addR rd next a b).1.data i⟩, (Chan.addR rd next a b).2) := by
  unfold Chan.addR Chan.isSilent
  dsimp only
  by_cases h1 : (a.ptr == 0) = true
  · simp only [h1, if_true]
  · by_cases h2 : (b.ptr == 0) = true
    · simp only [h1, h2, if_true]; rfl
    · simp only [h1, h2, ← mul_add, hc]; rfl

theorem scaled_mixInner (r : K) (next : Nat) (cs : List (Chan K)) (m : Nat) (interp : Interp) :
    mixInnerR rd r next (scaled c cs) m interp = (scaled c (mixInnerR rd r next cs m interp).1, (mixInnerR rd r next cs m interp).2) := by
  have hl : (scaled c cs).length = cs.length := by simp [scaled]
  have e1 : ∀ a x : K, a * (c * x) = c * (a * x) := fun a x => by ring
  have e2 := scaled_zero c
  by_cases h : interp = .discrete ∨ cs.length > 6 ∨ m > 6
  · unfold mixInnerR
    rw [hl, if_pos h, if_pos h, scaled_fill]
  · have hfill := scaled_fill c cs m
    unfold mixInnerR
    rw [hl, if_neg h, if_neg h]
    push Not at h
    obtain ⟨-, h1, h2⟩ := h
    match cs, h1, hfill with
    | [], _, hf => exact Prod.ext hf rfl
    | [a], _, hf | [a, b], _, hf | [a, b, d], _, hf | [a, b, d, e], _, hf | [a, b, d, e, f], _, hf | [a, b, d, e, f, g], _, hf =>
      simp only [scaled, List.map_cons, List.map_nil] at hf ⊢
      rcases m with _ | _ | _ | _ | _ | _ | _ | m <;> first | omega | exact Prod.ext hf rfl | rfl | (simp only [List.map_cons, List.map_nil, e2, ← mul_add, e1, hc])
    | _ :: _ :: _ :: _ :: _ :: _ :: _ :: l, h, _ => simp only [List.length_cons] at h; omega

theorem scaled_mix (r : K) (next : Nat) (cs : List (Chan K)) (m : Nat) (interp : Interp) :
    mixR rd r next (scaled c cs) m interp = (scaled c (mixR rd r next cs m interp).1, (mixR rd r next cs m interp).2) := by
  have hl : (scaled c cs).length = cs.length := by simp [scaled]
  unfold mixR
  rw [hl]
  split
  · rfl
  · exact scaled_mixInner hc r next cs m interp

theorem scaled_addChans (next : Nat) (as bs : List (Chan K)) :
    addChansR rd next (scaled c as) (scaled c bs) = (scaled c (addChansR rd next as bs).1, (addChansR rd next as bs).2) := by
  induction as generalizing next bs with
  | nil => rfl
  | cons a as ih =>
    cases bs with
    | nil => rfl
    | cons b bs =>
      have := ih (Chan.addR rd next a b).2 bs
      simp only [scaled, List.map_cons, addChansR] at this ⊢
      rw [scaled_add hc, this]

theorem scaled_buffers (r : K) (mode : Mode) (count : Nat) (interp : Interp) (next : Nat) (self other : List (Chan K)) :
    addR rd r mode count interp next (scaled c self) (scaled c other) =
      (scaled c (addR rd r mode count interp next self other).1, (addR rd r mode count interp next self other).2) := by
  have hl : ∀ cs, (scaled c cs).length = cs.length := by simp [scaled]
  unfold addR
  dsimp only
  rw [hl, hl, scaled_identical, scaled_identical]
  split
  · cases self with
    | nil => rfl
    | cons a self =>
      cases other with
      | nil => rfl
      | cons b other =>
        simp only [scaled, List.map_cons]
        rw [scaled_add hc]
        exact scaled_mix hc r _ [(Chan.addR rd next a b).1] _ interp
  · rw [scaled_mix hc, scaled_mix hc]
    exact scaled_addChans hc _ _ _

/-- summing louder buffers -/
theorem scaled_sum (r : K) (mode : Mode) (count : Nat) (interp : Interp) (next : Nat) (bufs : List (List (Chan K))) :
    sumIntoR rd r mode count interp next (bufs.map (scaled c)) =
      (scaled c (sumIntoR rd r mode count interp next bufs).1, (sumIntoR rd r mode count interp next bufs).2) := by
  have key : ∀ (bufs : List (List (Chan K))) (s : List (Chan K)) (n : Nat),
      (bufs.map (scaled c)).foldl (fun (s : List (Chan K) × Nat) o => addR rd r mode count interp s.2 s.1 o) (scaled c s, n) =
      (scaled c (bufs.foldl (fun (s : List (Chan K) × Nat) o => addR rd r mode count interp s.2 s.1 o) (s, n)).1,
        (bufs.foldl (fun (s : List (Chan K) × Nat) o => addR rd r mode count interp s.2 s.1 o) (s, n)).2) := by
    intro bufs
    induction bufs with
    | nil => intro s n; rfl
    | cons b bufs ih =>
      intro s n
      simp only [List.map_cons, List.foldl_cons]
      rw [scaled_buffers hc]
      exact ih _ _
  have := key bufs [zero] next
  rw [show scaled c [(zero : Chan K)] = [zero] by simp [scaled, zero]] at this
  exact this

end

/-- C121: all sources of an input are louder by a power of two (or softer, `k` negative), with the sign changed or not (`s` is 1 or -1). Then
mixing and summing in `f32` (or any other precision `p`) gives exactly the same samples, louder by that factor: not a bit is different,
whatever the layouts, modes and samples, and whatever the rounded value `r` of sqrt(0.5). -/
theorem C121_power (p : Nat) (r : ℚ) (mode : Mode) (count : Nat) (interp : Interp) (next : Nat) (bufs : List (List (Chan ℚ))) (k : ℤ) {s : ℚ}
    (hs : s = 1 ∨ s = -1) (i : Nat) :
    samplesAt (sumIntoR (rnd p) r mode count interp next (bufs.map (scaled (s * 2 ^ k)))).1 i =
      (samplesAt (sumIntoR (rnd p) r mode count interp next bufs).1 i).map fun x => s * 2 ^ k * x := by
  have hc : ∀ x : ℚ, rnd p (s * 2 ^ k * x) = s * 2 ^ k * rnd p x := by
    intro x
    rcases hs with rfl | rfl
    · rw [one_mul, rnd_scale]
    · rw [neg_one_mul, neg_mul, rnd_neg, rnd_scale, neg_mul]
  rw [scaled_sum hc]
  simp [samplesAt, scaled, Function.comp_def]

/-! ## Before or after the mix -/

section
variable {K : Type} [Field K]

/-- `GainNode`, `/repo/src/node/gain.rs` l.183-190: every sample of every channel is multiplied by the gain, with one rounding. Not
modelled here (see `Verif.Node`): the fast track for gains within 1e-6 of 0 and 1, and the new memory of the channels. -/
def amplify (rd : K → K) (g : K) (cs : List (Chan K)) : List (Chan K) := cs.map fun x => ⟨x.ptr, fun i => rd (x.data i * g)⟩

/-- Specification: the samples have the precision of the rounding -/
def Stored (rd : K → K) (cs : List (Chan K)) : Prop := ∀ x ∈ cs, ∀ i, rd (x.data i) = x.data i

variable {rd : K → K} (h0 : rd 0 = 0) (hh : ∀ x, rd (rd x) = rd x)

include h0 in
theorem stored_zero : ∀ i, rd ((zero : Chan K).data i) = (zero : Chan K).data i := fun _ => h0

include h0 in
theorem stored_fill {cs : List (Chan K)} (h : Stored rd cs) (m : Nat) : Stored rd (fill cs m) := by
  intro x hx
  rcases List.mem_append.1 (List.mem_of_mem_take hx) with hx | hx
  · exact h x hx
  · rw [List.eq_of_mem_replicate hx]; exact stored_zero h0

include hh in
theorem stored_add {a b : Chan K} (ha : ∀ i, rd (a.data i) = a.data i) (hb : ∀ i, rd (b.data i) = b.data i) (next : Nat) :
    ∀ i, rd ((Chan.addR rd next a b).1.data i) = (Chan.addR rd next a b).1.data i := by
  unfold Chan.addR
  split
  · exact hb
  · split
    · exact ha
    · exact fun i => hh _

include h0 hh in
theorem stored_mix (r : K) (next : Nat) {cs : List (Chan K)} (h : Stored rd cs) (m : Nat) (interp : Interp) :
    Stored rd (mixR rd r next cs m interp).1 := by
  have z := stored_zero (K := K) h0
  unfold mixR
  split
  · exact h
  · have hf := stored_fill h0 h m
    unfold mixInnerR
    split
    · exact hf
    · unfold Stored at h ⊢
      split <;> first | exact hf | (simp only [List.forall_mem_cons, List.not_mem_nil, false_implies, implies_true, and_true, hh, z, true_and] at h ⊢ <;> tauto)

include hh in
theorem stored_addChans (next : Nat) {as bs : List (Chan K)} (ha : Stored rd as) (hb : Stored rd bs) : Stored rd (addChansR rd next as bs).1 := by
  induction as generalizing next bs with
  | nil => exact ha
  | cons a as ih =>
    cases bs with
    | nil => exact ha
    | cons b bs =>
      simp only [Stored, List.forall_mem_cons, addChansR] at ha hb ⊢
      exact ⟨stored_add hh ha.1 hb.1 next, ih _ ha.2 hb.2⟩

include h0 hh in
/-- every sample of a sum has the precision of the rounding -/
theorem stored_sum (r : K) (mode : Mode) (count : Nat) (interp : Interp) (next : Nat) {bufs : List (List (Chan K))} (h : ∀ b ∈ bufs, Stored rd b) :
    Stored rd (sumIntoR rd r mode count interp next bufs).1 := by
  have key : ∀ (bufs : List (List (Chan K))) (s : List (Chan K) × Nat), (∀ b ∈ bufs, Stored rd b) → Stored rd s.1 →
      Stored rd (bufs.foldl (fun (s : List (Chan K) × Nat) o => addR rd r mode count interp s.2 s.1 o) s).1 := by
    intro bufs
    induction bufs with
    | nil => exact fun s _ hs => hs
    | cons b bufs ih =>
      intro s hb hs
      refine ih _ (fun x hx => hb x (List.mem_cons_of_mem _ hx)) ?_
      have hb := hb b (by simp)
      unfold addR
      dsimp only
      split
      · obtain ⟨s, n⟩ := s
        dsimp only at hs ⊢
        cases s with
        | nil => exact hs
        | cons a s =>
          cases b with
          | nil => exact hs
          | cons c b =>
            refine stored_mix h0 hh r _ ?_ _ _
            intro x hx
            rw [List.mem_singleton.1 hx]
            exact stored_add hh (hs a (by simp)) (hb c (by simp)) _
      · exact stored_addChans hh _ (stored_mix h0 hh r _ hs _ _) (stored_mix h0 hh r _ hb _ _)
  exact key bufs _ h (by intro x hx; rw [List.mem_singleton.1 hx]; exact stored_zero h0)

end

/-- C121: a gain of a power of two (or minus that), in front of every source or behind the sum: not a bit is different, for all
samples that are numbers of `p` bits. -/
theorem C121_before_after {p : Nat} (hp : 0 < p) (r : ℚ) (mode : Mode) (count : Nat) (interp : Interp) (next : Nat) {bufs : List (List (Chan ℚ))}
    (hb : ∀ b ∈ bufs, ∀ x ∈ b, ∀ i, IsFloat p (x.data i)) (k : ℤ) {s : ℚ} (hs : s = 1 ∨ s = -1) (i : Nat) :
    samplesAt (sumIntoR (rnd p) r mode count interp next (bufs.map (amplify (rnd p) (s * 2 ^ k)))).1 i =
      samplesAt (amplify (rnd p) (s * 2 ^ k) (sumIntoR (rnd p) r mode count interp next bufs).1) i := by
  have hc : ∀ x : ℚ, rnd p (x * (s * 2 ^ k)) = s * 2 ^ k * rnd p x := by
    intro x
    rcases hs with rfl | rfl
    · rw [one_mul, mul_comm, rnd_scale]
    · rw [neg_one_mul, mul_neg, rnd_neg, mul_comm, rnd_scale, neg_mul]
  have hst : ∀ b ∈ bufs, Stored (rnd p) b := fun b mb x mx i => rnd_of_isFloat hp (hb b mb x mx i)
  have e : ∀ cs : List (Chan ℚ), Stored (rnd p) cs → amplify (rnd p) (s * 2 ^ k) cs = scaled (s * 2 ^ k) cs := by
    intro cs h
    refine List.map_congr_left fun x hx => ?_
    simp only [hc, h x hx]
  rw [List.map_congr_left fun b hb => e b (hst b hb), C121_power p r mode count interp next bufs k hs,
    e _ (stored_sum (by simp [rnd]) (fun x => rnd_of_isFloat hp (rnd_nearest hp x).1) r mode count interp next hst)]
  simp [samplesAt, scaled, Function.comp_def]

/-- C121: other factors do change bits: three times louder sources do not give three times louder samples. -/
theorem C121_negated_factor : ∃ bufs : List (List (Chan ℚ)), Memory 3 bufs ∧ ∀ r : ℚ,
    samplesAt (sumIntoR (rnd 24) r .max 2 .speakers 3 (bufs.map (scaled 3))).1 0 ≠
      (samplesAt (sumIntoR (rnd 24) r .max 2 .speakers 3 bufs).1 0).map fun x => rnd 24 (3 * x) := by
  refine ⟨[[⟨1, fun _ => 1⟩], [⟨2, fun _ => 2 ^ (-24 : ℤ)⟩]], ⟨by omega, by simp, by simp⟩, fun r => ?_⟩
  show [rnd 24 (3 * 1 + 3 * 2 ^ (-24 : ℤ))] ≠ [rnd 24 (3 * rnd 24 (1 + 2 ^ (-24 : ℤ)))]
  decide +kernel

/-- three sources with different layouts, one of 5.1, mixed to stereo and summed; halved and with the sign changed -/
example (r : ℚ) (x : Nat → Nat → ℚ) (i : Nat) :
    let bufs : List (List (Chan ℚ)) := [[⟨1, x 1⟩], [⟨2, x 2⟩, ⟨3, x 3⟩], [⟨4, x 4⟩, ⟨5, x 5⟩, ⟨6, x 6⟩, ⟨7, x 7⟩, ⟨8, x 8⟩, ⟨9, x 9⟩]]
    samplesAt (sumIntoR (rnd 24) r .explicit 2 .speakers 10 (bufs.map (scaled (-1 * 2 ^ (-1 : ℤ))))).1 i =
      (samplesAt (sumIntoR (rnd 24) r .explicit 2 .speakers 10 bufs).1 i).map fun y => -1 * 2 ^ (-1 : ℤ) * y :=
  C121_power 24 r .explicit 2 .speakers 10 _ (-1) (.inr rfl) i

/-- a mono and a stereo source at half the level -/
example (r : ℚ) (i : Nat) :
    let bufs : List (List (Chan ℚ)) := [[⟨1, fun n => (n % 8 : Nat)⟩], [⟨2, fun _ => 3 / 4⟩, ⟨3, fun _ => -5⟩]]
    samplesAt (sumIntoR (rnd 24) r .max 2 .speakers 4 (bufs.map (amplify (rnd 24) (1 * 2 ^ (-1 : ℤ))))).1 i =
      samplesAt (amplify (rnd 24) (1 * 2 ^ (-1 : ℤ)) (sumIntoR (rnd 24) r .max 2 .speakers 4 bufs).1) i := by
  refine C121_before_after (by norm_num) r .max 2 .speakers 4 ?_ (-1) (.inl rfl) i
  simp only [List.forall_mem_cons, List.not_mem_nil, false_implies, implies_true, and_true]
  refine ⟨fun i => ⟨(i % 8 : Nat), 0, ?_, ?_⟩, fun _ => ⟨3, -2, by norm_num, by norm_num⟩, fun _ => ⟨-5, 0, by norm_num, by norm_num⟩⟩
  · have : i % 8 < 8 := Nat.mod_lt _ (by norm_num)
    rw [abs_of_nonneg (by positivity)]
    omega
  · rw [zpow_zero, mul_one]
    norm_cast

end Verif.Mix
