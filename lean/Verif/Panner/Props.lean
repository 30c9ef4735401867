import Verif.Panner.Process

/-!
# C65, C66, C67: what the panner puts out

The theorems about the model of `PannerRenderer::process` in `Panner/Process.lean`
(`/repo/src/node/panner.rs` l.686-904).
-/

namespace Verif.Panner

open Real Verif.Node

/-- Specification: the sample of channel `c` in frame `f`, if there is one and it is a number -/
def frameOf (q : Quantum (Option ℝ)) (c f : Nat) : Option ℝ :=
  match q[c]? with
  | some (some l) => (l[f]?).join
  | _ => none

/-- Specification: `v` is the value of the three parameters in frame `f`; one value stands for all frames. -/
def VecIs (N : Nat) (p : P3) (f : Nat) (v : V3) : Prop :=
  PanIs N p.x f v.x ∧ PanIs N p.y f v.y ∧ PanIs N p.z f v.z

/-- Specification: the three parameters have one value in this quantum. -/
def Static (p : P3) : Prop := ∃ x y z, p = ⟨[x], [y], [z]⟩

theorem cyc_eq {N : Nat} {l : List ℝ} {f : Nat} {v : ℝ} (hf : f < N) (h : PanIs N l f v) : cyc l f = v := by
  unfold cyc
  rcases h with h | ⟨h1, h2⟩
  · subst h; simp [Nat.mod_one]
  · rw [h1, Nat.mod_eq_of_lt hf, List.getD_eq_getElem?_getD, h2]; rfl

theorem VecIs.at {N : Nat} {p : P3} {f : Nat} {v : V3} (hf : f < N) (h : VecIs N p f v) : p.at f = v := by
  unfold P3.at
  rw [cyc_eq hf h.1, cyc_eq hf h.2.1, cyc_eq hf h.2.2]

theorem cyc_zero {N : Nat} {l : List ℝ} {f : Nat} {v : ℝ} (h1 : l.length = 1) (hf : f < N) (h : PanIs N l f v) :
    cyc l 0 = v := by
  rcases h with h | ⟨h3, h2⟩
  · subst h; simp [cyc]
  · have : f = 0 := by omega
    subst this
    unfold cyc
    rw [Nat.zero_mod, List.getD_eq_getElem?_getD, h2]; rfl

theorem VecIs.at_zero {N : Nat} {p : P3} {f : Nat} {v : V3} (hs : p.single = true) (hf : f < N) (h : VecIs N p f v) :
    p.at 0 = v := by
  simp only [P3.single, Bool.and_eq_true, beq_iff_eq] at hs
  unfold P3.at
  rw [cyc_zero hs.1.1 hf h.1, cyc_zero hs.1.2 hf h.2.1, cyc_zero hs.2 hf h.2.2]

theorem single_of_static {p : P3} (h : Static p) : p.single = true := by
  obtain ⟨x, y, z, rfl⟩ := h; rfl

theorem static_of_single {p : P3} (h : p.single = true) : Static p := by
  obtain ⟨x, y, z⟩ := p
  simp only [P3.single, Bool.and_eq_true, beq_iff_eq] at h
  obtain ⟨a, rfl⟩ := List.length_eq_one_iff.mp h.1.1
  obtain ⟨b, rfl⟩ := List.length_eq_one_iff.mp h.1.2
  obtain ⟨c, rfl⟩ := List.length_eq_one_iff.mp h.2
  exact ⟨a, b, c, rfl⟩

theorem spatialAt_eq {N : Nat} {s : Settings} {p : Pars} {f : Nat} {src ori lis fwd up : V3} (hf : f < N)
    (h1 : VecIs N p.src f src) (h2 : VecIs N p.ori f ori) (h3 : VecIs N p.lis f lis) (h4 : VecIs N p.fwd f fwd)
    (h5 : VecIs N p.up f up)
    (hr : (Static p.src ∧ Static p.ori) ∨ ¬ (Static p.lis ∧ Static p.fwd ∧ Static p.up)) :
    spatialAt s p (itemOf p f) = ⟨distGain s (distance src lis), coneGain s src ori lis,
      (azimuthElevation src lis fwd up).1, (azimuthElevation src lis fwd up).2⟩ := by
  unfold itemOf
  by_cases hs : singleValued p = true
  · rw [if_pos hs]
    simp only [singleValued, Bool.and_eq_true] at hs
    have hr' := hr.resolve_right (fun hc => hc
      ⟨static_of_single hs.1.1, static_of_single hs.1.2, static_of_single hs.2⟩)
    unfold spatialAt
    simp only
    rw [h1.at_zero (single_of_static hr'.1) hf, h2.at_zero (single_of_static hr'.2) hf, h3.at_zero hs.1.1 hf,
      h4.at_zero hs.1.2 hf, h5.at_zero hs.2 hf]
  · rw [if_neg hs]
    unfold spatialAt
    simp only
    rw [h1.at hf, h2.at hf, h3.at hf, h4.at hf, h5.at hf]

/-- Specification of what is heard from a source: the gain for its distance, times the gain of its cone (for the
opposite orientation, see C64). -/
noncomputable def specGain (s : Settings) (src ori lis : V3) : ℝ :=
  w3cDistance s.model s.ref s.max s.rolloff (src.sub lis).len *
    w3cCone s.inner s.outer s.outerGain (offAxis src (ori.scale (-1)) lis)

theorem spatial_gain {s : Settings} {src ori lis : V3} (hs : s.Valid) (hr : 0 < s.ref)
    (hl : s.model = .linear → s.ref ≠ s.max) (ho : ori.sq ≠ 0) (hd : minPositive < (src.sub lis).sq) :
    ∃ d c, distGain s (distance src lis) = some d ∧ coneGain s src ori lis = c ∧ d * c = specGain s src ori lis := by
  refine ⟨_, _, C63_formula_partial s hs hr hl _ (Real.sqrt_nonneg _), C64_reversed_partial s src ori lis ho hd, ?_⟩
  rfl

theorem frameOf_pair (N : Nat) (a b : Nat → Option ℝ) (f : Nat) (hf : f < N) :
    frameOf [some ((List.range N).map a), some ((List.range N).map b)] 0 f = a f ∧
    frameOf [some ((List.range N).map a), some ((List.range N).map b)] 1 f = b f := by
  constructor <;> simp [frameOf, hf]

theorem process_equalPower {σ : Type} {H : Hrtf σ} {N : Nat} {r r' : Renderer σ} {p : Pars} {i : Quantum ℝ}
    {out : Quantum (Option ℝ)} {keep : Bool} (hh : r.hrtf = none) (hn : isSilent i = false)
    (h : process H N r p i = some (r', out, keep)) : equalPower N r.set p i = some out ∧ r' = r ∧ keep = false := by
  unfold process at h
  simp only [hh, hn, Bool.false_and, Bool.false_eq_true, if_false] at h
  cases he : equalPower N r.set p i with
  | none => rw [he] at h; cases h
  | some o =>
    rw [he] at h
    simp only [Option.some.injEq, Prod.mk.injEq] at h
    exact ⟨by rw [h.2.1], h.1.symm, h.2.2.symm⟩

/-- C65, C66: a mono source. In every frame the output is the input with the power split between left and right
according to the lateral position of the source at that frame, times the gain of distance and cone at that frame.
Partial: only if the parameters of the panner do not move in this quantum, or those of the listener do. -/
theorem C66_mono_partial {σ : Type} (H : Hrtf σ) (N : Nat) (r r' : Renderer σ) (p : Pars) (m : Chan ℝ)
    (out : Quantum (Option ℝ)) (keep : Bool) (hh : r.hrtf = none) (hn : isSilent [m] = false)
    (h : process H N r p [m] = some (r', out, keep))
    (hs : r.set.Valid) (hr : 0 < r.set.ref) (hl : r.set.model = .linear → r.set.ref ≠ r.set.max)
    (f : Nat) (hf : f < N) (src ori lis fwd up : V3) (lat : ℝ)
    (h1 : VecIs N p.src f src) (h2 : VecIs N p.ori f ori) (h3 : VecIs N p.lis f lis) (h4 : VecIs N p.fwd f fwd)
    (h5 : VecIs N p.up f up) (ho : ori.sq ≠ 0) (hd : minPositive < (src.sub lis).sq)
    (hrate : (Static p.src ∧ Static p.ori) ∨ ¬ (Static p.lis ∧ Static p.fwd ∧ Static p.up))
    (hlat : Lateral src lis fwd up lat) :
    frameOf out 0 f = some (specMono lat (specGain r.set src ori lis) (sample [m] 0 f)).1 ∧
    frameOf out 1 f = some (specMono lat (specGain r.set src ori lis) (sample [m] 0 f)).2 := by
  obtain ⟨he, _, _⟩ := process_equalPower hh hn h
  simp only [equalPower, Option.some.injEq] at he
  subst he
  have hm : sample [m] 0 f = (m.data N).getD f 0 := by
    rw [data_getD]
    unfold sample
    simp only [List.getElem?_cons_zero]
    cases m <;> rfl
  obtain ⟨d, c, e1, e2, e3⟩ := spatial_gain hs hr hl ho hd
  obtain ⟨f0, f1⟩ := frameOf_pair N
    (fun f => (monoToStereo (spatialAt r.set p (itemOf p f)) ((m.data N).getD f 0)).1)
    (fun f => (monoToStereo (spatialAt r.set p (itemOf p f)) ((m.data N).getD f 0)).2) f hf
  rw [f0, f1, spatialAt_eq hf h1 h2 h3 h4 h5 hrate, e1, e2, monoToStereo_spec hlat, e3, hm]
  exact ⟨rfl, rfl⟩

/-- C65, C66: a stereo source. The channel of the near side stays, the other is moved over with the lateral position of
the source at that frame; both with the gain of distance and cone at that frame. Partial: only if the parameters of the
panner do not move in this quantum, or those of the listener do. -/
theorem C66_stereo_partial {σ : Type} (H : Hrtf σ) (N : Nat) (r r' : Renderer σ) (p : Pars) (a b : Chan ℝ)
    (out : Quantum (Option ℝ)) (keep : Bool) (hh : r.hrtf = none) (hn : isSilent [a, b] = false)
    (h : process H N r p [a, b] = some (r', out, keep))
    (hs : r.set.Valid) (hr : 0 < r.set.ref) (hl : r.set.model = .linear → r.set.ref ≠ r.set.max)
    (f : Nat) (hf : f < N) (src ori lis fwd up : V3) (lat : ℝ)
    (h1 : VecIs N p.src f src) (h2 : VecIs N p.ori f ori) (h3 : VecIs N p.lis f lis) (h4 : VecIs N p.fwd f fwd)
    (h5 : VecIs N p.up f up) (ho : ori.sq ≠ 0) (hd : minPositive < (src.sub lis).sq)
    (hrate : (Static p.src ∧ Static p.ori) ∨ ¬ (Static p.lis ∧ Static p.fwd ∧ Static p.up))
    (hlat : Lateral src lis fwd up lat) :
    frameOf out 0 f =
      some (specStereo lat (specGain r.set src ori lis) (sample [a, b] 0 f) (sample [a, b] 1 f)).1 ∧
    frameOf out 1 f =
      some (specStereo lat (specGain r.set src ori lis) (sample [a, b] 0 f) (sample [a, b] 1 f)).2 := by
  obtain ⟨he, _, _⟩ := process_equalPower hh hn h
  simp only [equalPower, Option.some.injEq] at he
  subst he
  have ha : sample [a, b] 0 f = (a.data N).getD f 0 := by
    rw [data_getD]
    unfold sample
    simp only [List.getElem?_cons_zero]
    cases a <;> rfl
  have hb : sample [a, b] 1 f = (b.data N).getD f 0 := by
    rw [data_getD]
    unfold sample
    simp only [List.getElem?_cons_succ, List.getElem?_cons_zero]
    cases b <;> rfl
  obtain ⟨d, c, e1, e2, e3⟩ := spatial_gain hs hr hl ho hd
  obtain ⟨f0, f1⟩ := frameOf_pair N
    (fun f => (stereoToStereo (spatialAt r.set p (itemOf p f)) ((a.data N).getD f 0) ((b.data N).getD f 0)).1)
    (fun f => (stereoToStereo (spatialAt r.set p (itemOf p f)) ((a.data N).getD f 0) ((b.data N).getD f 0)).2) f hf
  rw [f0, f1, spatialAt_eq hf h1 h2 h3 h4 h5 hrate, e1, e2, stereoToStereo_spec hlat, e3, ha, hb]
  exact ⟨rfl, rfl⟩

/-- C65: the lateral position is between -1 and 1. -/
theorem C65_lateral_range {src lis fwd up : V3} {s : ℝ} (h : Lateral src lis fwd up s) : -1 ≤ s ∧ s ≤ 1 := by
  obtain ⟨h0, _⟩ := h.sin_az
  rw [← h0]
  exact ⟨neg_one_le_sin _, sin_le_one _⟩

/-- C65: every source has a lateral position, so that `C66_mono_partial` and `C66_stereo_partial` cover every direction. -/
theorem C65_lateral_exists (src lis fwd up : V3) : ∃ s, Lateral src lis fwd up s := by
  by_cases hd : minPositive < (src.sub lis).sq
  · by_cases hc : (fwd.cross up).sq = 0
    · exact ⟨_, .degenerate (Or.inr hc)⟩
    · obtain ⟨R, F, U, hf⟩ := C65_frame_exists fwd up hc
      by_cases h0 : 0 < (src.sub lis).dot R ^ 2 + (src.sub lis).dot F ^ 2
      · exact ⟨_, .side R F U hd hf h0⟩
      · refine ⟨_, .pole R F U hd hf ?_ ?_⟩ <;>
          nlinarith [sq_nonneg ((src.sub lis).dot R), sq_nonneg ((src.sub lis).dot F)]
  · exact ⟨_, .degenerate (Or.inl (not_lt.mp hd))⟩

/-- C65: panning a mono source keeps its power; the balance of power is the lateral position. -/
theorem C65_power {s : ℝ} (h1 : -1 ≤ s) (h2 : s ≤ 1) (g x : ℝ) :
    (specMono s g x).1 ^ 2 + (specMono s g x).2 ^ 2 = (x * g) ^ 2 ∧
    (specMono s g x).2 ^ 2 - (specMono s g x).1 ^ 2 = s * (x * g) ^ 2 := by
  unfold specMono
  have a := Real.sq_sqrt (show 0 ≤ (1 - s) / 2 by linarith)
  have b := Real.sq_sqrt (show 0 ≤ (1 + s) / 2 by linarith)
  simp only [mul_pow, a, b]
  constructor <;> ring

/-- C65: panning a stereo source keeps the power of the channel that is moved over. -/
theorem C65_power_stereo {s : ℝ} (h1 : -1 ≤ s) (h2 : s ≤ 1) (g l r : ℝ) :
    (s ≤ 0 → ((specStereo s g l r).1 - l * g) ^ 2 + (specStereo s g l r).2 ^ 2 = (r * g) ^ 2) ∧
    (0 ≤ s → (specStereo s g l r).1 ^ 2 + ((specStereo s g l r).2 - r * g) ^ 2 = (l * g) ^ 2) := by
  have a := Real.sq_sqrt (show 0 ≤ 1 - s ^ 2 by nlinarith)
  have b := sq_abs s
  unfold specStereo
  constructor
  · intro h
    rw [if_pos h]
    simp only
    have : ((l + r * |s|) * g - l * g) ^ 2 + (r * √(1 - s ^ 2) * g) ^ 2 = (r * g) ^ 2 * (|s| ^ 2 + √(1 - s ^ 2) ^ 2) := by
      ring
    rw [this, a, b]; ring
  · intro h
    by_cases h0 : s ≤ 0
    · have : s = 0 := le_antisymm h0 h
      subst this
      simp
    · rw [if_neg h0]
      simp only
      have : (l * √(1 - s ^ 2) * g) ^ 2 + ((r + l * |s|) * g - r * g) ^ 2 = (l * g) ^ 2 * (|s| ^ 2 + √(1 - s ^ 2) ^ 2) := by
        ring
      rw [this, a, b]; ring

/-- C65: silence stays silence, and the panner does not keep itself alive. -/
theorem C65_silence {σ : Type} (H : Hrtf σ) (N : Nat) (r : Renderer σ) (p : Pars) (i : Quantum ℝ)
    (hh : r.hrtf = none) (hi : isSilent i = true) : process H N r p i = some (r, [none], false) := by
  unfold process
  simp [hh, hi]

/-- C65: the panner does not panic for the channel counts it accepts. -/
theorem C65_no_panic {σ : Type} (H : Hrtf σ) (N : Nat) (r : Renderer σ) (p : Pars) (i : Quantum ℝ)
    (hi : i.length = 1 ∨ i.length = 2) : ∃ o, process H N r p i = some o := by
  have he : ∃ o, equalPower N r.set p i = some o := by
    match i, hi with
    | [m], _ => exact ⟨_, rfl⟩
    | [a, b], _ => exact ⟨_, rfl⟩
  obtain ⟨o, he⟩ := he
  obtain ⟨set, hrtf, counter⟩ := r
  unfold process
  cases hrtf with
  | none =>
    simp only at he ⊢
    cases hs : isSilent i <;> simp [he]
  | some x =>
    simp only
    cases hs : isSilent i
    · exact ⟨_, rfl⟩
    · by_cases hc : x.1 > counter
      · simp [hc]
      · simp [hc]

/-! ## Automation of the panner -/

/-- a source that jumps from the left to the right of the listener in the middle of a quantum -/
noncomputable def movingPars : Pars where
  src := ⟨List.replicate 64 (-1) ++ List.replicate 64 1, [0], [0]⟩
  ori := ⟨[1], [0], [0]⟩
  lis := ⟨[0], [0], [0]⟩
  fwd := ⟨[0], [0], [-1]⟩
  up := ⟨[0], [1], [0]⟩

theorem lateral_right : Lateral ⟨1, 0, 0⟩ ⟨0, 0, 0⟩ ⟨0, 0, -1⟩ ⟨0, 1, 0⟩ 1 := by
  have := Lateral.side (src := ⟨1, 0, 0⟩) (lis := ⟨0, 0, 0⟩) _ _ _ (by norm_num [V3.sq, V3.sub, minPositive])
    default_frame (by norm_num [V3.sub, V3.dot])
  have e : ((⟨1, 0, 0⟩ : V3).sub ⟨0, 0, 0⟩).dot ⟨1, 0, 0⟩ / √(((⟨1, 0, 0⟩ : V3).sub ⟨0, 0, 0⟩).dot ⟨1, 0, 0⟩ ^ 2
      + ((⟨1, 0, 0⟩ : V3).sub ⟨0, 0, 0⟩).dot ⟨0, 0, -1⟩ ^ 2) = 1 := by
    norm_num [V3.sub, V3.dot]
  rwa [e] at this

theorem lateral_left : Lateral ⟨-1, 0, 0⟩ ⟨0, 0, 0⟩ ⟨0, 0, -1⟩ ⟨0, 1, 0⟩ (-1) := by
  have := Lateral.side (src := ⟨-1, 0, 0⟩) (lis := ⟨0, 0, 0⟩) _ _ _ (by norm_num [V3.sq, V3.sub, minPositive])
    default_frame (by norm_num [V3.sub, V3.dot])
  have e : ((⟨-1, 0, 0⟩ : V3).sub ⟨0, 0, 0⟩).dot ⟨1, 0, 0⟩ / √(((⟨-1, 0, 0⟩ : V3).sub ⟨0, 0, 0⟩).dot ⟨1, 0, 0⟩ ^ 2
      + ((⟨-1, 0, 0⟩ : V3).sub ⟨0, 0, 0⟩).dot ⟨0, 0, -1⟩ ^ 2) = -1 := by
    norm_num [V3.sub, V3.dot]
  rwa [e] at this

/-- the default attributes of a panner -/
def defaultSettings : Settings := ⟨.inverse, 1, 10000, 1, 360, 360, 0⟩

theorem default_valid : defaultSettings.Valid :=
  ⟨by norm_num [defaultSettings], by norm_num [defaultSettings], by norm_num [defaultSettings],
    by norm_num [defaultSettings]⟩

theorem default_gain : distGain defaultSettings 1 = some 1 := by
  rw [C63_full_partial _ default_valid (by norm_num [defaultSettings]) (by simp [defaultSettings]) _ (by norm_num)
    (by norm_num [defaultSettings]) (by norm_num [defaultSettings])]

/-- C66 fails: with the default listener and default attributes, a source that is automated from the left to the right
within a quantum is still rendered at the left in the last frame, where it is at the right. -/
theorem C66_negated {σ : Type} (H : Hrtf σ) :
    ∃ (r r' : Renderer σ) (p : Pars) (m : Chan ℝ) (out : Quantum (Option ℝ)) (src lis fwd up : V3),
      r.set = defaultSettings ∧ r.hrtf = none ∧ process H 128 r p [m] = some (r', out, false) ∧
      VecIs 128 p.src 127 src ∧ VecIs 128 p.lis 127 lis ∧ VecIs 128 p.fwd 127 fwd ∧ VecIs 128 p.up 127 up ∧
      Lateral src lis fwd up 1 ∧ (∀ g, (specMono 1 g 1).1 = 0) ∧
      sample [m] 0 127 = 1 ∧ frameOf out 0 127 = some 1 ∧ frameOf out 1 127 = some 0 := by
  have hx : (List.replicate 64 (-1 : ℝ) ++ List.replicate 64 1)[127]? = some 1 := by
    rw [List.getElem?_append_right (by simp)]; simp
  have hx0 : cyc (List.replicate 64 (-1 : ℝ) ++ List.replicate 64 1) 0 = -1 := by
    simp [cyc, List.getD]
  have hns : isSilent ([some (List.replicate 128 1)] : Quantum ℝ) = false := by simp [isSilent]
  obtain ⟨⟨r', out, keep⟩, hp⟩ := C65_no_panic H 128 ⟨defaultSettings, none, 0⟩ movingPars
    [some (List.replicate 128 1)] (Or.inl rfl)
  obtain ⟨he, hr', hk⟩ := process_equalPower rfl hns hp
  subst hk
  simp only [equalPower, Option.some.injEq] at he
  have hsp : spatialAt defaultSettings movingPars (itemOf movingPars 127) = ⟨some 1, 1,
      (azimuthElevation ⟨-1, 0, 0⟩ ⟨0, 0, 0⟩ ⟨0, 0, -1⟩ ⟨0, 1, 0⟩).1,
      (azimuthElevation ⟨-1, 0, 0⟩ ⟨0, 0, 0⟩ ⟨0, 0, -1⟩ ⟨0, 1, 0⟩).2⟩ := by
    have hi : itemOf movingPars 127 = 0 := rfl
    rw [hi]
    have a1 : movingPars.src.at 0 = ⟨-1, 0, 0⟩ := by
      unfold P3.at; simp only [movingPars, hx0]; simp [cyc]
    have a2 : movingPars.lis.at 0 = ⟨0, 0, 0⟩ := by simp [P3.at, movingPars, cyc]
    have a3 : movingPars.fwd.at 0 = ⟨0, 0, -1⟩ := by simp [P3.at, movingPars, cyc]
    have a4 : movingPars.up.at 0 = ⟨0, 1, 0⟩ := by simp [P3.at, movingPars, cyc]
    unfold spatialAt
    simp only [a1, a2, a3, a4]
    have hdist : distance ⟨-1, 0, 0⟩ ⟨0, 0, 0⟩ = 1 := by simp [distance, V3.len, V3.sq, V3.sub]
    rw [hdist, default_gain, C64_omni _ (by norm_num [defaultSettings]) (by norm_num [defaultSettings])]
  have hdat : (Chan.data 128 (some (List.replicate 128 (1 : ℝ)))).getD 127 0 = 1 := by
    simp [Chan.data, List.getD]
  obtain ⟨f0, f1⟩ := frameOf_pair 128
    (fun f => (monoToStereo (spatialAt defaultSettings movingPars (itemOf movingPars f))
      ((Chan.data 128 (some (List.replicate 128 (1 : ℝ)))).getD f 0)).1)
    (fun f => (monoToStereo (spatialAt defaultSettings movingPars (itemOf movingPars f))
      ((Chan.data 128 (some (List.replicate 128 (1 : ℝ)))).getD f 0)).2) 127 (by norm_num)
  rw [hsp, hdat, monoToStereo_spec lateral_left, he] at f0 f1
  refine ⟨⟨defaultSettings, none, 0⟩, r', movingPars, some (List.replicate 128 1), out,
    ⟨1, 0, 0⟩, ⟨0, 0, 0⟩, ⟨0, 0, -1⟩, ⟨0, 1, 0⟩, rfl, rfl, hp, ?_, ?_, ?_, ?_, lateral_right, ?_, ?_, ?_, ?_⟩
  · exact ⟨Or.inr ⟨by simp [movingPars], hx⟩, Or.inl rfl, Or.inl rfl⟩
  · exact ⟨Or.inl rfl, Or.inl rfl, Or.inl rfl⟩
  · exact ⟨Or.inl rfl, Or.inl rfl, Or.inl rfl⟩
  · exact ⟨Or.inl rfl, Or.inl rfl, Or.inl rfl⟩
  · intro g; simp [specMono]
  · simp [sample]
  · rw [f0]; norm_num [specMono]
  · rw [f1]; norm_num [specMono]

end Verif.Panner
