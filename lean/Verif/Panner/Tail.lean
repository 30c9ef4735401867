import Verif.Panner.Props

/-!
# C67: the tail of the HRTF panner

`tail_time_counter` (`/repo/src/node/panner.rs` l.697-711) over the life of a panner. The counter is never set back.
-/

namespace Verif.Panner

open Real Verif.Node

/-- Consecutive calls of `process`: the renderer at the end and the outputs. -/
noncomputable def run {σ : Type} (H : Hrtf σ) (N : Nat) (r : Renderer σ) :
    List (Pars × Quantum ℝ) → Option (Renderer σ × List (Quantum (Option ℝ) × Bool))
  | [] => some (r, [])
  | (p, i) :: rest =>
    match process H N r p i with
    | none => none
    | some (r', out, keep) =>
      match run H N r' rest with
      | none => none
      | some (r'', outs) => some (r'', (out, keep) :: outs)

/-- Specification: the HRTF convolution applied to every quantum, silent or not. -/
noncomputable def ideal {σ : Type} (H : Hrtf σ) (N : Nat) (s : Settings) (st : σ) :
    List (Pars × Quantum ℝ) → List (Quantum (Option ℝ))
  | [] => []
  | (p, i) :: rest => (hrtfBranch H N s p st i).2 :: ideal H N s (hrtfBranch H N s p st i).1 rest

/-- Specification: number of silent quanta -/
def silentCount (l : List (Pars × Quantum ℝ)) : Nat := l.countP fun x => isSilent x.2

theorem process_hrtf {σ : Type} (H : Hrtf σ) (N : Nat) (r : Renderer σ) (p : Pars) (i : Quantum ℝ) (len : Nat) (st : σ)
    (hh : r.hrtf = some (len, st)) (hi : isSilent i = true → r.counter < len) :
    process H N r p i = some (⟨r.set, some (len, (hrtfBranch H N r.set p st i).1),
      if isSilent i then r.counter + N else r.counter⟩, (hrtfBranch H N r.set p st i).2, true) := by
  obtain ⟨set, hrtf, counter⟩ := r
  simp only at hh hi
  subst hh
  unfold process
  simp only
  cases hs : isSilent i
  · simp
  · simp [hi hs]

theorem process_cut {σ : Type} (H : Hrtf σ) (N : Nat) (r : Renderer σ) (p : Pars) (i : Quantum ℝ) (len : Nat) (st : σ)
    (hh : r.hrtf = some (len, st)) (hs : isSilent i = true) (hc : len ≤ r.counter) :
    process H N r p i = some (r, [none], false) := by
  unfold process
  simp [hh, hs, hc]

/-- C67: as long as the silent quanta since the creation of the panner do not exceed the length of the impulse
responses, every quantum is convolved and the node is kept, so that the tail is complete. Partial: the silence is counted
over the life of the panner, not since the last sound. -/
theorem C67_tail_partial {σ : Type} (H : Hrtf σ) (N : Nat) (len : Nat) :
    ∀ (l : List (Pars × Quantum ℝ)) (r : Renderer σ) (st : σ), r.hrtf = some (len, st) →
      (∀ k, k < silentCount l → r.counter + k * N < len) →
      ∃ r' outs, run H N r l = some (r', outs) ∧ outs.map (·.1) = ideal H N r.set st l ∧
        (∀ o ∈ outs, o.2 = true) := by
  intro l
  induction l with
  | nil => intro r st _ _; exact ⟨r, [], rfl, rfl, by simp⟩
  | cons x rest ih =>
    intro r st hh hc
    obtain ⟨p, i⟩ := x
    have hcnt : silentCount ((p, i) :: rest) = silentCount rest + if isSilent i then 1 else 0 := by
      unfold silentCount; rw [List.countP_cons]
    have hi : isSilent i = true → r.counter < len := by
      intro h
      have := hc 0 (by rw [hcnt, h]; simp)
      simpa using this
    have hp := process_hrtf H N r p i len st hh hi
    obtain ⟨r', outs, h1, h2, h3⟩ := ih ⟨r.set, some (len, (hrtfBranch H N r.set p st i).1),
      if isSilent i then r.counter + N else r.counter⟩ _ rfl (by
        intro k hk
        simp only
        cases hs : isSilent i
        · rw [if_neg (by simp)]
          exact hc k (by rw [hcnt, hs]; simpa using hk)
        · rw [if_pos rfl]
          have := hc (k + 1) (by rw [hcnt, hs]; simpa using hk)
          rw [Nat.add_mul] at this
          omega)
    refine ⟨r', ((hrtfBranch H N r.set p st i).2, true) :: outs, ?_, ?_, ?_⟩
    · simp only [run, hp, h1]
    · simp only [List.map_cons, ideal, h2]
    · intro o ho
      rcases List.mem_cons.mp ho with h | h
      · rw [h]
      · exact h3 o h

theorem process_counter {σ : Type} (H : Hrtf σ) (N : Nat) (r r' : Renderer σ) (p : Pars) (i : Quantum ℝ) (len : Nat)
    (st : σ) (hh : r.hrtf = some (len, st)) (out : Quantum (Option ℝ)) (keep : Bool)
    (h : process H N r p i = some (r', out, keep)) :
    (∃ st', r'.hrtf = some (len, st')) ∧ (r.counter ≤ r'.counter) ∧
    (isSilent i = true → len ≤ r'.counter ∨ r'.counter = r.counter + N) := by
  by_cases hi : isSilent i = true → r.counter < len
  · rw [process_hrtf H N r p i len st hh hi] at h
    simp only [Option.some.injEq, Prod.mk.injEq] at h
    obtain ⟨h, _, _⟩ := h
    subst h
    refine ⟨⟨_, rfl⟩, ?_, ?_⟩
    · simp only; split <;> omega
    · intro hs; right; simp [hs]
  · push Not at hi
    rw [process_cut H N r p i len st hh hi.1 hi.2] at h
    simp only [Option.some.injEq, Prod.mk.injEq] at h
    obtain ⟨h, _, _⟩ := h
    subst h
    exact ⟨⟨_, hh⟩, le_refl _, fun _ => Or.inl hi.2⟩

/-- C67 fails in general: once the panner has seen as many silent frames as the impulse responses are long, at any time
and with sound in between, every further silent quantum gives silence and lets the node end, whatever is left in the
convolution. -/
theorem C67_lost {σ : Type} (H : Hrtf σ) (N : Nat) (len : Nat) :
    ∀ (l : List (Pars × Quantum ℝ)) (r r' : Renderer σ) (st : σ) (outs : List (Quantum (Option ℝ) × Bool)),
      r.hrtf = some (len, st) → run H N r l = some (r', outs) → len ≤ r.counter + silentCount l * N →
      ∀ (p : Pars) (i : Quantum ℝ), isSilent i = true → process H N r' p i = some (r', [none], false) := by
  intro l
  induction l with
  | nil =>
    intro r r' st outs hh hr hc p i hi
    simp only [run, Option.some.injEq, Prod.mk.injEq] at hr
    rw [← hr.1]
    exact process_cut H N r p i len st hh hi (by simpa [silentCount] using hc)
  | cons x rest ih =>
    intro r r' st outs hh hr hc p i hi
    obtain ⟨q, j⟩ := x
    have hcnt : silentCount ((q, j) :: rest) = silentCount rest + if isSilent j then 1 else 0 := by
      unfold silentCount; rw [List.countP_cons]
    simp only [run] at hr
    cases hp : process H N r q j with
    | none => rw [hp] at hr; cases hr
    | some o =>
      obtain ⟨r1, out, keep⟩ := o
      rw [hp] at hr
      simp only at hr
      cases hrest : run H N r1 rest with
      | none => rw [hrest] at hr; cases hr
      | some y =>
        obtain ⟨r2, outs2⟩ := y
        rw [hrest] at hr
        simp only [Option.some.injEq, Prod.mk.injEq] at hr
        obtain ⟨hr, _⟩ := hr
        subst hr
        obtain ⟨⟨st', h1⟩, h2, h3⟩ := process_counter H N r r1 q j len st hh out keep hp
        refine ih r1 r2 st' outs2 h1 hrest ?_ p i hi
        cases hs : isSilent j
        · rw [hcnt, hs] at hc
          simp only [Bool.false_eq_true, if_false, add_zero] at hc
          omega
        · rcases h3 hs with h | h
          · omega
          · rw [hcnt, hs] at hc
            simp only [if_true, Nat.add_mul, one_mul] at hc
            omega

theorem run_snoc {σ : Type} (H : Hrtf σ) (N : Nat) (x : Pars × Quantum ℝ) :
    ∀ (l : List (Pars × Quantum ℝ)) (r r' r'' : Renderer σ) (outs : List (Quantum (Option ℝ) × Bool))
      (o : Quantum (Option ℝ)) (k : Bool), run H N r l = some (r', outs) → process H N r' x.1 x.2 = some (r'', o, k) →
      run H N r (l ++ [x]) = some (r'', outs ++ [(o, k)]) := by
  intro l
  induction l with
  | nil =>
    intro r r' r'' outs o k h hp
    simp only [run, Option.some.injEq, Prod.mk.injEq] at h
    obtain ⟨rfl, rfl⟩ := h
    simp only [List.nil_append, run, hp]
  | cons y rest ih =>
    intro r r' r'' outs o k h hp
    simp only [run] at h
    simp only [List.cons_append, run]
    cases hq : process H N r y.1 y.2 with
    | none => rw [hq] at h; cases h
    | some q =>
      rw [hq] at h
      simp only at h ⊢
      cases hr : run H N q.1 rest with
      | none => rw [hr] at h; cases h
      | some z =>
        rw [hr] at h
        simp only [Option.some.injEq, Prod.mk.injEq] at h
        obtain ⟨rfl, rfl⟩ := h
        rw [ih q.1 z.1 r'' z.2 o k hr hp]
        rfl

/-- a convolution whose response is its input one quantum later; its responses have 256 frames -/
def delayHrtf : Hrtf (List ℝ) where
  step st src _ _ := (src, st.map fun x => (some x, some x))

/-- a quantum of ones -/
def ones : Quantum ℝ := [some (List.replicate 128 1)]

/-- C67 fails: a panner that was idle for two quanta and then plays one quantum of sound puts out silence in the next
quantum, where the convolution still has a sound. -/
theorem C67_negated (p : Pars) (s : Settings) :
    let l := [(p, [none]), (p, [none]), (p, ones), (p, [none])]
    ∃ r' outs, run delayHrtf 128 ⟨s, some (256, []), 0⟩ l = some (r', outs) ∧
      outs[3]? = some ([none], false) ∧
      ∃ q, (ideal delayHrtf 128 s [] l)[3]? = some q ∧ frameOf q 0 0 = some 1 := by
  intro l
  have hs : isSilent ([none] : Quantum ℝ) = true := rfl
  have ho : isSilent ones = false := rfl
  obtain ⟨r3, o3, h1, h3, _⟩ := C67_tail_partial delayHrtf 128 256 [(p, [none]), (p, [none]), (p, ones)]
    ⟨s, some (256, []), 0⟩ [] rfl (by
      intro k hk
      have : silentCount [(p, [none]), (p, [none]), (p, ones)] = 2 := by simp [silentCount, hs, ho]
      rw [this] at hk
      simp only; omega)
  have h2 := C67_lost delayHrtf 128 256 [(p, [none]), (p, [none]), (p, ones)] ⟨s, some (256, []), 0⟩ r3 [] o3 rfl h1
    (by simp [silentCount, hs, ho]) p [none] hs
  have hlen : o3.length = 3 := by
    have := congrArg List.length h3
    simpa [ideal] using this
  refine ⟨r3, o3 ++ [([none], false)], ?_, ?_, ?_⟩
  · exact run_snoc delayHrtf 128 (p, [none]) _ _ r3 r3 o3 [none] false h1 h2
  · rw [List.getElem?_append_right (by omega), hlen]; rfl
  · refine ⟨_, rfl, ?_⟩
    simp [hrtfBranch, delayHrtf, ones, Chan.data, frameOf]

/-- C65: the direction that the HRTF convolution gets is the direction of the source in the axes of the listener: right,
above and front. -/
theorem C65_hrtf_direction {src lis fwd up R F U : V3} (hf : IsFrame fwd up R F U)
    (hd : minPositive < (src.sub lis).sq) (d : Option ℝ) (c : ℝ) :
    (direction ⟨d, c, (azimuthElevation src lis fwd up).1, (azimuthElevation src lis fwd up).2⟩).scale (src.sub lis).len
      = ⟨(src.sub lis).dot R, (src.sub lis).dot U, (src.sub lis).dot F⟩ := by
  have S := C65_spherical hf hd
  generalize azimuthElevation src lis fwd up = q at *
  generalize src.sub lis = v at *
  have s1 := S.right
  have s2 := S.above
  have s3 := S.front
  have e1 : q.1 * π / 180 = rad q.1 := rfl
  have e2 : q.2 * π / 180 = rad q.2 := rfl
  unfold direction
  simp only [e1, e2]
  generalize rad q.1 = a at *
  generalize rad q.2 = e at *
  have hunit : (sin a * cos e) ^ 2 + sin e ^ 2 + (cos a * cos e) ^ 2 = 1 := by
    have h1 := sin_sq_add_cos_sq a
    have h2 := sin_sq_add_cos_sq e
    linear_combination cos e ^ 2 * h1 + h2
  have hn : ¬ (|sin a * cos e| ≤ 1 / 10 ^ 6 ∧ |sin e| ≤ 1 / 10 ^ 6 ∧ |cos a * cos e| ≤ 1 / 10 ^ 6) := by
    rintro ⟨h1, h2, h3⟩
    have b : ∀ x : ℝ, |x| ≤ 1 / 10 ^ 6 → x ^ 2 ≤ 1 / 10 ^ 6 := by
      intro x hx
      rw [← sq_abs]
      have := abs_nonneg x
      have : |x| ≤ 1 := hx.trans (by norm_num)
      nlinarith
    have := b _ h1
    have := b _ h2
    have := b _ h3
    norm_num at *
    linarith
  rw [if_neg hn, s1, s2, s3]
  ext <;> simp only [V3.scale] <;> ring

/-- C65: what the HRTF convolution gets and gives. It gets the samples of a mono source, or half the sum of the channels
of a stereo source, with the gain and the direction of the source at the first frame. Its output goes to the left and
right channel, doubled for a stereo source. -/
theorem C65_hrtf {σ : Type} (H : Hrtf σ) (N : Nat) (hN : 0 < N) (r : Renderer σ) (p : Pars) (i : Quantum ℝ)
    (len : Nat) (st : σ) (hh : r.hrtf = some (len, st)) (hi : isSilent i = false)
    (hs : r.set.Valid) (hr : 0 < r.set.ref) (hl : r.set.model = .linear → r.set.ref ≠ r.set.max)
    (src ori lis fwd up R F U : V3) (h1 : VecIs N p.src 0 src) (h2 : VecIs N p.ori 0 ori) (h3 : VecIs N p.lis 0 lis)
    (h4 : VecIs N p.fwd 0 fwd) (h5 : VecIs N p.up 0 up) (ho : ori.sq ≠ 0) (hd : minPositive < (src.sub lis).sq)
    (hf : IsFrame fwd up R F U) :
    ∃ (source : List ℝ) (corr : ℝ) (dir : V3) (r' : Renderer σ) (outs : Quantum (Option ℝ)),
      process H N r p i = some (r', outs, true) ∧
      dir.scale (src.sub lis).len = ⟨(src.sub lis).dot R, (src.sub lis).dot U, (src.sub lis).dot F⟩ ∧
      r'.hrtf = some (len, (H.step st source (some (specGain r.set src ori lis)) dir).1) ∧
      (∀ f o, (H.step st source (some (specGain r.set src ori lis)) dir).2[f]? = some o →
        frameOf outs 0 f = o.1.map (corr * ·) ∧ frameOf outs 1 f = o.2.map (corr * ·)) ∧
      (∀ m, i = [m] → corr = 1 ∧ ∀ f, f < N → source.getD f 0 = sample [m] 0 f) ∧
      (∀ a b, i = [a, b] → corr = 2 ∧ ∀ f, f < N → source.getD f 0 = (sample [a, b] 0 f + sample [a, b] 1 f) / 2) := by
  have hp := process_hrtf H N r p i len st hh (by simp [hi])
  obtain ⟨d, c, e1, e2, e3⟩ := spatial_gain hs hr hl ho hd
  have hsp : spatialAt r.set p 0 = ⟨some d, c, (azimuthElevation src lis fwd up).1,
      (azimuthElevation src lis fwd up).2⟩ := by
    unfold spatialAt
    simp only
    rw [h1.at hN, h2.at hN, h3.at hN, h4.at hN, h5.at hN, e1, e2]
  have hsam : ∀ m : Chan ℝ, ∀ f, (m.data N).getD f 0 = sample [m] 0 f := by
    intro m f
    rw [data_getD]
    unfold sample
    simp only [List.getElem?_cons_zero]
    cases m <;> rfl
  have hb : ∃ source corr, (hrtfBranch H N r.set p st i) =
      ((H.step st source (some (specGain r.set src ori lis)) (direction (spatialAt r.set p 0))).1,
        [some ((H.step st source (some (specGain r.set src ori lis)) (direction (spatialAt r.set p 0))).2.map
          fun o => o.1.map (corr * ·)),
         some ((H.step st source (some (specGain r.set src ori lis)) (direction (spatialAt r.set p 0))).2.map
          fun o => o.2.map (corr * ·))]) ∧
      (∀ m, i = [m] → corr = 1 ∧ ∀ f, f < N → source.getD f 0 = sample [m] 0 f) ∧
      (∀ a b, i = [a, b] → corr = 2 ∧ ∀ f, f < N → source.getD f 0 = (sample [a, b] 0 f + sample [a, b] 1 f) / 2) := by
    have hg : ((spatialAt r.set p 0).dist.map fun d => (spatialAt r.set p 0).cone * d)
        = some (specGain r.set src ori lis) := by
      rw [hsp, ← e3]; simp [mul_comm]
    by_cases h2c : ∃ a b, i = [a, b]
    · obtain ⟨a, b, rfl⟩ := h2c
      refine ⟨(List.range N).map fun f => (1 / 2) * ((a.data N).getD f 0 + (b.data N).getD f 0), 2, ?_, ?_, ?_⟩
      · simp only [hrtfBranch, hg]
      · intro m hm; cases hm
      · rintro a' b' hab
        cases hab
        refine ⟨rfl, fun f hf => ?_⟩
        have s0 : sample [a, b] 0 f = (a.data N).getD f 0 := by
          rw [data_getD]; unfold sample; simp only [List.getElem?_cons_zero]; cases a <;> rfl
        have s1 : sample [a, b] 1 f = (b.data N).getD f 0 := by
          rw [data_getD]; unfold sample; simp only [List.getElem?_cons_succ, List.getElem?_cons_zero]; cases b <;> rfl
        rw [s0, s1, List.getD_eq_getElem?_getD, List.getElem?_map, List.getElem?_range hf]
        simp only [Option.map_some, Option.getD_some]
        ring
    · refine ⟨(i.headD none).data N, 1, ?_, ?_, ?_⟩
      · unfold hrtfBranch
        match i, h2c with
        | [], _ => simp only [hg]
        | [m], _ => simp only [hg]
        | [a, b], h => exact absurd ⟨a, b, rfl⟩ h
        | _ :: _ :: _ :: _, _ => simp only [hg]
      · rintro m rfl
        exact ⟨rfl, fun f _ => hsam m f⟩
      · intro a b hab; exact absurd ⟨a, b, hab⟩ h2c
  obtain ⟨source, corr, hb, m1, m2⟩ := hb
  refine ⟨source, corr, direction (spatialAt r.set p 0), _, _, hp, ?_, ?_, ?_, m1, m2⟩
  · rw [hsp]; exact C65_hrtf_direction hf hd _ _
  · simp only [hb]
  · intro f o ho
    rw [hb]
    simp [frameOf, ho]

/-- A source at the right of the default listener: everything is in the right channel. -/
example (r' : Renderer Unit) (out : Quantum (Option ℝ)) (keep : Bool) (H : Hrtf Unit)
    (h : process H 128 ⟨⟨.inverse, 1, 10000, 1, 360, 360, 0⟩, none, 0⟩
      ⟨⟨[2], [0], [0]⟩, ⟨[1], [0], [0]⟩, ⟨[1], [0], [0]⟩, ⟨[0], [0], [-1]⟩, ⟨[0], [1], [0]⟩⟩ ones
      = some (r', out, keep)) : frameOf out 0 5 = some 0 ∧ frameOf out 1 5 = some 1 := by
  have hd : minPositive < ((⟨2, 0, 0⟩ : V3).sub ⟨1, 0, 0⟩).sq := by norm_num [V3.sq, V3.sub, minPositive]
  have hlat : Lateral ⟨2, 0, 0⟩ ⟨1, 0, 0⟩ ⟨0, 0, -1⟩ ⟨0, 1, 0⟩ 1 := by
    have := Lateral.side (src := ⟨2, 0, 0⟩) (lis := ⟨1, 0, 0⟩) _ _ _ hd default_frame (by norm_num [V3.sub, V3.dot])
    have e : ((⟨2, 0, 0⟩ : V3).sub ⟨1, 0, 0⟩).dot ⟨1, 0, 0⟩ / √(((⟨2, 0, 0⟩ : V3).sub ⟨1, 0, 0⟩).dot ⟨1, 0, 0⟩ ^ 2
        + ((⟨2, 0, 0⟩ : V3).sub ⟨1, 0, 0⟩).dot ⟨0, 0, -1⟩ ^ 2) = 1 := by
      norm_num [V3.sub, V3.dot]
    rwa [e] at this
  have one : ∀ x y z : ℝ, VecIs 128 ⟨[x], [y], [z]⟩ 5 ⟨x, y, z⟩ := fun x y z => ⟨Or.inl rfl, Or.inl rfl, Or.inl rfl⟩
  have st : ∀ x y z : ℝ, Static ⟨[x], [y], [z]⟩ := fun x y z => ⟨x, y, z, rfl⟩
  have := C66_mono_partial H 128 _ r' _ _ out keep rfl rfl h
    ⟨by norm_num, by norm_num, by norm_num, by norm_num⟩ (by norm_num) (by simp) 5 (by norm_num)
    ⟨2, 0, 0⟩ ⟨1, 0, 0⟩ ⟨1, 0, 0⟩ ⟨0, 0, -1⟩ ⟨0, 1, 0⟩ 1 (one _ _ _) (one _ _ _) (one _ _ _) (one _ _ _) (one _ _ _)
    (by norm_num [V3.sq]) hd (Or.inl ⟨st _ _ _, st _ _ _⟩) hlat
  have hlen : ((⟨2, 0, 0⟩ : V3).sub ⟨1, 0, 0⟩).len = 1 := by norm_num [V3.len, V3.sq, V3.sub]
  rw [this.1, this.2]
  simp only [specMono, specGain, hlen]
  norm_num [w3cDistance, w3cCone, sample]

end Verif.Panner
