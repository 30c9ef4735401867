import Verif.Filter.BiquadCoefs
import Verif.Filter.IirProps
import Mathlib.Analysis.Complex.Polynomial.Basic

/-!
# C43: the recursion of the biquad filter
-/

namespace Verif.Filter

open Verif.Node

/-- Specification: sample `j` frames before frame `n`; zero before the start -/
def before (l : List ℝ) (n j : Nat) : ℝ := if j ≤ n then l.getD (n - j) 0 else 0

/-- Specification: the difference equation, with the coefficients of each frame -/
def Recursion (ks : List Coefs) (xs ys : List ℝ) : Prop :=
  ys.length = xs.length ∧ ∀ n, n < xs.length → ∃ k, ks[n]? = some k ∧
    ys.getD n 0 = k.b0 * xs.getD n 0 + k.b1 * before xs n 1 + k.b2 * before xs n 2 - k.a1 * before ys n 1 -
      k.a2 * before ys n 2

/-- the state after inputs `xs` and outputs `ys` -/
def XY.after (xs ys : List ℝ) : XY :=
  ⟨before xs xs.length 1, before xs xs.length 2, before ys ys.length 1, before ys ys.length 2⟩

theorem before_snoc_lt {l : List ℝ} {n j : Nat} (x : ℝ) (h : n < l.length) : before (l ++ [x]) n j = before l n j := by
  unfold before
  split
  · simp only [List.getD]; rw [List.getElem?_append_left (by omega)]
  · rfl

theorem before_snoc_eq {l : List ℝ} {j : Nat} (x : ℝ) (hj : 0 < j) :
    before (l ++ [x]) l.length j = before l l.length j := by
  unfold before
  split
  · simp only [List.getD]; rw [List.getElem?_append_left (by omega)]
  · rfl

theorem before_snoc_one (l : List ℝ) (x : ℝ) : before (l ++ [x]) (l ++ [x]).length 1 = x := by
  unfold before
  rw [if_pos (by simp)]
  simp [List.getD]

theorem before_snoc_two (l : List ℝ) (x : ℝ) : before (l ++ [x]) (l ++ [x]).length 2 = before l l.length 1 := by
  unfold before
  simp only [List.length_append, List.length_singleton]
  by_cases h : 1 ≤ l.length
  · rw [if_pos (by omega), if_pos h]
    simp only [List.getD]
    rw [List.getElem?_append_left (by omega)]
    congr 2
  · rw [if_neg (by omega), if_neg h]

theorem getD_snoc_lt {l : List ℝ} {n : Nat} (x : ℝ) (h : n < l.length) : (l ++ [x]).getD n 0 = l.getD n 0 := by
  simp only [List.getD]; rw [List.getElem?_append_left h]

theorem getD_snoc_eq (l : List ℝ) (x : ℝ) : (l ++ [x]).getD l.length 0 = x := by
  simp [List.getD]

/-- A step extends the recursion. -/
theorem Recursion.snoc {ks : List Coefs} {xs ys : List ℝ} (h : Recursion ks xs ys) (hk : ks.length = xs.length)
    (k : Coefs) (x : ℝ) :
    let r := (XY.after xs ys).step k x
    Recursion (ks ++ [k]) (xs ++ [x]) (ys ++ [r.2]) ∧ r.1 = XY.after (xs ++ [x]) (ys ++ [r.2]) := by
  obtain ⟨hl, he⟩ := h
  intro r
  refine ⟨⟨by simp [hl], fun n hn => ?_⟩, ?_⟩
  · simp only [List.length_append, List.length_singleton] at hn
    by_cases hlt : n < xs.length
    · obtain ⟨k', hk', e⟩ := he n hlt
      refine ⟨k', by rw [List.getElem?_append_left (by omega)]; exact hk', ?_⟩
      rw [getD_snoc_lt _ (by omega), getD_snoc_lt _ hlt, before_snoc_lt _ hlt, before_snoc_lt _ hlt,
        before_snoc_lt _ (by omega), before_snoc_lt _ (by omega)]
      exact e
    · have hn' : n = xs.length := by omega
      subst hn'
      refine ⟨k, by rw [← hk, List.getElem?_append_right (le_refl _)]; simp, ?_⟩
      rw [getD_snoc_eq, before_snoc_eq _ (by omega), before_snoc_eq _ (by omega)]
      rw [← hl, getD_snoc_eq, before_snoc_eq _ (by omega), before_snoc_eq _ (by omega), hl]
      simp only [r, XY.step, XY.after, hl]
  · have e1 := before_snoc_one xs x
    have e2 := before_snoc_two xs x
    have e3 := before_snoc_one ys r.2
    have e4 := before_snoc_two ys r.2
    unfold XY.after
    rw [e1, e2, e3, e4]
    rfl

theorem XY.run_spec (l : List ℝ) : ∀ (ks' : List Coefs) (ks : List Coefs) (xs ys : List ℝ), ks'.length = l.length →
    Recursion ks xs ys → ks.length = xs.length →
    let r := (XY.after xs ys).run ks' l
    Recursion (ks ++ ks') (xs ++ l) (ys ++ r.2) ∧ r.1 = XY.after (xs ++ l) (ys ++ r.2) ∧ r.2.length = l.length := by
  induction l with
  | nil =>
    intro ks' ks xs ys hl h hk
    rw [List.length_nil, List.length_eq_zero_iff] at hl
    subst hl
    simpa [XY.run] using h
  | cons x l ih =>
    intro ks' ks xs ys hl h hk
    cases ks' with
    | nil => simp at hl
    | cons k ks' =>
      obtain ⟨h1, h2⟩ := h.snoc hk k x
      have h3 := ih ks' _ _ _ (by simpa using hl) h1 (by simp [hk])
      simp only [XY.run]
      rw [h2]
      simp only [List.append_assoc, List.singleton_append] at h3
      exact ⟨h3.1, h3.2.1, by simpa using h3.2.2⟩

/-- quantum after quantum, each with its coefficients -/
noncomputable def biquadRun (N : Nat) : List XY → List (List Coefs × Quantum ℝ) → List XY × List (Quantum ℝ × Bool)
  | xy, [] => (xy, [])
  | xy, i :: is =>
    let r := biquad N xy i.1 i.2
    let s := biquadRun N r.1 is
    (s.1, r.2 :: s.2)

/-- The states are those of the streams. -/
structure Tracks (m : Nat) (xy : List XY) (ks : List Coefs) (xs ys : Nat → List ℝ) : Prop where
  len : ∀ c, c < m → (xs c).length = ks.length
  sat : ∀ c, c < m → Recursion ks (xs c) (ys c)
  state : ∀ c, c < m → xy.getD c XY.zero = XY.after (xs c) (ys c)
  shape : xy.length = m ∨ xy = []

theorem run_zero (ks : List Coefs) : ∀ n : Nat, ks.length = n →
    XY.zero.run ks (List.replicate n 0) = (XY.zero, List.replicate n 0) := by
  have hs : ∀ k, XY.zero.step k 0 = (XY.zero, 0) := by intro k; simp [XY.step, XY.zero]
  induction ks with
  | nil => intro n hn; subst hn; rfl
  | cons k ks ih =>
    intro n hn
    subst hn
    simp only [List.length_cons, List.replicate_succ, XY.run, hs]
    rw [ih _ rfl]

theorem map_getD_range {N : Nat} (o : List ℝ) (ho : o.length = N) : ((List.range N).map fun i => o.getD i 0) = o := by
  apply List.ext_getElem
  · simp [ho]
  · intro i h4 h5
    simp only [List.getElem_map, List.getElem_range, List.getD]
    rw [List.getElem?_eq_getElem h5]
    rfl

/-- A quantum keeps this. -/
theorem Tracks.process {m N : Nat} {xy : List XY} {ks : List Coefs} {xs ys : Nat → List ℝ} (h : Tracks m xy ks xs ys)
    (cs : List Coefs) (hcs : cs.length = N) (q : Quantum ℝ) (hq : ∀ l, some l ∈ q → l.length = N)
    (hm : isSilent q = false → q.length = m) :
    Tracks m (biquad N xy cs q).1 (ks ++ cs) (fun c => xs c ++ (List.range N).map fun i => sample q c i)
      (fun c => ys c ++ (List.range N).map fun i => sample (biquad N xy cs q).2.1 c i) := by
  have hzero : isSilent q = true → ∀ c, ((List.range N).map fun i => sample q c i) = List.replicate N 0 := by
    intro hs c
    apply List.ext_getElem <;> simp [sample_of_isSilent hs]
  have hzeroS : ∀ c, ((List.range N).map fun i => sample (silence : Quantum ℝ) c i) = List.replicate N 0 := by
    intro c
    apply List.ext_getElem <;> simp [sample_silence]
  have hrun : ∀ c, c < m → ∀ l : List ℝ, l.length = N →
      let r := (xy.getD c XY.zero).run cs l
      Recursion (ks ++ cs) (xs c ++ l) (ys c ++ r.2) ∧ r.1 = XY.after (xs c ++ l) (ys c ++ r.2) ∧
        r.2.length = l.length := by
    intro c hc l hl
    rw [h.state c hc]
    exact XY.run_spec l cs ks _ _ (by omega) (h.sat c hc) (h.len c hc).symm
  have hlen : ∀ c, c < m → (xs c ++ (List.range N).map fun i => sample q c i).length = (ks ++ cs).length := by
    intro c hc
    simp [h.len c hc, hcs]
  unfold biquad
  by_cases hend : isSilent q = true ∧ ∀ s ∈ xy, s = XY.zero
  · rw [if_pos hend]
    obtain ⟨hs, he⟩ := hend
    have hst : ∀ c, xy.getD c XY.zero = XY.zero := by
      intro c
      simp only [List.getD]
      by_cases hc : c < xy.length
      · rw [List.getElem?_eq_getElem hc]; exact he _ (List.getElem_mem hc)
      · rw [List.getElem?_eq_none (by omega)]; rfl
    have hr : ∀ c, c < m → Recursion (ks ++ cs) (xs c ++ List.replicate N 0) (ys c ++ List.replicate N 0) ∧
        XY.zero = XY.after (xs c ++ List.replicate N 0) (ys c ++ List.replicate N 0) := by
      intro c hc
      have := hrun c hc (List.replicate N 0) (by simp)
      rw [hst c, run_zero cs N hcs] at this
      exact ⟨this.1, this.2.1⟩
    refine ⟨hlen, fun c hc => ?_, fun c hc => ?_, h.shape⟩
    · simp only [hzero hs c, hzeroS]
      exact (hr c hc).1
    · simp only [hzero hs c, hzeroS]
      rw [← (hr c hc).2]
      exact hst c
  · rw [if_neg hend]
    simp only
    have hstates : ∃ states, (if isSilent q = true then xy
        else xy.take q.length ++ List.replicate (q.length - xy.length) XY.zero) = states ∧
        states.length = m ∧ ∀ c, c < m → states.getD c XY.zero = xy.getD c XY.zero := by
      refine ⟨_, rfl, ?_, ?_⟩
      · split
        · rename_i hs
          rcases h.shape with h1 | h1
          · exact h1
          · exfalso
            apply hend
            rw [h1]
            exact ⟨hs, by simp⟩
        · rename_i hs
          have := hm (by simpa using hs)
          simp
          omega
      · intro c hcm
        split
        · rfl
        · rename_i hs
          have hql := hm (by simpa using hs)
          simp only [List.getD]
          by_cases hcl : c < xy.length
          · rw [List.getElem?_append_left (by simp; omega), List.getElem?_take_of_lt (by omega)]
          · rw [List.getElem?_append_right (by simp; omega), List.getElem?_eq_none (by omega : xy.length ≤ c),
              List.getElem?_replicate_of_lt (by simp; omega)]
            rfl
    obtain ⟨states, hse, hsl, hsg⟩ := hstates
    rw [hse, hsl]
    have hin : ∀ c, c < m → (if isSilent q = true then q.headD none else q.getD c none).data N =
        (List.range N).map fun i => sample q c i := by
      intro c hcm
      split
      · rename_i hs
        rw [hzero hs c]
        cases q with
        | nil => rfl
        | cons x q =>
          unfold isSilent at hs
          simp only [List.all_cons, Bool.and_eq_true, Option.isNone_iff_eq_none] at hs
          simp [hs.1, Chan.data]
      · rename_i hs
        exact data_eq_sample hq c (by rw [hm (by simpa using hs)]; exact hcm)
    have hfin : ∀ c, c < m →
        let l := (List.range N).map fun i => sample q c i
        ∃ r, ((List.range m).map fun c => (states.getD c XY.zero).run cs
            ((if isSilent q = true then q.headD none else q.getD c none).data N))[c]? = some r ∧
          Recursion (ks ++ cs) (xs c ++ l) (ys c ++ r.2) ∧ r.1 = XY.after (xs c ++ l) (ys c ++ r.2) ∧
          ((List.range N).map fun i => r.2.getD i 0) = r.2 := by
      intro c hcm l
      refine ⟨_, by rw [List.getElem?_map, List.getElem?_range hcm]; rfl, ?_⟩
      simp only
      rw [hin c hcm, hsg c hcm]
      obtain ⟨h1, h2, h3⟩ := hrun c hcm l (by simp [l])
      exact ⟨h1, h2, map_getD_range _ (by rw [h3]; simp [l])⟩
    refine ⟨hlen, fun c hcm => ?_, fun c hcm => ?_, Or.inl (by simp)⟩
    · obtain ⟨r, hr, h1, h2, h3⟩ := hfin c hcm
      have hs : ∀ i, sample (List.map (fun r => some r.2) ((List.range m).map fun c => (states.getD c XY.zero).run cs
            ((if isSilent q = true then q.headD none else q.getD c none).data N))) c i = r.2.getD i 0 := by
        intro i
        unfold sample
        rw [List.getElem?_map, hr]
        rfl
      simp only [hs, h3]
      exact h1
    · obtain ⟨r, hr, h1, h2, h3⟩ := hfin c hcm
      have hs : ∀ i, sample (List.map (fun r => some r.2) ((List.range m).map fun c => (states.getD c XY.zero).run cs
            ((if isSilent q = true then q.headD none else q.getD c none).data N))) c i = r.2.getD i 0 := by
        intro i
        unfold sample
        rw [List.getElem?_map, hr]
        rfl
      simp only [hs, h3, ← h2]
      have hg : ∀ (L : List (XY × List ℝ)) (d : XY), L[c]? = some r → (L.map (·.1)).getD c d = r.1 := by
        intro L d hL
        simp only [List.getD, List.getElem?_map, hL]
        rfl
      exact hg _ _ hr

theorem Tracks.run {m N : Nat} (is : List (List Coefs × Quantum ℝ)) :
    ∀ {xy : List XY} {ks : List Coefs} {xs ys : Nat → List ℝ}, Tracks m xy ks xs ys →
    (∀ i ∈ is, i.1.length = N) → (∀ i ∈ is, ∀ l, some l ∈ i.2 → l.length = N) →
    (∀ i ∈ is, isSilent i.2 = false → i.2.length = m) →
    Tracks m (biquadRun N xy is).1 (ks ++ (is.map (·.1)).flatten) (fun c => xs c ++ stream N (is.map (·.2)) c)
      (fun c => ys c ++ stream N ((biquadRun N xy is).2.map (·.1)) c) := by
  induction is with
  | nil =>
    intro xy ks xs ys h _ _ _
    simpa [biquadRun, stream] using h
  | cons i is ih =>
    intro xy ks xs ys h h0 h1 h2
    have hp := h.process i.1 (h0 i (by simp)) i.2 (h1 i (by simp)) (h2 i (by simp))
    have := ih hp (fun x hx => h0 x (by simp [hx])) (fun x hx => h1 x (by simp [hx])) (fun x hx => h2 x (by simp [hx]))
    simp only [biquadRun, stream, List.map_cons, List.flatten_cons] at this ⊢
    simpa [List.append_assoc] using this

/-- C43: for all sequences of quanta, silent or not, in which the quanta that are not silent have `m` channels, and
all sequences of coefficients, the samples of each channel satisfy the difference equation, across the borders of the
quanta, each frame with its own coefficients. -/
theorem C43_difference_equation {m N : Nat} (is : List (List Coefs × Quantum ℝ)) (hk : ∀ i ∈ is, i.1.length = N)
    (hq : ∀ i ∈ is, ∀ l, some l ∈ i.2 → l.length = N) (hm : ∀ i ∈ is, isSilent i.2 = false → i.2.length = m) (c : Nat)
    (hc : c < m) :
    Recursion (is.map (·.1)).flatten (stream N (is.map (·.2)) c)
      (stream N ((biquadRun N [] is).2.map (·.1)) c) := by
  have h0 : Tracks m [] [] (fun _ => []) (fun _ => []) :=
    ⟨fun _ _ => rfl, fun _ _ => ⟨rfl, fun n hn => by simp at hn⟩, fun _ _ => rfl, Or.inr rfl⟩
  have := (h0.run is hk hq hm).sat c hc
  simpa using this

/-- C43: once the filter reports the end, silent input gives silence, and the end again. -/
theorem C43_tail_end {N : Nat} {xy : List XY} {cs : List Coefs} {q : Quantum ℝ} (h : (biquad N xy cs q).2.2 = false)
    (is : List (List Coefs × Quantum ℝ)) (hs : ∀ i ∈ is, isSilent i.2 = true) :
    (biquad N xy cs q).2.1 = silence ∧
    ∀ r ∈ (biquadRun N (biquad N xy cs q).1 is).2, r = (silence, false) := by
  have he : isSilent q = true ∧ ∀ s ∈ xy, s = XY.zero := by
    by_contra hc
    unfold biquad at h
    rw [if_neg hc] at h
    simp at h
  have e1 : biquad N xy cs q = (xy, silence, false) := by unfold biquad; rw [if_pos he]
  rw [e1]
  refine ⟨rfl, ?_⟩
  simp only
  induction is with
  | nil => simp [biquadRun]
  | cons i is ih =>
    have hx : biquad N xy i.1 i.2 = (xy, silence, false) := by
      unfold biquad; rw [if_pos ⟨hs i (by simp), he.2⟩]
    simp only [biquadRun, hx, List.mem_cons, forall_eq_or_imp, true_and]
    exact ih fun y hy => hs y (by simp [hy])

/-! ### coefficients per frame -/

/-- the list of coefficients of a quantum, l.818-855: the first entry everywhere; when a parameter has more than one
value all entries but the first are computed from the values of their frame, taken cyclically -/
noncomputable def coefsList (N : Nat) (ty : FilterType) (sampleRate : ℝ) (freq detune q gain : List ℝ) : List Coefs :=
  let at' := fun (l : List ℝ) (i : Nat) => l.getD (i % l.length) 0
  let coef := fun i => calculateCoefs ty sampleRate (computedFreq (at' freq i) (at' detune i)) (at' gain i) (at' q i)
  if freq.length ≠ 1 ∨ detune.length ≠ 1 ∨ q.length ≠ 1 ∨ gain.length ≠ 1 then
    (List.range N).map fun i => if i = 0 then coef 0 else coef i
  else List.replicate N (coef 0)

/-- Specification: the value of a parameter in frame `i`; a list with one value stands for all frames -/
def valueAt (l : List ℝ) (i : Nat) : ℝ := if l.length = 1 then l.getD 0 0 else l.getD i 0

/-- C43: each frame is computed with the coefficients of the parameter values of this frame. -/
theorem C43_coefficients {N : Nat} (ty : FilterType) (sampleRate : ℝ) (freq detune q gain : List ℝ)
    (h1 : freq.length = 1 ∨ freq.length = N) (h2 : detune.length = 1 ∨ detune.length = N)
    (h3 : q.length = 1 ∨ q.length = N) (h4 : gain.length = 1 ∨ gain.length = N) (i : Nat) (hi : i < N) :
    (coefsList N ty sampleRate freq detune q gain)[i]? = some (calculateCoefs ty sampleRate
      (computedFreq (valueAt freq i) (valueAt detune i)) (valueAt gain i) (valueAt q i)) := by
  have hat : ∀ l : List ℝ, l.length = 1 ∨ l.length = N → l.getD (i % l.length) 0 = valueAt l i := by
    intro l hl
    unfold valueAt
    by_cases h : l.length = 1
    · rw [if_pos h, h, Nat.mod_one]
    · rw [if_neg h, Nat.mod_eq_of_lt (by omega)]
  unfold coefsList
  simp only
  split
  · rw [List.getElem?_map, List.getElem?_range hi]
    simp only [Option.map_some]
    rw [← hat freq h1, ← hat detune h2, ← hat q h3, ← hat gain h4]
    by_cases h0 : i = 0
    · subst h0; simp
    · rw [if_neg h0]
  · rename_i hne
    push Not at hne
    obtain ⟨e1, e2, e3, e4⟩ := hne
    rw [List.getElem?_replicate_of_lt hi]
    unfold valueAt
    rw [if_pos e1, if_pos e2, if_pos e3, if_pos e4, e1, e2, e3, e4]

/-- C43: `detune` shifts the frequency by cents: 1200 cents are an octave, shifts add up, zero does nothing, and the
shift is continuous and scales with the frequency, which determines it. -/
theorem C43_detune (freq d e : ℝ) : computedFreq freq 0 = freq ∧ computedFreq freq 1200 = 2 * freq ∧
    computedFreq freq (d + e) = computedFreq (computedFreq freq d) e ∧ computedFreq freq d = freq * computedFreq 1 d ∧
    Continuous (computedFreq freq) := by
  have h : ∀ f x : ℝ, computedFreq f x = f * 2 ^ (x / 1200) := by
    intro f x
    unfold computedFreq
    split
    · rfl
    · rename_i hx
      push Not at hx
      simp [hx]
  refine ⟨by simp [h], by rw [h]; norm_num [mul_comm], ?_, by simp [h], ?_⟩
  · rw [h, h, h, add_div, Real.rpow_add (by norm_num), mul_assoc]
  · have : computedFreq freq = fun x => freq * (2 : ℝ) ^ (x / 1200) := funext (h freq)
    rw [this]
    exact continuous_const.mul (continuous_const.rpow (continuous_id.div_const _) fun _ => .inl (by norm_num))

/-! ### bounded output -/

theorem first_order {μ : ℂ} (hμ : ‖μ‖ < 1) {C : ℝ} (hC : 0 ≤ C) (v : Nat → ℂ) (n : Nat) (h0 : ‖v 0‖ ≤ C)
    (hs : ∀ k, k + 1 ≤ n → ‖v (k + 1) - μ * v k‖ ≤ C) : ∀ k, k ≤ n → ‖v k‖ ≤ C / (1 - ‖μ‖) := by
  have h1 : 0 < 1 - ‖μ‖ := by linarith
  have hge : C ≤ C / (1 - ‖μ‖) := by
    rw [le_div_iff₀ h1]
    nlinarith [norm_nonneg μ]
  intro k
  induction k with
  | zero => intro _; exact le_trans h0 hge
  | succ k ih =>
    intro hk
    have e : v (k + 1) = (v (k + 1) - μ * v k) + μ * v k := by ring
    rw [e]
    refine le_trans (norm_add_le _ _) ?_
    rw [norm_mul]
    have h2 := hs k hk
    have h3 := ih (by omega)
    have h4 : ‖μ‖ * ‖v k‖ ≤ ‖μ‖ * (C / (1 - ‖μ‖)) := mul_le_mul_of_nonneg_left h3 (norm_nonneg _)
    have h5 : C + ‖μ‖ * (C / (1 - ‖μ‖)) = C / (1 - ‖μ‖) := by field_simp; ring
    linarith

theorem PolesInside.factor {k : Coefs} (h : PolesInside k) :
    ∃ l m : ℂ, ‖l‖ < 1 ∧ ‖m‖ < 1 ∧ (k.a1 : ℂ) = -(l + m) ∧ (k.a2 : ℂ) = l * m := by
  obtain ⟨s, hs⟩ := IsAlgClosed.exists_pow_nat_eq ((k.a1 : ℂ) ^ 2 - 4 * k.a2) (n := 2) (by norm_num)
  refine ⟨(-k.a1 + s) / 2, (-k.a1 - s) / 2, h _ ?_, h _ ?_, by ring, ?_⟩
  · linear_combination hs / 4
  · linear_combination hs / 4
  · linear_combination hs / 4

/-- C43: with poles inside the unit circle, bounded input gives bounded output: there is a factor that depends only on
the coefficients such that, for all lengths, all bounds and all inputs within the bound, all outputs are within the
factor times the bound. -/
theorem C43_bounded {k : Coefs} (h : PolesInside k) : ∃ B : ℝ, 0 ≤ B ∧ ∀ (M : ℝ) (xs ys : List ℝ),
    (∀ x ∈ xs, |x| ≤ M) → Recursion (List.replicate xs.length k) xs ys → ∀ y ∈ ys, |y| ≤ B * M := by
  obtain ⟨l, m, hl, hm, ha1, ha2⟩ := h.factor
  have h1l : 0 < 1 - ‖l‖ := by linarith
  have h1m : 0 < 1 - ‖m‖ := by linarith
  refine ⟨(|k.b0| + |k.b1| + |k.b2|) / (1 - ‖m‖) / (1 - ‖l‖), by positivity, fun M xs ys hx hr y hy => ?_⟩
  obtain ⟨hlen, he⟩ := hr
  have hM : 0 ≤ M := by
    have hpos : 0 < ys.length := List.length_pos_of_mem hy
    exact le_trans (abs_nonneg _) (hx _ (List.getElem_mem (by omega : 0 < xs.length)))
  obtain ⟨n, hn, rfl⟩ := List.mem_iff_getElem.1 hy
  rw [hlen] at hn
  have hgx : ∀ i, |xs.getD i 0| ≤ M := by
    intro i
    simp only [List.getD]
    by_cases hi : i < xs.length
    · rw [List.getElem?_eq_getElem hi]; exact hx _ (List.getElem_mem hi)
    · rw [List.getElem?_eq_none (by omega)]; simpa using hM
  have hbx : ∀ i j, |before xs i j| ≤ M := by
    intro i j
    unfold before
    split
    · exact hgx _
    · simpa using hM
  set C := (|k.b0| + |k.b1| + |k.b2|) * M with hC
  have hC0 : 0 ≤ C := by positivity
  -- the input side
  let u : Nat → ℝ := fun i => k.b0 * xs.getD i 0 + k.b1 * before xs i 1 + k.b2 * before xs i 2
  have hu : ∀ i, |u i| ≤ C := by
    intro i
    have t1 : |k.b0 * xs.getD i 0| ≤ |k.b0| * M := by
      rw [abs_mul]; exact mul_le_mul_of_nonneg_left (hgx i) (abs_nonneg _)
    have t2 : |k.b1 * before xs i 1| ≤ |k.b1| * M := by
      rw [abs_mul]; exact mul_le_mul_of_nonneg_left (hbx i 1) (abs_nonneg _)
    have t3 : |k.b2 * before xs i 2| ≤ |k.b2| * M := by
      rw [abs_mul]; exact mul_le_mul_of_nonneg_left (hbx i 2) (abs_nonneg _)
    calc |u i| ≤ |k.b0 * xs.getD i 0 + k.b1 * before xs i 1| + |k.b2 * before xs i 2| := abs_add_le _ _
      _ ≤ |k.b0 * xs.getD i 0| + |k.b1 * before xs i 1| + |k.b2 * before xs i 2| := by
        have := abs_add_le (k.b0 * xs.getD i 0) (k.b1 * before xs i 1)
        linarith
      _ ≤ C := by rw [hC]; nlinarith
  have hrec : ∀ i, i < xs.length → ys.getD i 0 = u i - k.a1 * before ys i 1 - k.a2 * before ys i 2 := by
    intro i hi
    obtain ⟨k', hk', e⟩ := he i hi
    rw [List.getElem?_replicate_of_lt hi] at hk'
    obtain rfl := Option.some.inj hk'
    exact e
  -- first order factors
  let Y : Nat → ℂ := fun i => (ys.getD i 0 : ℝ)
  let V : Nat → ℂ := fun i => match i with
    | 0 => Y 0
    | i + 1 => Y (i + 1) - l * Y i
  have hnc : ∀ i, ‖((u i : ℝ) : ℂ)‖ ≤ C := by
    intro i; rw [Complex.norm_real]; exact hu i
  have hY0 : Y 0 = ((u 0 : ℝ) : ℂ) := by
    change ((ys.getD 0 0 : ℝ) : ℂ) = _
    rw [hrec 0 (by omega)]
    simp [before]
  have hV : ∀ i, i ≤ n → ‖V i‖ ≤ C / (1 - ‖m‖) := by
    apply first_order hm hC0 V n
    · change ‖Y 0‖ ≤ C
      rw [hY0]
      exact hnc 0
    · intro i hi
      have e := hrec (i + 1) (by omega)
      have : V (i + 1) - m * V i = ((u (i + 1) : ℝ) : ℂ) := by
        cases i with
        | zero =>
          change Y 1 - l * Y 0 - m * Y 0 = _
          have e' : Y 1 = ((u 1 : ℝ) : ℂ) - k.a1 * Y 0 := by
            change ((ys.getD 1 0 : ℝ) : ℂ) = _
            rw [e]
            simp [before, Y]
          rw [e', ha1]
          ring
        | succ i =>
          change Y (i + 2) - l * Y (i + 1) - m * (Y (i + 1) - l * Y i) = _
          have e' : Y (i + 2) = ((u (i + 2) : ℝ) : ℂ) - k.a1 * Y (i + 1) - k.a2 * Y i := by
            change ((ys.getD (i + 2) 0 : ℝ) : ℂ) = _
            rw [e]
            simp [before, Y]
          rw [e', ha1, ha2]
          ring
      rw [this]
      exact hnc _
  have hC1 : 0 ≤ C / (1 - ‖m‖) := by positivity
  have hYb := first_order hl hC1 Y n (hV 0 (by omega)) (fun i hi => hV (i + 1) hi) n (le_refl _)
  have hYn : Y n = ((ys[n]'(by omega) : ℝ) : ℂ) := by
    change ((ys.getD n 0 : ℝ) : ℂ) = _
    congr 1
    simp [List.getD, List.getElem?_eq_getElem (show n < ys.length by omega)]
  rw [hYn, Complex.norm_real, Real.norm_eq_abs] at hYb
  refine le_trans hYb (le_of_eq ?_)
  rw [hC]
  field_simp

/-- All filters, with frequencies strictly between zero and the Nyquist frequency -/
example (ty : FilterType) (gain q : ℝ) : ∃ B : ℝ, 0 ≤ B ∧ ∀ (M : ℝ) (xs ys : List ℝ), (∀ x ∈ xs, |x| ≤ M) →
    Recursion (List.replicate xs.length (calculateCoefs ty 48000 440 gain q)) xs ys → ∀ y ∈ ys, |y| ≤ B * M :=
  C43_bounded (C43_poles ty 48000 440 gain q (by norm_num) (by norm_num))

/-- C43 is false for the lowpass at frequency 0: when the filter passes one sample with value 1, at the Nyquist
frequency, and is then set to frequency 0, its output for silent input grows without bound: frame `n` is `n + 1`. -/
theorem C43_negated_bounded (sampleRate gain q : ℝ) (hr : 0 < sampleRate) (n : Nat) :
    let k1 := calculateCoefs .lowpass sampleRate (sampleRate / 2) gain q
    let k0 := calculateCoefs .lowpass sampleRate 0 gain q
    (XY.zero.run (k1 :: List.replicate n k0) (1 :: List.replicate n 0)).2 =
      (List.range (n + 1)).map fun i : Nat => (i : ℝ) + 1 := by
  intro k1 k0
  have hk0 : k0 = ⟨0, 0, 0, -2, 1⟩ := (C43_negated_lowpass_zero sampleRate gain q).1
  have hk1 : k1 = ⟨1, 0, 0, 0, 0⟩ := by
    have e : max 0 (min 1 (sampleRate / 2 / (sampleRate / 2))) = (1 : ℝ) := by
      rw [div_self (by positivity)]; norm_num
    simp only [k1, calculateCoefs, e]
    simp [lowpass]
  have key : ∀ (n : Nat) (s : XY) (a : ℝ), s.y1 = a → s.y2 = a - 1 →
      (s.run (List.replicate n k0) (List.replicate n 0)).2 = (List.range n).map fun i : Nat => (i : ℝ) + (a + 1) := by
    intro n
    induction n with
    | zero => intro s a _ _; rfl
    | succ n ih =>
      intro s a h1 h2
      rw [List.replicate_succ, List.replicate_succ, XY.run, List.range_succ_eq_map]
      simp only [List.map_cons, List.map_map]
      have hy : (s.step k0 0).2 = a + 1 := by
        rw [hk0]; simp only [XY.step, h1, h2]; ring
      rw [ih (s.step k0 0).1 (a + 1) hy (by change s.y1 = _; rw [h1]; ring), hy]
      congr 1
      · push_cast; ring
      · apply List.map_congr_left
        intro i _
        simp only [Function.comp]
        push_cast
        ring
  rw [XY.run, List.range_succ_eq_map]
  have hs : XY.zero.step k1 1 = (⟨1, 0, 1, 0⟩, 1) := by rw [hk1]; simp [XY.step, XY.zero]
  rw [hs]
  simp only [List.map_cons, List.map_map]
  rw [key n ⟨1, 0, 1, 0⟩ 1 rfl (by norm_num)]
  congr 1
  · push_cast; ring
  · apply List.map_congr_left
    intro i _
    simp only [Function.comp]
    push_cast
    ring

end Verif.Filter
