import Verif.Filter.IirModel

/-!
# C42: the IIR filter computes its difference equation
-/

namespace Verif.Filter

open Verif.Node Finset

section
variable {K : Type} [Field K] [DecidableEq K]

/-- Specification: the difference equation for a stream `xs` of inputs and a stream `ys` of outputs; everything before
the first sample is zero. -/
def Satisfies (b a xs ys : List K) : Prop :=
  ys.length = xs.length ∧ ∀ n, n < xs.length →
    a.getD 0 0 * ys.getD n 0 = ∑ k ∈ range (n + 1), b.getD k 0 * xs.getD (n - k) 0 -
      ∑ k ∈ range n, a.getD (k + 1) 0 * ys.getD (n - (k + 1)) 0

/-! ### states -/

/-- coefficients against past samples, newest first -/
def taps : List (K × K) → List K → List K → K
  | p :: cs, x :: X, y :: Y => p.1 * x - p.2 * y + taps cs X Y
  | _, _, _ => 0

/-- what the state is after the inputs `X` and outputs `Y`, newest first -/
def encode : List (K × K) → List K → List K → List K
  | [], _, _ => []
  | _ :: cs, X, Y => taps cs X Y :: encode cs X Y

omit [DecidableEq K] in
theorem shift_encode (x y : K) (X Y : List K) (cs : List (K × K)) : ∀ p : K × K,
    shift x y cs (encode (p :: cs) X Y) = encode (p :: cs) (x :: X) (y :: Y) := by
  induction cs with
  | nil => intro p; simp [encode, shift, taps]
  | cons q cs ih =>
    intro p
    simp only [encode, shift, taps]
    rw [← encode.eq_2 X Y q cs, ih q]
    rfl

omit [DecidableEq K] in
theorem taps_nil (cs : List (K × K)) : taps cs [] [] = (0 : K) := by cases cs <;> rfl

omit [DecidableEq K] in
theorem encode_nil (cs : List (K × K)) : encode cs ([] : List K) [] = List.replicate cs.length 0 := by
  induction cs with
  | nil => rfl
  | cons p cs ih => simp only [encode, taps_nil, ih]; rfl

omit [DecidableEq K] in
theorem taps_sum : ∀ (cs : List (K × K)) (X Y : List K), X.length = Y.length →
    taps cs X Y = ∑ k ∈ range X.length, ((cs.getD k (0, 0)).1 * X.getD k 0 - (cs.getD k (0, 0)).2 * Y.getD k 0) := by
  intro cs
  induction cs with
  | nil => intro X Y _; simp [taps]
  | cons p cs ih =>
    intro X Y h
    cases X with
    | nil => simp [taps]
    | cons x X =>
      cases Y with
      | nil => simp at h
      | cons y Y =>
        simp only [taps, List.length_cons]
        rw [sum_range_succ', ih X Y (by simpa using h)]
        simp only [List.getD_cons_zero, List.getD_cons_succ]
        ring

/-! ### one sample, one channel -/

omit [DecidableEq K] in
theorem getD_reverse {l : List K} {k : Nat} (h : k < l.length) : l.reverse.getD k 0 = l.getD (l.length - 1 - k) 0 := by
  simp only [List.getD]
  rw [List.getElem?_reverse h]

omit [DecidableEq K] in
/-- A step of the recursion extends the equation. -/
theorem Satisfies.snoc {b a xs ys : List K} {p : K × K} {cs : List (K × K)} (h : Satisfies b a xs ys)
    (ha0 : a.getD 0 0 ≠ 0)
    (hc : ∀ k, (p :: cs).getD k (0, 0) = (b.getD k 0 / a.getD 0 0, a.getD k 0 / a.getD 0 0)) (x : K) :
    Satisfies b a (xs ++ [x]) (ys ++ [p.1 * x + taps cs xs.reverse ys.reverse]) := by
  obtain ⟨hl, he⟩ := h
  refine ⟨by simp [hl], fun n hn => ?_⟩
  simp only [List.length_append, List.length_singleton] at hn
  by_cases hlt : n < xs.length
  · have e1 : ∀ k, (xs ++ [x]).getD (n - k) 0 = xs.getD (n - k) 0 := by
      intro k; simp only [List.getD]; rw [List.getElem?_append_left (by omega)]
    have e2 : ∀ k, ∀ z : K, (ys ++ [z]).getD (n - k) 0 = ys.getD (n - k) 0 := by
      intro k z; simp only [List.getD]; rw [List.getElem?_append_left (by omega)]
    have e3 := e2 0
    simp only [Nat.sub_zero] at e3
    simp only [e1, e2, e3]
    exact he n hlt
  · have hn' : n = xs.length := by omega
    subst hn'
    have hy : ∀ z : K, (ys ++ [z]).getD xs.length 0 = z := by
      intro z; simp only [List.getD]; rw [← hl, List.getElem?_append_right (le_refl _)]; simp
    have hx : (xs ++ [x]).getD xs.length 0 = x := by
      simp only [List.getD]; rw [List.getElem?_append_right (le_refl _)]; simp
    rw [hy, taps_sum _ _ _ (by simp [hl]), List.length_reverse]
    have h0 := hc 0
    simp only [List.getD_cons_zero] at h0
    have hk : ∀ k, cs.getD k (0, 0) = (b.getD (k + 1) 0 / a.getD 0 0, a.getD (k + 1) 0 / a.getD 0 0) := by
      intro k; rw [← hc (k + 1)]; simp
    rw [sum_range_succ' (fun k => b.getD k 0 * (xs ++ [x]).getD (xs.length - k) 0), Nat.sub_zero, hx]
    have hs1 : ∑ k ∈ range xs.length, b.getD (k + 1) 0 * (xs ++ [x]).getD (xs.length - (k + 1)) 0 =
        ∑ k ∈ range xs.length, b.getD (k + 1) 0 * xs.reverse.getD k 0 := by
      apply sum_congr rfl
      intro k hk'
      have hk' := mem_range.1 hk'
      rw [getD_reverse hk']
      congr 1
      simp only [List.getD]
      rw [List.getElem?_append_left (by omega)]
      congr 2
      omega
    have hs2 : ∀ z : K, ∑ k ∈ range xs.length, a.getD (k + 1) 0 * (ys ++ [z]).getD (xs.length - (k + 1)) 0 =
        ∑ k ∈ range xs.length, a.getD (k + 1) 0 * ys.reverse.getD k 0 := by
      intro z
      apply sum_congr rfl
      intro k hk'
      have hk' := mem_range.1 hk'
      rw [getD_reverse (by omega)]
      congr 1
      simp only [List.getD]
      rw [List.getElem?_append_left (by omega)]
      congr 2
      omega
    rw [hs1, hs2, mul_add, mul_sum, h0]
    simp only [hk]
    have e : ∀ k ∈ range xs.length, a.getD 0 0 * (b.getD (k + 1) 0 / a.getD 0 0 * xs.reverse.getD k 0 -
        a.getD (k + 1) 0 / a.getD 0 0 * ys.reverse.getD k 0) =
        b.getD (k + 1) 0 * xs.reverse.getD k 0 - a.getD (k + 1) 0 * ys.reverse.getD k 0 := by
      intro k _
      field_simp
    rw [sum_congr rfl e, sum_sub_distrib]
    field_simp
    ring

omit [DecidableEq K] in
/-- A channel: the state encodes the past, the outputs satisfy the equation. -/
theorem iirRun_spec {b a : List K} {p : K × K} {cs : List (K × K)} (ha0 : a.getD 0 0 ≠ 0)
    (hc : ∀ k, (p :: cs).getD k (0, 0) = (b.getD k 0 / a.getD 0 0, a.getD k 0 / a.getD 0 0)) (l : List K) :
    ∀ (xs ys : List K), Satisfies b a xs ys →
      let r := iirRun (p :: cs) (encode (p :: cs) xs.reverse ys.reverse) l
      Satisfies b a (xs ++ l) (ys ++ r.2) ∧ r.1 = encode (p :: cs) (xs ++ l).reverse (ys ++ r.2).reverse ∧
        r.2.length = l.length := by
  induction l with
  | nil => intro xs ys h; simpa [iirRun] using h
  | cons x l ih =>
    intro xs ys h
    have h1 := h.snoc ha0 hc x
    have hst : iirStep (p :: cs) (encode (p :: cs) xs.reverse ys.reverse) x =
        (encode (p :: cs) (xs ++ [x]).reverse (ys ++ [p.1 * x + taps cs xs.reverse ys.reverse]).reverse,
          p.1 * x + taps cs xs.reverse ys.reverse) := by
      unfold iirStep
      simp only [List.headD_cons, List.tail_cons, shift_encode]
      simp [encode]
    have h2 := ih _ _ h1
    simp only [iirRun, hst]
    simp only [List.append_assoc, List.singleton_append] at h2
    exact ⟨h2.1, h2.2.1, by rw [List.length_cons, List.length_cons, h2.2.2]⟩

/-! ### coefficients of `new` -/

omit [DecidableEq K] in
theorem new_coeffs (b a : List K) (k : Nat) : (Iir.new b a).coeffs.getD k (0, 0) =
    (b.getD k 0 / a.getD 0 0, a.getD k 0 / a.getD 0 0) := by
  have pad : ∀ (l : List K) (m : Nat) (k : Nat), (l ++ List.replicate m 0).getD k 0 = l.getD k 0 := by
    intro l m k
    simp only [List.getD]
    by_cases h : k < l.length
    · rw [List.getElem?_append_left h]
    · rw [List.getElem?_append_right (by omega), List.getElem?_eq_none (by omega : l.length ≤ k)]
      by_cases h2 : k - l.length < m
      · rw [List.getElem?_replicate_of_lt h2]; rfl
      · rw [List.getElem?_eq_none (by simpa using h2)]
  have hz : ∀ (b' a' : List K) (a0 : K), b'.length = a'.length →
      ((b'.zip a').map fun p => (p.1 / a0, p.2 / a0)).getD k (0, 0) = (b'.getD k 0 / a0, a'.getD k 0 / a0) := by
    intro b' a' a0 hl
    simp only [List.getD, List.getElem?_map]
    by_cases h : k < b'.length
    · have h' : k < a'.length := by omega
      rw [List.getElem?_eq_getElem h, List.getElem?_eq_getElem h', List.getElem?_eq_getElem (by simp; omega)]
      simp
    · rw [List.getElem?_eq_none (by simp; omega), List.getElem?_eq_none (by omega : b'.length ≤ k),
        List.getElem?_eq_none (by omega : a'.length ≤ k)]
      simp
  have hd : ∀ l : List K, l.headD 0 = l.getD 0 0 := by intro l; cases l <;> simp
  unfold Iir.new
  simp only
  rw [hd]
  by_cases h1 : b.length < a.length
  · rw [if_pos h1, if_neg (by omega), hz _ _ _ (by simp; omega), pad]
  · rw [if_neg h1]
    by_cases h2 : a.length < b.length
    · rw [if_pos h2, hz _ _ _ (by simp; omega), pad, pad]
    · rw [if_neg h2, hz _ _ _ (by omega)]

omit [DecidableEq K] in
theorem new_coeffs_cons {b a : List K} (ha : a ≠ []) : ∃ p cs, (Iir.new b a).coeffs = p :: cs := by
  cases h : (Iir.new b a).coeffs with
  | cons p cs => exact ⟨p, cs, rfl⟩
  | nil =>
    exfalso
    have hal := List.length_pos_iff.2 ha
    have hlen := congrArg List.length h
    unfold Iir.new at hlen
    simp only [List.length_map, List.length_zip, List.length_nil] at hlen
    split at hlen <;> split at hlen <;> (try simp only [List.length_append, List.length_replicate] at hlen) <;> omega

/-! ### quanta -/

/-- Specification: channel `c` of a sequence of quanta as one stream of samples -/
def stream (N : Nat) (qs : List (Quantum K)) (c : Nat) : List K :=
  (qs.map fun q => (List.range N).map fun f => sample q c f).flatten

omit [DecidableEq K] in
theorem data_eq_sample {N : Nat} {q : Quantum K} (hq : ∀ l, some l ∈ q → l.length = N) (c : Nat) (hc : c < q.length) :
    (q.getD c none).data N = (List.range N).map fun f => sample q c f := by
  have hd : (q.getD c none) = q[c] := by simp [List.getD, List.getElem?_eq_getElem hc]
  have hl : ((q.getD c none).data N).length = N := by
    rw [hd]
    cases hx : q[c] with
    | none => simp [Chan.data]
    | some l =>
      have := List.getElem_mem hc
      rw [hx] at this
      exact hq l this
  apply List.ext_getElem
  · rw [hl]; simp
  · intro f h1 h2
    have := data_getD N (q.getD c none) f
    simp only [List.getElem_map, List.getElem_range]
    rw [List.getD, List.getElem?_eq_getElem h1, Option.getD_some] at this
    rw [this]
    unfold sample
    rw [List.getElem?_eq_getElem hc, hd]
    cases q[c] <;> rfl

/-- The state encodes the past of the channels below `m`. -/
structure Encodes (b a : List K) (m : Nat) (f : Iir K) (xs ys : Nat → List K) : Prop where
  coeffs : f.coeffs = (Iir.new b a).coeffs
  sat : ∀ c, c < m → Satisfies b a (xs c) (ys c)
  state : ∀ c, c < m → f.states.getD c (List.replicate f.coeffs.length 0) = encode f.coeffs (xs c).reverse (ys c).reverse
  shape : f.states.length = m ∨ ∀ st ∈ f.states, st = List.replicate f.coeffs.length 0

/-- A quantum keeps this. -/
theorem Encodes.process {b a : List K} (ha : a ≠ []) (ha0 : a.getD 0 0 ≠ 0) {m N : Nat} {f : Iir K}
    {xs ys : Nat → List K} (h : Encodes b a m f xs ys) (q : Quantum K) (hq : ∀ l, some l ∈ q → l.length = N)
    (hm : isSilent q = false → q.length = m) :
    Encodes b a m (f.process N q).1 (fun c => xs c ++ (List.range N).map fun i => sample q c i)
      (fun c => ys c ++ (List.range N).map fun i => sample (f.process N q).2.1 c i) := by
  obtain ⟨p, cs, hcs⟩ := new_coeffs_cons (b := b) ha
  have hco : f.coeffs = p :: cs := by rw [h.coeffs, hcs]
  have hc : ∀ k, (p :: cs).getD k (0, 0) = (b.getD k 0 / a.getD 0 0, a.getD k 0 / a.getD 0 0) := by
    intro k; rw [← hcs]; exact new_coeffs b a k
  -- running a channel
  have hrun : ∀ c, c < m → ∀ l,
      let r := iirRun f.coeffs (f.states.getD c (List.replicate f.coeffs.length 0)) l
      Satisfies b a (xs c ++ l) (ys c ++ r.2) ∧ r.1 = encode f.coeffs (xs c ++ l).reverse (ys c ++ r.2).reverse ∧
        r.2.length = l.length := by
    intro c hcm l
    rw [h.state c hcm, hco]
    exact iirRun_spec ha0 hc l _ _ (h.sat c hcm)
  -- silence at rest
  have hrest : ∀ n : Nat, iirRun f.coeffs (List.replicate f.coeffs.length 0) (List.replicate n 0) =
      (List.replicate f.coeffs.length 0, List.replicate n 0) := by
    have h0 : Satisfies b a [] [] := ⟨rfl, fun n hn => by simp at hn⟩
    have hstep : iirStep f.coeffs (List.replicate f.coeffs.length 0) 0 = (List.replicate f.coeffs.length 0, (0 : K)) := by
      rw [hco]
      have hs : ∀ (l : List (K × K)) (n : Nat), l.length + 1 = n →
          shift (0 : K) 0 l (List.replicate n 0) = List.replicate n 0 := by
        intro l
        induction l with
        | nil => intro n hn; subst hn; rfl
        | cons x l ih =>
          intro n hn
          subst hn
          simp only [List.length_cons, List.replicate_succ, shift, mul_zero, sub_zero, zero_add]
          have := ih (l.length + 1) rfl
          simp only [List.replicate_succ] at this
          rw [this]
      unfold iirStep
      simp only [List.headD_cons, mul_zero, zero_add, List.tail_cons, List.length_cons]
      rw [show (List.replicate (cs.length + 1) (0 : K)).headD 0 = 0 from rfl, hs cs _ rfl]
    intro n
    induction n with
    | zero => rfl
    | succ n ih =>
      rw [List.replicate_succ, iirRun, hstep]
      simp only
      rw [ih]
  -- silent quanta have only zeros
  have hzero : isSilent q = true → ∀ c, ((List.range N).map fun i => sample q c i) = List.replicate N 0 := by
    intro hs c
    apply List.ext_getElem <;> simp [sample_of_isSilent hs]
  have hzeroS : ∀ c, ((List.range N).map fun i => sample (silence : Quantum K) c i) = List.replicate N 0 := by
    intro c
    apply List.ext_getElem <;> simp [sample_silence]
  unfold Iir.process
  by_cases hend : (isSilent q && f.ended) = true
  · rw [if_pos hend]
    simp only [Bool.and_eq_true] at hend
    obtain ⟨hs, he⟩ := hend
    -- all states are zero
    have hst : ∀ c, c < m → f.states.getD c (List.replicate f.coeffs.length 0) = List.replicate f.coeffs.length 0 := by
      intro c hcm
      have hl : (f.states.getD c (List.replicate f.coeffs.length 0)).length = f.coeffs.length := by
        rw [h.state c hcm]
        have : ∀ (cs : List (K × K)) (X Y : List K), (encode cs X Y).length = cs.length := by
          intro cs X Y
          induction cs with
          | nil => rfl
          | cons p cs ih => simp [encode, ih]
        exact this _ _ _
      by_cases hcl : c < f.states.length
      · have hg : f.states.getD c (List.replicate f.coeffs.length 0) = f.states[c] := by
          simp [List.getD, List.getElem?_eq_getElem hcl]
        rw [hg] at hl ⊢
        unfold Iir.ended at he
        rw [List.all_eq_true] at he
        have := he _ (List.getElem_mem hcl)
        rw [List.all_eq_true] at this
        rw [List.eq_replicate_iff]
        exact ⟨hl, fun v hv => by simpa using this v hv⟩
      · simp [List.getD, List.getElem?_eq_none (by omega : f.states.length ≤ c)]
    have hr : ∀ c, c < m → Satisfies b a (xs c ++ List.replicate N 0) (ys c ++ List.replicate N 0) ∧
        List.replicate f.coeffs.length 0 =
          encode f.coeffs (xs c ++ List.replicate N 0).reverse (ys c ++ List.replicate N 0).reverse := by
      intro c hcm
      have := hrun c hcm (List.replicate N 0)
      rw [hst c hcm, hrest N] at this
      exact ⟨this.1, this.2.1⟩
    refine ⟨h.coeffs, fun c hcm => ?_, fun c hcm => ?_, h.shape⟩
    · simp only [hzero hs c, hzeroS]
      exact (hr c hcm).1
    · simp only [hzero hs c, hzeroS]
      rw [← (hr c hcm).2]
      exact hst c hcm
  · rw [if_neg hend]
    simp only
    -- the states that are used
    have hstates : ∃ states, (if isSilent q = true then f.states else f.resize q.length) = states ∧
        states.length = m ∧ ∀ c, c < m → states.getD c [] = f.states.getD c (List.replicate f.coeffs.length 0) := by
      refine ⟨_, rfl, ?_, ?_⟩
      · split
        · rename_i hs
          rcases h.shape with h1 | h1
          · exact h1
          · exfalso
            apply hend
            rw [hs, Bool.true_and]
            unfold Iir.ended
            rw [List.all_eq_true]
            intro st hst
            rw [h1 st hst, List.all_eq_true]
            intro v hv
            simp [List.eq_of_mem_replicate hv]
        · rename_i hs
          have := hm (by simpa using hs)
          unfold Iir.resize
          simp
          omega
      · intro c hcm
        split
        · rename_i hs
          rcases h.shape with h1 | h1
          · simp only [List.getD]
            rw [List.getElem?_eq_getElem (by omega)]
            rfl
          · exfalso
            apply hend
            rw [hs, Bool.true_and]
            unfold Iir.ended
            rw [List.all_eq_true]
            intro st hst
            rw [h1 st hst, List.all_eq_true]
            intro v hv
            simp [List.eq_of_mem_replicate hv]
        · rename_i hs
          have hql := hm (by simpa using hs)
          unfold Iir.resize
          simp only [List.getD]
          by_cases hcl : c < f.states.length
          · rw [List.getElem?_append_left (by simp; omega), List.getElem?_take_of_lt (by omega),
              List.getElem?_eq_getElem hcl]
            rfl
          · rw [List.getElem?_append_right (by simp; omega), List.getElem?_eq_none (by omega : f.states.length ≤ c),
              List.getElem?_replicate_of_lt (by simp; omega)]
            rfl
    obtain ⟨states, hse, hsl, hsg⟩ := hstates
    rw [hse, hsl]
    -- the input of a channel
    have hin : ∀ c, c < m → (if isSilent q = true then q.headD none else q.getD c none).data N =
        (List.range N).map fun i => sample q c i := by
      intro c hcm
      split
      · rename_i hs
        rw [hzero hs c]
        cases q with
        | nil => rfl
        | cons x q =>
          unfold isSilent at hs
          simp only [List.all_cons, Bool.and_eq_true, Option.isNone_iff_eq_none] at hs
          simp [hs.1, Chan.data]
      · rename_i hs
        exact data_eq_sample hq c (by rw [hm (by simpa using hs)]; exact hcm)
    have hfin : ∀ c, c < m →
        let l := (List.range N).map fun i => sample q c i
        ∃ r, ((List.range m).map fun c => iirRun f.coeffs (states.getD c [])
            ((if isSilent q = true then q.headD none else q.getD c none).data N))[c]? = some r ∧
          Satisfies b a (xs c ++ l) (ys c ++ r.2) ∧ r.1 = encode f.coeffs (xs c ++ l).reverse (ys c ++ r.2).reverse ∧
          ((List.range N).map fun i => r.2.getD i 0) = r.2 := by
      intro c hcm l
      refine ⟨_, by rw [List.getElem?_map, List.getElem?_range hcm]; rfl, ?_⟩
      simp only
      rw [hin c hcm, hsg c hcm]
      obtain ⟨h1, h2, h3⟩ := hrun c hcm l
      refine ⟨h1, h2, ?_⟩
      have hext : ∀ o : List K, o.length = N → ((List.range N).map fun i => o.getD i 0) = o := by
        intro o ho
        apply List.ext_getElem
        · simp [ho]
        · intro i h4 h5
          simp only [List.getElem_map, List.getElem_range, List.getD]
          rw [List.getElem?_eq_getElem h5]
          rfl
      exact hext _ (by rw [h3]; simp [l])
    refine ⟨h.coeffs, fun c hcm => ?_, fun c hcm => ?_, Or.inl (by simp)⟩
    · obtain ⟨r, hr, h1, h2, h3⟩ := hfin c hcm
      have hs : ∀ i, sample (List.map (fun r => some r.2) ((List.range m).map fun c => iirRun f.coeffs (states.getD c [])
            ((if isSilent q = true then q.headD none else q.getD c none).data N))) c i = r.2.getD i 0 := by
        intro i
        unfold sample
        rw [List.getElem?_map, hr]
        rfl
      simp only [hs, h3]
      exact h1
    · obtain ⟨r, hr, h1, h2, h3⟩ := hfin c hcm
      have hs : ∀ i, sample (List.map (fun r => some r.2) ((List.range m).map fun c => iirRun f.coeffs (states.getD c [])
            ((if isSilent q = true then q.headD none else q.getD c none).data N))) c i = r.2.getD i 0 := by
        intro i
        unfold sample
        rw [List.getElem?_map, hr]
        rfl
      simp only [hs, h3, ← h2]
      have hg : ∀ (L : List (List K × List K)) (d : List K), L[c]? = some r → (L.map (·.1)).getD c d = r.1 := by
        intro L d hL
        simp only [List.getD, List.getElem?_map, hL]
        rfl
      exact hg _ _ hr

theorem Encodes.run {b a : List K} (ha : a ≠ []) (ha0 : a.getD 0 0 ≠ 0) {m N : Nat} (qs : List (Quantum K)) :
    ∀ {f : Iir K} {xs ys : Nat → List K}, Encodes b a m f xs ys →
    (∀ q ∈ qs, ∀ l, some l ∈ q → l.length = N) → (∀ q ∈ qs, isSilent q = false → q.length = m) →
    Encodes b a m (f.run N qs).1 (fun c => xs c ++ stream N qs c)
      (fun c => ys c ++ stream N ((f.run N qs).2.map (·.1)) c) := by
  induction qs with
  | nil =>
    intro f xs ys h _ _
    simpa [Iir.run, stream] using h
  | cons q qs ih =>
    intro f xs ys h h1 h2
    have hp := h.process ha ha0 q (h1 q (by simp)) (h2 q (by simp))
    have := ih hp (fun x hx => h1 x (by simp [hx])) (fun x hx => h2 x (by simp [hx]))
    simp only [Iir.run, stream, List.map_cons, List.flatten_cons] at this ⊢
    simpa [List.append_assoc] using this

omit [DecidableEq K] in
theorem Encodes.new (b a : List K) (m : Nat) : Encodes b a m (Iir.new b a) (fun _ => []) (fun _ => []) := by
  refine ⟨rfl, fun c _ => ⟨rfl, fun n hn => by simp at hn⟩, fun c _ => ?_, Or.inr ?_⟩
  · rw [List.reverse_nil, encode_nil]
    match c with
    | 0 => rfl
    | 1 => rfl
    | c + 2 => rfl
  · intro st hst
    have : st ∈ [List.replicate (Iir.new b a).coeffs.length (0 : K), List.replicate (Iir.new b a).coeffs.length 0] := hst
    simpa using this

/-- C42: for all coefficients with `a[0] ≠ 0` and all sequences of quanta, silent or not, in which the quanta that are
not silent have `m` channels: the samples of each channel satisfy the difference equation, across the borders of the
quanta. -/
theorem C42_difference_equation {b a : List K} (ha : a ≠ []) (ha0 : a.getD 0 0 ≠ 0) {m N : Nat}
    (qs : List (Quantum K)) (hq : ∀ q ∈ qs, ∀ l, some l ∈ q → l.length = N)
    (hm : ∀ q ∈ qs, isSilent q = false → q.length = m) (c : Nat) (hc : c < m) :
    Satisfies b a (stream N qs c) (stream N (((Iir.new b a).run N qs).2.map (·.1)) c) := by
  have := (Encodes.new b a m).run ha ha0 qs hq hm
  simpa using this.sat c hc

/-- C42: when the filter reports the end of its tail, all output for silent input is silence from then on, and the
filter goes on reporting the end. -/
theorem C42_tail_end {N : Nat} {f : Iir K} {q : Quantum K} (h : (f.process N q).2.2 = false) (qs : List (Quantum K))
    (hs : ∀ x ∈ qs, isSilent x = true) :
    (f.process N q).2.1 = silence ∧ ∀ r ∈ ((f.process N q).1.run N qs).2, r = (silence, false) := by
  have he : (isSilent q && f.ended) = true := by
    by_contra hc
    unfold Iir.process at h
    rw [if_neg hc] at h
    simp at h
  have e1 : f.process N q = (f, silence, false) := by unfold Iir.process; rw [if_pos he]
  simp only [Bool.and_eq_true] at he
  rw [e1]
  refine ⟨rfl, ?_⟩
  simp only
  induction qs with
  | nil => simp [Iir.run]
  | cons x qs ih =>
    have hx : f.process N x = (f, silence, false) := by
      unfold Iir.process; rw [if_pos (by rw [hs x (by simp), he.2]; rfl)]
    simp only [Iir.run, hx, List.mem_cons, forall_eq_or_imp, true_and]
    exact ih fun y hy => hs y (by simp [hy])

/-- C42: while it does not report the end it returns `true`, so that the graph keeps it. -/
theorem C42_tail_kept {N : Nat} {f : Iir K} {q : Quantum K} (h : (f.process N q).2.2 = false) :
    isSilent q = true ∧ f.states.all (fun st => st.all fun v => decide (v = 0)) = true := by
  by_contra hc
  unfold Iir.process at h
  rw [if_neg] at h
  · simp at h
  · simpa [Iir.ended] using hc

end

/-! ### examples -/

/-- A one pole filter with `a[0] = 2`, two quanta of two frames: the second is silent, the output is its tail. -/
example : ((Iir.new [2] [2, -1] : Iir ℚ).run 2 [[some [4, 0]], [none]]).2 =
    [([some [4, 2]], true), ([some [1, 1 / 2]], true)] := by decide +kernel

example : Satisfies [2] [2, -1] (stream 2 [[some [4, 0]], [none]] 0)
    (stream 2 (((Iir.new [2] [2, -1] : Iir ℚ).run 2 [[some [4, 0]], [none]]).2.map (·.1)) 0) :=
  C42_difference_equation (m := 1) (by simp) (by norm_num) _ (by simp) (by decide) 0 (by omega)

/-- A filter without feedback ends. -/
example : ((Iir.new [1, 1] [1] : Iir ℚ).run 2 [[some [4, 3]], [none], [none]]).2 =
    [([some [4, 7]], true), ([some [3, 0]], true), ([none], false)] := by decide +kernel

/-- C42 is false when the number of channels changes: with a mono quantum between two stereo quanta the state of the
second channel is lost. The second channel of the input is 4, 0, then nothing, then 0, 0: the output of the equation
would be 4, 2, 1, 1/2, … -/
theorem C42_negated_channels :
    ((Iir.new [2] [2, -1] : Iir ℚ).run 2 [[some [0, 0], some [4, 0]], [some [1, 0]], [some [0, 0], some [0, 0]]]).2.map
      (fun r => sample r.1 1 0) = [4, 0, 0] ∧
    ¬ Satisfies [2] [2, -1] (stream 2 [[some [0, 0], some [4, 0]], [some [1, 0]], [some [0, 0], some [0, 0]]] 1)
      (stream 2 (((Iir.new [2] [2, -1] : Iir ℚ).run 2
        [[some [0, 0], some [4, 0]], [some [1, 0]], [some [0, 0], some [0, 0]]]).2.map (·.1)) 1) := by
  refine ⟨by decide +kernel, fun h => ?_⟩
  have := h.2 2 (by decide +kernel)
  revert this
  decide +kernel

end Verif.Filter
