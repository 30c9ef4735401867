import Verif.Engine.Frames
import Mathlib.Tactic.Ring

/-!
# The nodes of the engine are linear

Sample by sample, for signals of a fixed number of channels which may also be silent: gain (`/repo/src/node/gain.rs`),
IIR filter (`/repo/src/node/iir_filter.rs`), splitter, merger, and the summing of connections.
-/

namespace Verif.Engine

open Verif.Render

section
variable {K : Type} [Field K] [LinearOrder K] [IsStrictOrderedRing K]

/-- `z` is the sum of `x` and `y`, sample by sample -/
def Adds (N : Nat) (x y z : Sig K) : Prop :=
  ∀ k f, f < N → Node.sample z k f = Node.sample x k f + Node.sample y k f

/-- `n` channels, or silence -/
def Shape (n : Nat) (q : Sig K) : Prop := q.length = n ∨ Node.isSilent q = true

/-- three signals of `n` channels or silence, the third the sum of the others -/
structure Sum3 (N n : Nat) (x y z : Sig K) : Prop where
  fx : Full N x
  fy : Full N y
  fz : Full N z
  sx : Shape n x
  sy : Shape n y
  sz : Shape n z
  adds : Adds N x y z

omit [LinearOrder K] [IsStrictOrderedRing K] in
theorem silence_full (N : Nat) : Full N (Node.silence : Sig K) :=
  ⟨by simp [Node.silence], by simp [Node.silence]⟩

omit [LinearOrder K] [IsStrictOrderedRing K] in
theorem silence_shape (n : Nat) : Shape n (Node.silence : Sig K) := .inr rfl

omit [LinearOrder K] [IsStrictOrderedRing K] in
theorem silence_sum3 (N n : Nat) : Sum3 N n (Node.silence : Sig K) Node.silence Node.silence := by
  refine ⟨silence_full N, silence_full N, silence_full N, silence_shape n, silence_shape n, silence_shape n, ?_⟩
  intro k f _
  rw [Node.sample_silence, add_zero]

/-! ## Summing -/

/-- the samples at a frame, as `n` channels -/
def norm (n : Nat) (q : Sig K) (f : Nat) : List K := (List.range n).map fun k => Node.sample q k f

omit [LinearOrder K] [IsStrictOrderedRing K] in
theorem fr_norm (q : Sig K) (f : Nat) : fr q f = norm q.length q f := by
  refine List.ext_getElem? fun k => ?_
  unfold norm
  rw [List.getElem?_map]
  by_cases hk : k < q.length
  · rw [List.getElem?_range hk, Option.map_some, sample_fr, List.getD,
      List.getElem?_eq_getElem (by rw [fr_length]; exact hk)]
    rfl
  · rw [List.getElem?_eq_none (by rw [fr_length]; omega), List.getElem?_eq_none (by rw [List.length_range]; omega)]
    rfl

omit [LinearOrder K] [IsStrictOrderedRing K] in
theorem mixF_norm (r : K) (i : Mix.Interp) (m : Nat) {n : Nat} {q : Sig K} (h : Shape n q) (f : Nat) :
    Mix.mixF r i m (fr q f) = Mix.mixF r i m (norm n q f) := by
  rcases h with h | h
  · rw [fr_norm, h]
  · have hz : ∀ n, norm n q f = List.replicate n 0 := by
      intro n
      unfold norm
      rw [List.eq_replicate_iff]
      refine ⟨by simp, fun x hx => ?_⟩
      obtain ⟨k, _, rfl⟩ := List.mem_map.1 hx
      exact Node.sample_of_isSilent h k f
    rw [fr_norm, hz, hz, Mix.mixF_zeros, Mix.mixF_zeros]

omit [LinearOrder K] [IsStrictOrderedRing K] in
/-- Mixing is linear. -/
theorem mix_adds (r : K) (i : Mix.Interp) (m : Nat) {N n : Nat} {x y z : Sig K} (h : Sum3 N n x y z) {f : Nat}
    (hf : f < N) :
    Mix.mixF r i m (fr z f) = List.zipWith (· + ·) (Mix.mixF r i m (fr x f)) (Mix.mixF r i m (fr y f)) := by
  rw [mixF_norm r i m h.sx, mixF_norm r i m h.sy, mixF_norm r i m h.sz, ← Mix.mixF_add _ _ _ _ _ (by simp [norm])]
  congr 1
  unfold norm
  refine List.ext_getElem? fun k => ?_
  rw [List.getElem?_zipWith, List.getElem?_map, List.getElem?_map, List.getElem?_map]
  by_cases hk : k < n
  · rw [List.getElem?_range hk]
    simp only [Option.map_some, h.adds k f hf]
  · rw [List.getElem?_eq_none (by simpa using hk)]
    rfl

omit [LinearOrder K] [IsStrictOrderedRing K] in
/-- The sum of connections in mode `explicit` is linear. -/
theorem addSig_sum3 (N : Nat) (r : K) (c : Cfg) (hm : 2 ≤ c.mode) (h0 : 0 < c.count) {n : Nat} {x y z x' y' z' : Sig K}
    (h : Sum3 N c.count x y z) (h' : Sum3 N n x' y' z') :
    Sum3 N c.count (addSig N r c x x') (addSig N r c y y') (addSig N r c z z') := by
  have hcount : ∀ a b : Sig K, sumCount c a b = c.count := by
    intro a b
    unfold sumCount
    have : modeOf c.mode = .explicit := by
      unfold modeOf
      split
      · omega
      · omega
      · rfl
    rw [this]
    rfl
  have hfull : ∀ a b : Sig K, Full N a → Full N b → Full N (addSig N r c a b) := fun a b ha hb =>
    addSig_full N r c ha.1 hb.1 (by rw [hcount]; exact h0)
  have hshape : ∀ a b : Sig K, Full N a → Full N b → Shape c.count (addSig N r c a b) := fun a b ha hb =>
    .inl (by rw [addSig_length N r c ha.1 hb.1, hcount])
  refine ⟨hfull _ _ h.fx h'.fx, hfull _ _ h.fy h'.fy, hfull _ _ h.fz h'.fz, hshape _ _ h.fx h'.fx,
    hshape _ _ h.fy h'.fy, hshape _ _ h.fz h'.fz, ?_⟩
  intro k f hf
  have hs : ∀ a b : Sig K, Full N a → Full N b → Node.sample (addSig N r c a b) k f =
      (Mix.mixF r (interpOf c.interp) c.count (fr a f)).getD k 0 +
        (Mix.mixF r (interpOf c.interp) c.count (fr b f)).getD k 0 := by
    intro a b ha hb
    rw [sample_fr, addSig_fr N r c ha.1 hb.1 hf, hcount,
      Mix.getD_zipWith_add _ _ (by rw [Mix.mixF_length, Mix.mixF_length])]
  rw [hs _ _ h.fx h'.fx, hs _ _ h.fy h'.fy, hs _ _ h.fz h'.fz, mix_adds _ _ _ h hf, mix_adds _ _ _ h' hf,
    Mix.getD_zipWith_add _ _ (by rw [Mix.mixF_length, Mix.mixF_length]),
    Mix.getD_zipWith_add _ _ (by rw [Mix.mixF_length, Mix.mixF_length])]
  ring

/-! ## Gain -/

theorem gain_factor (thr : K) (N : Nat) (gain : List K) : ∃ G : Nat → K, ∀ (q : Sig K) (k f : Nat), f < N →
    Node.sample (Node.gainProcess thr N gain q) k f = Node.sample q k f * G f := by
  have hfull : ∃ G : Nat → K, ∀ (q : Sig K) (k f : Nat), f < N →
      Node.sample (Node.gainFull N gain q) k f = Node.sample q k f * G f :=
    ⟨fun f => gain.getD (f % gain.length) 0, fun q k f hf => Node.scale_sample hf k⟩
  obtain ⟨G, hG⟩ := hfull
  by_cases hg : ∃ g, gain = [g]
  · obtain ⟨g, rfl⟩ := hg
    refine ⟨fun f => if |g| ≤ thr then 0 else if |1 - g| ≤ thr then 1 else G f, fun q k f hf => ?_⟩
    unfold Node.gainProcess
    by_cases hs : Node.isSilent q = true
    · rw [if_pos hs, Node.sample_silence, Node.sample_of_isSilent hs, zero_mul]
    · rw [if_neg hs]
      simp only
      split
      · rw [Node.sample_silence, mul_zero]
      · split
        · rw [mul_one]
        · exact hG q k f hf
  · refine ⟨G, fun q k f hf => ?_⟩
    unfold Node.gainProcess
    by_cases hs : Node.isSilent q = true
    · rw [if_pos hs, Node.sample_silence, Node.sample_of_isSilent hs, zero_mul]
    · rw [if_neg hs]
      split
      · exact absurd ⟨_, rfl⟩ hg
      · exact hG q k f hf

theorem gain_full_shape (thr : K) {N n : Nat} (gain : List K) {q : Sig K} (hf : Full N q) (hs : Shape n q) :
    Full N (Node.gainProcess thr N gain q) ∧ Shape n (Node.gainProcess thr N gain q) := by
  have hfull : Full N (Node.gainFull N gain q) ∧ ((Node.gainFull N gain q).length = q.length) := by
    refine ⟨⟨fun h => hf.1 (List.map_eq_nil_iff.1 h), fun l hl => ?_⟩, List.length_map _⟩
    obtain ⟨c, _, hc⟩ := List.mem_map.1 hl
    unfold Node.scale at hc
    cases hc
    simp
  unfold Node.gainProcess
  by_cases h : Node.isSilent q = true
  · rw [if_pos h]
    exact ⟨silence_full N, silence_shape n⟩
  · rw [if_neg h]
    have hn : q.length = n := by
      rcases hs with hs | hs
      · exact hs
      · exact absurd hs h
    split
    · split
      · exact ⟨silence_full N, silence_shape n⟩
      · split
        · exact ⟨hf, hs⟩
        · exact ⟨hfull.1, .inl (hfull.2.trans hn)⟩
    · exact ⟨hfull.1, .inl (hfull.2.trans hn)⟩

/-- A gain node is linear. -/
theorem gain_sum3 (thr : K) {N n : Nat} (gain : List K) {x y z : Sig K} (h : Sum3 N n x y z) :
    Sum3 N n (Node.gainProcess thr N gain x) (Node.gainProcess thr N gain y) (Node.gainProcess thr N gain z) := by
  obtain ⟨G, hG⟩ := gain_factor thr N gain
  have ax := gain_full_shape thr gain h.fx h.sx
  have ay := gain_full_shape thr gain h.fy h.sy
  have az := gain_full_shape thr gain h.fz h.sz
  refine ⟨ax.1, ay.1, az.1, ax.2, ay.2, az.2, fun k f hf => ?_⟩
  rw [hG _ _ _ hf, hG _ _ _ hf, hG _ _ _ hf, h.adds k f hf, add_mul]

/-! ## Splitter and merger -/

omit [LinearOrder K] [IsStrictOrderedRing K] in
theorem splitOne_eq (q : Sig K) (i : Nat) (out : Sig K) : Node.splitOne q i out = [q.getD i none] := by
  unfold Node.splitOne
  rw [List.getD]
  cases q[i]? with
  | none => rfl
  | some c =>
    simp only [Option.getD_some]
    have hl := Node.setChannels_length (q := out) (n := 1)
    generalize Node.setChannels out 1 = s at hl
    match s, hl with
    | [_], _ => rfl

omit [LinearOrder K] [IsStrictOrderedRing K] in
theorem sample_getD (q : Sig K) (k f : Nat) : Node.sample q k f = at' (q.getD k none) f := by
  unfold Node.sample
  rw [List.getD]
  cases q[k]? with
  | none => rfl
  | some c => cases c <;> rfl

omit [LinearOrder K] [IsStrictOrderedRing K] in
theorem full_getD {N : Nat} {q : Sig K} (h : Full N q) (k : Nat) {l : List K} (hl : q.getD k none = some l) :
    l.length = N := by
  rw [List.getD] at hl
  cases hq : q[k]? with
  | none => rw [hq] at hl; cases hl
  | some c =>
    rw [hq] at hl
    simp only [Option.getD_some] at hl
    subst hl
    exact h.2 l (List.mem_of_getElem? hq)

omit [LinearOrder K] [IsStrictOrderedRing K] in
/-- A splitter is linear. -/
theorem split_sum3 {N n : Nat} {x y z : Sig K} (h : Sum3 N n x y z) (i : Nat) (ox oy oz : Sig K) :
    Sum3 N 1 (Node.splitOne x i ox) (Node.splitOne y i oy) (Node.splitOne z i oz) := by
  have hfull : ∀ {q : Sig K}, Full N q → Full N [q.getD i none] := fun {q} hq =>
    ⟨by simp, fun l hl => full_getD hq i (by simpa using (List.mem_singleton.1 hl).symm)⟩
  rw [splitOne_eq, splitOne_eq, splitOne_eq]
  refine ⟨hfull h.fx, hfull h.fy, hfull h.fz, .inl rfl, .inl rfl, .inl rfl, fun k f hf => ?_⟩
  cases k with
  | zero =>
    have := h.adds i f hf
    simp only [sample_getD] at this ⊢
    exact this
  | succ k => simp [Node.sample]

omit [LinearOrder K] [IsStrictOrderedRing K] in
/-- What a merger does. -/
theorem merger_spec {N : Nat} (ins : List (Sig K)) (out : Sig K) (hi : ∀ q ∈ ins, Full N q) :
    ∃ r, Node.merger ins out = some r ∧ Full N r ∧ Shape ins.length r ∧
      ∀ k f, Node.sample r k f = Node.sample (ins.getD k []) 0 f := by
  have hget : ∀ (k : Nat), ins.getD k [] = [] ∨ ins.getD k [] ∈ ins := by
    intro k
    rw [List.getD]
    cases hk : ins[k]? with
    | none => exact .inl rfl
    | some q => exact .inr (List.mem_of_getElem? hk)
  unfold Node.merger
  by_cases ha : (ins.any fun q => !Node.isSilent q) = true
  · rw [if_pos ha]
    obtain ⟨r, hr, hl, hj⟩ := Node.mergeLoop_spec ins 0 (Node.setChannels out ins.length)
      (by rw [Node.setChannels_length, Nat.zero_add]) (fun q hq => (hi q hq).1)
    rw [Node.setChannels_length] at hl
    have hpos : 0 < ins.length := by
      cases ins with
      | nil => simp at ha
      | cons q qs => simp
    have hget2 : ∀ k, r.getD k none = (ins.getD k []).getD 0 none := by
      intro k
      rw [List.getD, hj]
      by_cases hk : k < ins.length
      · rw [if_pos ⟨Nat.zero_le _, by omega⟩, Nat.sub_zero, Option.getD_some]
        cases ins.getD k [] <;> rfl
      · rw [if_neg (by omega), List.getElem?_eq_none (by rw [Node.setChannels_length]; omega)]
        rw [show ins.getD k [] = [] by rw [List.getD, List.getElem?_eq_none (by omega)]; rfl]
        rfl
    refine ⟨r, hr, ⟨fun h => ?_, fun l hl' => ?_⟩, .inl hl, fun k f => ?_⟩
    · rw [h] at hl
      simp at hl
      omega
    · obtain ⟨k, hk⟩ := List.mem_iff_getElem?.1 hl'
      have hk2 := hget2 k
      rw [List.getD, hk, Option.getD_some] at hk2
      rcases hget k with h | h
      · rw [h] at hk2; cases hk2
      · exact full_getD (hi _ h) 0 hk2.symm
    · rw [sample_getD, sample_getD, hget2]
  · rw [if_neg ha]
    refine ⟨_, rfl, silence_full N, silence_shape _, fun k f => ?_⟩
    rw [Node.sample_silence]
    simp only [List.any_eq_true, not_exists, not_and, Bool.not_eq_true, Bool.not_eq_false'] at ha
    rcases hget k with h | h
    · rw [h]; rfl
    · rw [Node.sample_of_isSilent (ha _ h)]

/-! ## IIR filter -/

/-- sum of two lists -/
def plus (a b : List K) : List K := List.zipWith (· + ·) a b

theorem shift_plus (x x' y y' : K) (cs : List (K × K)) : ∀ st st' : List K, st.length = st'.length →
    Filter.shift (x + x') (y + y') cs (plus st st') = plus (Filter.shift x y cs st) (Filter.shift x' y' cs st') := by
  induction cs with
  | nil => intro st st' _; cases st <;> cases st' <;> simp [Filter.shift]
  | cons p cs ih =>
    intro st st' h
    match st, st', h with
    | [], [], _ => rfl
    | [_], [_], _ => rfl
    | a :: b :: st, a' :: b' :: st', h =>
      have := ih (b :: st) (b' :: st') (by simpa using h)
      simp only [plus, List.zipWith_cons_cons, Filter.shift, List.cons.injEq] at this ⊢
      exact ⟨by ring, this⟩

omit [LinearOrder K] [IsStrictOrderedRing K] in
theorem shift_length (x y : K) (cs : List (K × K)) : ∀ st : List K, (Filter.shift x y cs st).length = st.length := by
  induction cs with
  | nil => intro st; cases st <;> simp [Filter.shift]
  | cons p cs ih =>
    intro st
    match st with
    | [] => rfl
    | [_] => rfl
    | a :: b :: st => simp only [Filter.shift, List.length_cons, ih]

omit [LinearOrder K] [IsStrictOrderedRing K] in
theorem iirRun_length (cs : List (K × K)) (xs : List K) : ∀ st : List K,
    (Filter.iirRun cs st xs).1.length = st.length ∧ (Filter.iirRun cs st xs).2.length = xs.length := by
  induction xs with
  | nil => intro st; exact ⟨rfl, rfl⟩
  | cons x xs ih =>
    intro st
    simp only [Filter.iirRun, List.length_cons]
    refine ⟨?_, by rw [(ih _).2]⟩
    rw [(ih _).1]
    exact shift_length _ _ _ _

theorem iirRun_plus (cs : List (K × K)) (xs : List K) : ∀ (xs' st st' : List K), xs.length = xs'.length →
    st.length = st'.length → Filter.iirRun cs (plus st st') (plus xs xs') =
      (plus (Filter.iirRun cs st xs).1 (Filter.iirRun cs st' xs').1,
        plus (Filter.iirRun cs st xs).2 (Filter.iirRun cs st' xs').2) := by
  induction xs with
  | nil =>
    intro xs' st st' h _
    have : xs' = [] := List.length_eq_zero_iff.1 h.symm
    subst this
    rfl
  | cons x xs ih =>
    intro xs' st st' h hst
    match xs', h with
    | x' :: xs', h =>
      have hy : (Filter.iirStep cs (plus st st') (x + x')).2 =
          (Filter.iirStep cs st x).2 + (Filter.iirStep cs st' x').2 := by
        simp only [Filter.iirStep]
        have : (plus st st').headD 0 = st.headD 0 + st'.headD 0 := by
          match st, st', hst with
          | [], [], _ => simp [plus]
          | a :: _, b :: _, _ => rfl
        rw [this]
        ring
      have hs : (Filter.iirStep cs (plus st st') (x + x')).1 =
          plus (Filter.iirStep cs st x).1 (Filter.iirStep cs st' x').1 := by
        have hy' := hy
        simp only [Filter.iirStep] at hy' ⊢
        rw [hy']
        exact shift_plus _ _ _ _ _ _ _ hst
      have := ih xs' (Filter.iirStep cs st x).1 (Filter.iirStep cs st' x').1 (by simpa using h)
        (by simp only [Filter.iirStep, shift_length]; exact hst)
      rw [show plus (x :: xs) (x' :: xs') = (x + x') :: plus xs xs' from rfl]
      simp only [Filter.iirRun]
      rw [hs, hy, this]
      rfl

/-- nothing -/
def zeros (n : Nat) : List K := List.replicate n 0

theorem iirRun_zeros (cs : List (K × K)) (L : Nat) : ∀ N, Filter.iirRun cs (zeros L) (zeros N) = (zeros L, zeros N) := by
  have hsh : ∀ (cs : List (K × K)) (L : Nat), Filter.shift 0 0 cs (zeros L) = zeros L := by
    intro cs
    induction cs with
    | nil => intro L; cases L <;> simp [Filter.shift, zeros, List.replicate_succ]
    | cons p cs ih =>
      intro L
      match L with
      | 0 => rfl
      | 1 => rfl
      | L + 2 =>
        have := ih (L + 1)
        simp only [zeros, List.replicate_succ, Filter.shift, List.cons.injEq] at this ⊢
        exact ⟨by ring, this⟩
  intro N
  induction N with
  | zero => rfl
  | succ N ih =>
    have hy : (Filter.iirStep cs (zeros L) 0).2 = 0 := by
      simp only [Filter.iirStep, mul_zero, zero_add]
      cases L <;> rfl
    have hs : (Filter.iirStep cs (zeros L) 0).1 = zeros L := by
      have hy' := hy
      simp only [Filter.iirStep] at hy' ⊢
      rw [hy']
      exact hsh _ _
    rw [show (zeros (N + 1) : List K) = 0 :: zeros N from List.replicate_succ]
    simp only [Filter.iirRun, hs, hy, ih]

/-- the state of a channel -/
def stAt (f : Filter.Iir K) (k : Nat) : List K := f.states.getD k (zeros f.coeffs.length)

/-- the samples of a channel -/
def inAt (N : Nat) (q : Sig K) (k : Nat) : List K := (q.getD k none).data N

/-- a filter with `n` channels, or without memory -/
structure IirOk (n : Nat) (f : Filter.Iir K) : Prop where
  len : ∀ st ∈ f.states, st.length = f.coeffs.length
  shape : f.states.length = n ∨ f.ended = true

omit [LinearOrder K] [IsStrictOrderedRing K] in
theorem stAt_length {n : Nat} {f : Filter.Iir K} (h : ∀ st ∈ f.states, st.length = f.coeffs.length) (k : Nat) :
    (stAt f k).length = f.coeffs.length := by
  unfold stAt
  rw [List.getD]
  cases hk : f.states[k]? with
  | none => simp [zeros]
  | some st => exact h st (List.mem_of_getElem? hk)

theorem stAt_ended {f : Filter.Iir K} (h : ∀ st ∈ f.states, st.length = f.coeffs.length) (he : f.ended = true) (k : Nat) :
    stAt f k = zeros f.coeffs.length := by
  unfold stAt
  rw [List.getD]
  cases hk : f.states[k]? with
  | none => rfl
  | some st =>
    have hm := List.mem_of_getElem? hk
    simp only [Option.getD_some]
    unfold Filter.Iir.ended at he
    rw [List.all_eq_true] at he
    have := he st hm
    rw [List.all_eq_true] at this
    unfold zeros
    rw [List.eq_replicate_iff]
    exact ⟨h st hm, fun b hb => by simpa using this b hb⟩

omit [LinearOrder K] [IsStrictOrderedRing K] in
theorem inAt_silent {q : Sig K} (h : Node.isSilent q = true) (N k : Nat) : inAt N q k = zeros N := by
  unfold inAt
  have : q.getD k none = none := by
    rw [List.getD]
    cases hk : q[k]? with
    | none => rfl
    | some c =>
      unfold Node.isSilent at h
      rw [List.all_eq_true] at h
      have := h c (List.mem_of_getElem? hk)
      simpa using this
  rw [this]
  rfl

omit [LinearOrder K] [IsStrictOrderedRing K] in
theorem inAt_length {N : Nat} {q : Sig K} (h : Full N q) (k : Nat) : (inAt N q k).length = N := by
  unfold inAt
  cases hc : q.getD k none with
  | none => simp [Node.Chan.data]
  | some l => exact full_getD h k hc

omit [LinearOrder K] [IsStrictOrderedRing K] in
theorem inAt_getD (N : Nat) (q : Sig K) (k f : Nat) : (inAt N q k).getD f 0 = Node.sample q k f := by
  unfold inAt
  rw [Node.data_getD, sample_getD]
  cases q.getD k none <;> rfl

/-- What the filter does: each of the `n` channels runs on its own. -/
theorem iir_spec {N n : Nat} (hn : 0 < n) {f : Filter.Iir K} (hf : IirOk n f) {q : Sig K} (hq : Full N q)
    (hs : Shape n q) :
    (f.process N q).1.coeffs = f.coeffs ∧ IirOk n (f.process N q).1 ∧ Full N (f.process N q).2.1 ∧
      Shape n (f.process N q).2.1 ∧
      (∀ k, stAt (f.process N q).1 k =
        if k < n then (Filter.iirRun f.coeffs (stAt f k) (inAt N q k)).1 else zeros f.coeffs.length) ∧
      ∀ k i, Node.sample (f.process N q).2.1 k i =
        if k < n then (Filter.iirRun f.coeffs (stAt f k) (inAt N q k)).2.getD i 0 else 0 := by
  have hz : ∀ (m i : Nat), (zeros m : List K).getD i 0 = 0 := by
    intro m i
    unfold zeros
    rw [List.getD]
    by_cases h : i < m
    · rw [List.getElem?_replicate_of_lt h]; rfl
    · rw [List.getElem?_eq_none (by simpa using h)]; rfl
  unfold Filter.Iir.process
  by_cases h1 : (Node.isSilent q && f.ended) = true
  · rw [if_pos h1]
    simp only [Bool.and_eq_true] at h1
    have e1 := fun k => stAt_ended hf.len h1.2 k
    have e2 := fun k => inAt_silent h1.1 N k
    refine ⟨rfl, hf, silence_full N, silence_shape n, fun k => ?_, fun k i => ?_⟩
    · simp only [e1, e2, iirRun_zeros, ite_self]
    · simp only [e1, e2, iirRun_zeros, hz, ite_self, Node.sample_silence]
  · rw [if_neg h1]
    simp only
    generalize hst : (if Node.isSilent q = true then f.states else f.resize q.length) = sts
    have hlen : sts.length = n := by
      rw [← hst]
      split
      · rename_i h2
        rcases hf.shape with h3 | h3
        · exact h3
        · exact absurd (by simp [h2, h3]) h1
      · rename_i h2
        rcases hs with h3 | h3
        · rw [← h3]
          simp [Filter.Iir.resize]
          omega
        · exact absurd h3 h2
    have hget : ∀ k, k < n → sts.getD k [] = stAt f k := by
      intro k hk
      have hk' : k < sts.length := by rw [hlen]; exact hk
      rw [← hst] at hk' ⊢
      unfold stAt
      split
      · rename_i h2
        rw [if_pos h2] at hk'
        rw [List.getD, List.getD, List.getElem?_eq_getElem hk']
        rfl
      · rename_i h2
        rw [if_neg h2] at hk'
        have hn' : q.length = n := by
          rcases hs with h3 | h3
          · exact h3
          · exact absurd h3 h2
        unfold Filter.Iir.resize
        rw [hn', List.getD, List.getD]
        by_cases h4 : k < f.states.length
        · rw [List.getElem?_append_left (by simp; omega), List.getElem?_take, if_pos hk,
            List.getElem?_eq_getElem h4]
          rfl
        · rw [List.getElem?_append_right (by simp; omega), List.getElem?_eq_none (l := f.states) (by omega),
            List.getElem?_replicate_of_lt (by simp; omega)]
          rfl
    have hin : ∀ k, Node.Chan.data N (if Node.isSilent q = true then q.headD none else q.getD k none) = inAt N q k := by
      intro k
      split
      · rename_i h2
        rw [inAt_silent h2]
        have : q.headD none = none := by
          cases q with
          | nil => rfl
          | cons c q =>
            unfold Node.isSilent at h2
            simp only [List.all_cons, Bool.and_eq_true] at h2
            simpa using h2.1
        rw [this]
        rfl
      · rfl
    rw [hlen]
    have hrun : ((List.range n).map fun c => Filter.iirRun f.coeffs (sts.getD c [])
          (Node.Chan.data N (if Node.isSilent q = true then q.headD none else q.getD c none))) =
        (List.range n).map fun c => Filter.iirRun f.coeffs (stAt f c) (inAt N q c) := by
      refine List.map_congr_left fun c hc => ?_
      rw [hget c (List.mem_range.1 hc), hin]
    rw [hrun, List.map_map, List.map_map]
    refine ⟨trivial, ⟨fun st hst' => ?_, .inl (by simp)⟩, ⟨fun h => ?_, fun l hl => ?_⟩, .inl (by simp), fun k => ?_,
      fun k i => ?_⟩
    · obtain ⟨c, _, rfl⟩ := List.mem_map.1 hst'
      simp only [Function.comp_apply]
      rw [(iirRun_length _ _ _).1, stAt_length (n := n) hf.len]
    · have := List.map_eq_nil_iff.1 h
      rw [List.range_eq_nil] at this
      omega
    · obtain ⟨c, _, hc⟩ := List.mem_map.1 hl
      simp only [Function.comp_apply, Option.some.injEq] at hc
      rw [← hc, (iirRun_length _ _ _).2, inAt_length hq]
    · unfold stAt
      simp only
      rw [List.getD, List.getElem?_map]
      by_cases hk : k < n
      · rw [List.getElem?_range hk, if_pos hk]
        rfl
      · rw [List.getElem?_eq_none (by simpa using hk), if_neg hk]
        rfl
    · rw [sample_getD, List.getD, List.getElem?_map]
      by_cases hk : k < n
      · rw [List.getElem?_range hk, if_pos hk]
        rfl
      · rw [List.getElem?_eq_none (by simpa using hk), if_neg hk]
        rfl

/-- three filters, the memory of the third is the sum of the others -/
structure Iir3 (n : Nat) (f g h : Filter.Iir K) : Prop where
  cg : g.coeffs = f.coeffs
  ch : h.coeffs = f.coeffs
  okf : IirOk n f
  okg : IirOk n g
  okh : IirOk n h
  adds : ∀ k, stAt h k = plus (stAt f k) (stAt g k)

/-- An IIR filter is linear. -/
theorem iir_sum3 {N n : Nat} (hn : 0 < n) {f g h : Filter.Iir K} (h3 : Iir3 n f g h) {x y z : Sig K}
    (hs : Sum3 N n x y z) :
    Iir3 n (f.process N x).1 (g.process N y).1 (h.process N z).1 ∧
      Sum3 N n (f.process N x).2.1 (g.process N y).2.1 (h.process N z).2.1 := by
  obtain ⟨a1, a2, a3, a4, a5, a6⟩ := iir_spec hn h3.okf hs.fx hs.sx
  obtain ⟨b1, b2, b3, b4, b5, b6⟩ := iir_spec hn h3.okg hs.fy hs.sy
  obtain ⟨c1, c2, c3, c4, c5, c6⟩ := iir_spec hn h3.okh hs.fz hs.sz
  have hin : ∀ k, inAt N z k = plus (inAt N x k) (inAt N y k) := by
    intro k
    refine List.ext_getElem ?_ fun i h1 h2 => ?_
    · simp [plus, inAt_length hs.fx, inAt_length hs.fy, inAt_length hs.fz]
    · have hi : i < N := by rw [inAt_length hs.fz] at h1; exact h1
      have e := hs.adds k i hi
      rw [← inAt_getD N, ← inAt_getD N, ← inAt_getD N] at e
      simp only [List.getD] at e
      rw [List.getElem?_eq_getElem h1, List.getElem?_eq_getElem (by rw [inAt_length hs.fx]; exact hi),
        List.getElem?_eq_getElem (by rw [inAt_length hs.fy]; exact hi)] at e
      simp only [Option.getD_some] at e
      simp only [plus, List.getElem_zipWith]
      exact e
  have hrun : ∀ k, Filter.iirRun f.coeffs (stAt h k) (inAt N z k) =
      (plus (Filter.iirRun f.coeffs (stAt f k) (inAt N x k)).1 (Filter.iirRun f.coeffs (stAt g k) (inAt N y k)).1,
        plus (Filter.iirRun f.coeffs (stAt f k) (inAt N x k)).2 (Filter.iirRun f.coeffs (stAt g k) (inAt N y k)).2) := by
    intro k
    rw [hin, h3.adds]
    refine iirRun_plus _ _ _ _ _ ?_ ?_
    · rw [inAt_length hs.fx, inAt_length hs.fy]
    · rw [stAt_length (n := n) h3.okf.len, stAt_length (n := n) h3.okg.len, h3.cg]
  refine ⟨⟨by rw [b1, a1, h3.cg], by rw [c1, a1, h3.ch], a2, b2, c2, fun k => ?_⟩, ⟨a3, b3, c3, a4, b4, c4, ?_⟩⟩
  · rw [a5, b5, c5, h3.cg, h3.ch, hrun]
    split
    · rfl
    · simp [plus, zeros]
  · intro k i hi
    rw [a6, b6, c6, h3.cg, h3.ch, hrun]
    split
    · simp only [plus]
      refine Mix.getD_zipWith_add _ _ ?_ i
      rw [(iirRun_length _ _ _).2, (iirRun_length _ _ _).2, inAt_length hs.fx, inAt_length hs.fy]
    · rw [add_zero]

end

end Verif.Engine
