import Verif.Mix.Model
import Mathlib.Tactic.Ring
import Mathlib.Tactic.Linarith
import Mathlib.Algebra.BigOperators.Group.List.Basic
import Mathlib.Data.List.GetD
import Mathlib.Data.List.Induction

/-! # Helper lemmas for mixing and summing -/

namespace Verif.Mix

variable {K : Type} [Field K]

/-- one sample of every channel -/
def frame (cs : List (Chan K)) (i : Nat) : List K := cs.map fun c => c.data i

def dot (row xs : List K) : K := (List.zipWith (· * ·) row xs).sum

/-- mixing rules for frames as implemented -/
def codeMatrix (r : K) : Nat → Nat → Option (List (List K))
  | 1, 2 => some [[1], [1]]
  | 1, 4 => some [[1], [1], [0], [0]]
  | 1, 6 => some [[0], [0], [1], [0], [0], [0]]
  | 2, 4 => some [[1, 0], [0, 1], [0, 0], [0, 0]]
  | 2, 6 => some [[1, 0], [0, 1], [0, 0], [0, 0], [0, 0], [0, 0]]
  | 4, 5 => some [[1, 0, 0, 0], [0, 1, 0, 0], [0, 0, 0, 0], [0, 0, 1, 0], [0, 0, 0, 1]]
  | 4, 6 => some [[1, 0, 0, 0], [0, 1, 0, 0], [0, 0, 0, 0], [0, 0, 0, 0], [0, 0, 1, 0], [0, 0, 0, 1]]
  | 2, 1 => some [[1 / 2, 1 / 2]]
  | 4, 1 => some [[1 / 4, 1 / 4, 1 / 4, 1 / 4]]
  | 6, 1 => some [[r, r, 1, 0, 1 / 2, 1 / 2]]
  | 4, 2 => some [[1 / 2, 0, 1 / 2, 0], [0, 1 / 2, 0, 1 / 2]]
  | 6, 2 => some [[1, 0, r, 0, r, 0], [0, 1, r, 0, 0, r]]
  | 6, 4 => some [[1, 0, r, 0, 0, 0], [0, 1, r, 0, 0, 0], [0, 0, 0, 0, 1, 0], [0, 0, 0, 0, 0, 1]]
  | _, _ => none

def mixF (r : K) (interp : Interp) (m : Nat) (xs : List K) : List K :=
  match (if interp = .speakers then codeMatrix r xs.length m else none) with
  | some rows => rows.map fun row => dot row xs
  | none => (List.range m).map fun j => xs.getD j 0

theorem fill_length (cs : List (Chan K)) (m : Nat) : (fill cs m).length = m := by
  simp [fill]; omega

theorem fill_frame (cs : List (Chan K)) (m i : Nat) :
    frame (fill cs m) i = (List.range m).map fun j => (frame cs i).getD j 0 := by
  apply List.ext_getElem?
  intro j
  simp only [frame, fill, List.getElem?_map, List.getElem?_take]
  by_cases hj : j < m
  · simp only [hj, if_true, List.getElem?_range, Option.map_some]
    by_cases h2 : j < cs.length
    · rw [List.getElem?_append_left h2, List.getElem?_eq_getElem h2]
      simp [List.getD, h2]
    · rw [List.getElem?_append_right (by omega), List.getElem?_replicate_of_lt (by omega)]
      simp [List.getD, h2, zero]
  · simp [hj]

theorem codeMatrix_self (r : K) (m : Nat) : codeMatrix r m m = none := by
  rcases m with _ | _ | _ | _ | _ | _ | _ | m <;> rfl

theorem mixF_none {r : K} {interp : Interp} {m : Nat} {xs : List K}
    (h : (if interp = .speakers then codeMatrix r xs.length m else none) = none) :
    mixF r interp m xs = (List.range m).map fun j => xs.getD j 0 := by
  unfold mixF; rw [h]

theorem mixInner_frame (r : K) (next : Nat) (cs : List (Chan K)) (m : Nat) (interp : Interp) (i : Nat) :
    frame (mixInner r next cs m interp).1 i = mixF r interp m (frame cs i) := by
  have hlen : (frame cs i).length = cs.length := by simp [frame]
  unfold mixInner
  split
  · rename_i h
    rw [mixF_none, fill_frame]
    rw [hlen]
    rcases h with h | h | h
    · simp [h]
    · split
      · unfold codeMatrix; split <;> first | rfl | omega
      · rfl
    · split
      · unfold codeMatrix; split <;> first | rfl | omega
      · rfl
  · rename_i h
    have hs : interp = .speakers := by
      cases interp with
      | speakers => rfl
      | discrete => simp at h
    subst hs
    split
    case h_14 m' h1 h2 h3 h4 h5 h6 h7 h8 h9 h10 h11 h12 h13 =>
      rw [mixF_none, fill_frame]
      rw [hlen]
      simp only [if_true]
      unfold codeMatrix
      split <;> try rfl
      all_goals
        rename_i hl
        exfalso
      all_goals
        rcases cs with _ | ⟨a, _ | ⟨b, _ | ⟨c, _ | ⟨d, _ | ⟨e, _ | ⟨f, _ | ⟨g, tl⟩⟩⟩⟩⟩⟩⟩ <;>
          simp at hl
      all_goals
        first
        | exact h1 _ rfl rfl | exact h2 _ rfl rfl | exact h3 _ rfl rfl
        | exact h4 _ _ rfl rfl | exact h5 _ _ rfl rfl
        | exact h6 _ _ _ _ rfl rfl | exact h7 _ _ _ _ rfl rfl
        | exact h8 _ _ rfl rfl | exact h9 _ _ _ _ rfl rfl | exact h10 _ _ _ _ _ _ rfl rfl
        | exact h11 _ _ _ _ rfl rfl | exact h12 _ _ _ _ _ _ rfl rfl
        | exact h13 _ _ _ _ _ _ rfl rfl
    all_goals simp [frame, mixF, codeMatrix, dot, zero]
    all_goals (first | done | ring1 | (constructor <;> ring1))

theorem mix_frame (r : K) (next : Nat) (cs : List (Chan K)) (m : Nat) (interp : Interp) (i : Nat) :
    frame (mix r next cs m interp).1 i = mixF r interp m (frame cs i) := by
  unfold mix
  split
  · rename_i h
    rw [mixF_none]
    · apply List.ext_getElem?
      intro j
      simp only [List.getElem?_map, List.getD]
      by_cases hj : j < m
      · simp [hj, frame, h ▸ hj]
      · have : ¬ j < cs.length := by omega
        simp [hj, frame, this]
    · have hlen : (frame cs i).length = cs.length := by simp [frame]
      rw [hlen, h]
      split
      · exact codeMatrix_self r m
      · rfl
  · exact mixInner_frame r next cs m interp i

theorem codeMatrix_length {r : K} {n m : Nat} {rows : List (List K)}
    (h : codeMatrix r n m = some rows) : rows.length = m := by
  unfold codeMatrix at h
  split at h <;> simp at h <;> subst h <;> rfl

theorem mixF_length (r : K) (interp : Interp) (m : Nat) (xs : List K) :
    (mixF r interp m xs).length = m := by
  unfold mixF
  split
  · rename_i rows h
    split at h
    · simp [codeMatrix_length h]
    · cases h
  · simp

theorem mixF_self (r : K) (interp : Interp) (xs : List K) :
    mixF r interp xs.length xs = xs := by
  rw [mixF_none]
  · apply List.ext_getElem?
    intro j
    by_cases hj : j < xs.length <;> simp [List.getD, hj]
  · split
    · exact codeMatrix_self r _
    · rfl

theorem frame_length (cs : List (Chan K)) (i : Nat) : (frame cs i).length = cs.length := by
  simp [frame]

theorem mix_length (r : K) (next : Nat) (cs : List (Chan K)) (m : Nat) (interp : Interp) :
    (mix r next cs m interp).1.length = m := by
  have h := mix_frame r next cs m interp 0
  rw [← frame_length _ 0, h, mixF_length]

/-! ## Heap consistency -/

/-- the channels `cs` are buffers of a heap with contents `H` whose addresses from `next` on are free -/
def Con (H : Nat → Nat → K) (next : Nat) (cs : List (Chan K)) : Prop :=
  ∀ c ∈ cs, c.ptr < next ∧ c.data = H c.ptr

/-- `H'` is a heap with the same contents as `H` at all addresses in use before -/
def Ext (H : Nat → Nat → K) (next : Nat) (H' : Nat → Nat → K) (next' : Nat) : Prop :=
  next ≤ next' ∧ ∀ p < next, H' p = H p

theorem Ext.refl (H : Nat → Nat → K) (next : Nat) : Ext H next H next := ⟨le_rfl, fun _ _ => rfl⟩

theorem Ext.trans {H H' H'' : Nat → Nat → K} {n n' n'' : Nat} (h : Ext H n H' n')
    (h' : Ext H' n' H'' n'') : Ext H n H'' n'' :=
  ⟨h.1.trans h'.1, fun p hp => (h'.2 p (lt_of_lt_of_le hp h.1)).trans (h.2 p hp)⟩

theorem Con.ext {H H' : Nat → Nat → K} {n n' : Nat} {cs : List (Chan K)} (h : Con H n cs)
    (he : Ext H n H' n') : Con H' n' cs := fun c hc =>
  ⟨lt_of_lt_of_le (h c hc).1 he.1, by rw [he.2 _ (h c hc).1]; exact (h c hc).2⟩

theorem ext_alloc (H : Nat → Nat → K) (next : Nat) (d : Nat → K) :
    Ext H next (Function.update H next d) (next + 1) :=
  ⟨by omega, fun p hp => Function.update_of_ne (by omega) _ _⟩

theorem con_cons {H : Nat → Nat → K} {n : Nat} {c : Chan K} {cs : List (Chan K)} :
    Con H n (c :: cs) ↔ (c.ptr < n ∧ c.data = H c.ptr) ∧ Con H n cs := by
  simp [Con]

theorem con_nil {H : Nat → Nat → K} {n : Nat} : Con H n ([] : List (Chan K)) := by simp [Con]

theorem con_zero {H : Nat → Nat → K} {n : Nat} (h0 : H 0 = fun _ => 0) (hn : 0 < n) :
    (zero : Chan K).ptr < n ∧ (zero : Chan K).data = H (zero : Chan K).ptr := by
  simp [zero, h0, hn]

theorem fill_con {H : Nat → Nat → K} {n : Nat} (h0 : H 0 = fun _ => 0) (hn : 0 < n)
    {cs : List (Chan K)} (m : Nat) (h : Con H n cs) : Con H n (fill cs m) := by
  intro c hc
  have := List.mem_of_mem_take hc
  rcases List.mem_append.1 this with h1 | h1
  · exact h c h1
  · rw [List.eq_of_mem_replicate h1]; exact con_zero h0 hn

theorem mix_con {H : Nat → Nat → K} {n : Nat} (h0 : H 0 = fun _ => 0) (hn : 0 < n) (r : K)
    {cs : List (Chan K)} (m : Nat) (interp : Interp) (h : Con H n cs) :
    ∃ H', Ext H n H' (mix r n cs m interp).2 ∧
      Con H' (mix r n cs m interp).2 (mix r n cs m interp).1 := by
  have hz := con_zero (K := K) h0 hn
  unfold mix
  split
  · exact ⟨H, Ext.refl _ _, h⟩
  unfold mixInner
  split
  · exact ⟨H, Ext.refl _ _, fill_con h0 hn m h⟩
  have one : ∀ (d : Nat → K), ∃ H', Ext H n H' (n + 1) ∧ Con H' (n + 1) [⟨n, d⟩] := fun d =>
    ⟨_, ext_alloc H n d, by simp [Con]⟩
  have two : ∀ (d e : Nat → K) (l : List (Chan K)), Con H n l → ∃ H', Ext H n H' (n + 2) ∧
      Con H' (n + 2) (⟨n, d⟩ :: ⟨n + 1, e⟩ :: l) := fun d e l hl => by
    have he := (ext_alloc H n d).trans (ext_alloc (Function.update H n d) (n + 1) e)
    refine ⟨_, he, ?_⟩
    simp only [con_cons]
    refine ⟨⟨by omega, ?_⟩, ⟨by omega, ?_⟩, hl.ext he⟩
    · rw [Function.update_of_ne (by simp), Function.update_self]
    · simp
  split
  case h_14 => exact ⟨H, Ext.refl _ _, fill_con h0 hn _ h⟩
  case h_8 => exact one _
  case h_9 => exact one _
  case h_10 => exact one _
  case h_11 => exact two _ _ _ con_nil
  case h_12 => exact two _ _ _ con_nil
  case h_13 =>
    refine two _ _ _ ?_
    simp only [con_cons] at h ⊢
    tauto
  all_goals
    refine ⟨H, Ext.refl _ _, ?_⟩
    simp only [con_cons] at h ⊢
    tauto

theorem chanAdd_con {H : Nat → Nat → K} {n : Nat} {a b : Chan K}
    (ha : a.ptr < n ∧ a.data = H a.ptr) (hb : b.ptr < n ∧ b.data = H b.ptr) :
    ∃ H', Ext H n H' (Chan.add n a b).2 ∧ (Chan.add n a b).1.ptr < (Chan.add n a b).2 ∧
      (Chan.add n a b).1.data = H' (Chan.add n a b).1.ptr := by
  unfold Chan.add
  split
  · exact ⟨H, Ext.refl _ _, hb⟩
  split
  · exact ⟨H, Ext.refl _ _, ha⟩
  · exact ⟨_, ext_alloc H n (fun i => a.data i + b.data i), by simp, by simp⟩

theorem chanAdd_data {H : Nat → Nat → K} (h0 : H 0 = fun _ => 0) {n : Nat} {a b : Chan K}
    (ha : a.data = H a.ptr) (hb : b.data = H b.ptr) (i : Nat) :
    (Chan.add n a b).1.data i = a.data i + b.data i := by
  unfold Chan.add Chan.isSilent
  split
  · rename_i h
    rw [ha, show a.ptr = 0 by simpa using h, h0]; simp
  split
  · rename_i h
    rw [hb, show b.ptr = 0 by simpa using h, h0]; simp
  · rfl

theorem addChans_con {H : Nat → Nat → K} {n : Nat} {as bs : List (Chan K)}
    (ha : Con H n as) (hb : Con H n bs) :
    ∃ H', Ext H n H' (addChans n as bs).2 ∧ Con H' (addChans n as bs).2 (addChans n as bs).1 := by
  induction as generalizing H n bs with
  | nil => exact ⟨H, Ext.refl _ _, ha⟩
  | cons a as ih =>
    cases bs with
    | nil => exact ⟨H, Ext.refl _ _, ha⟩
    | cons b bs =>
      rw [con_cons] at ha hb
      obtain ⟨H1, e1, p1, d1⟩ := chanAdd_con ha.1 hb.1
      obtain ⟨H2, e2, c2⟩ := ih (ha.2.ext e1) (hb.2.ext e1)
      refine ⟨H2, e1.trans e2, con_cons.2 ⟨⟨lt_of_lt_of_le p1 e2.1, ?_⟩, c2⟩⟩
      exact d1.trans (e2.2 _ p1).symm

theorem addChans_frame {H : Nat → Nat → K} (h0 : H 0 = fun _ => 0) {n : Nat}
    {as bs : List (Chan K)} (hl : as.length = bs.length) (ha : ∀ c ∈ as, c.data = H c.ptr)
    (hb : ∀ c ∈ bs, c.data = H c.ptr) (i : Nat) :
    frame (addChans n as bs).1 i = List.zipWith (· + ·) (frame as i) (frame bs i) := by
  induction as generalizing n bs with
  | nil => simp [addChans, frame]
  | cons a as ih =>
    cases bs with
    | nil => simp at hl
    | cons b bs =>
      have := ih (n := (Chan.add n a b).2) (bs := bs) (by simpa using hl)
        (fun c hc => ha c (List.mem_cons_of_mem _ hc)) (fun c hc => hb c (List.mem_cons_of_mem _ hc))
      simp only [frame] at this
      simp only [addChans, frame, List.map_cons, List.zipWith_cons_cons, this]
      rw [chanAdd_data h0 (ha a (by simp)) (hb b (by simp))]

/-- the cases in which forgetting that there were several equal channels does no harm -/
def CollapseOk (n m : Nat) : Prop := n = 1 ∨ (n = 2 ∧ (m = 1 ∨ m = 2 ∨ m = 4))

/-- the fast path of `add` is taken -/
def Fast (interp : Interp) (self other : List (Chan K)) : Prop :=
  interp = .speakers ∧ identical self = true ∧ identical other = true

theorem identical_frame {H : Nat → Nat → K} {n : Nat} {a : Chan K} {as : List (Chan K)}
    (h : Con H n (a :: as)) (hi : identical (a :: as) = true) (i : Nat) :
    frame (a :: as) i = List.replicate (as.length + 1) (a.data i) := by
  rw [con_cons] at h
  simp only [frame, List.map_cons, List.replicate_succ, List.cons.injEq, true_and]
  rw [List.eq_replicate_iff]
  refine ⟨by simp, ?_⟩
  intro x hx
  obtain ⟨c, hc, rfl⟩ := List.mem_map.1 hx
  have : c.ptr = a.ptr := by
    simp only [identical, List.all_eq_true] at hi
    simpa using hi c hc
  rw [(h.2 c hc).2, this, ← h.1.2]

theorem mixF_collapse [NeZero (2 : K)] (r x : K) {n m : Nat} (h : CollapseOk n m) :
    mixF r .speakers m (List.replicate n x) = mixF r .speakers m [x] := by
  have h2 : (2 : K) ≠ 0 := NeZero.ne 2
  rcases h with rfl | ⟨rfl, rfl | rfl | rfl⟩
  · rfl
  · simp only [mixF, codeMatrix, dot, List.replicate]
    simp
    have : x = 2 * (2⁻¹ * x) := by rw [← mul_assoc, mul_inv_cancel₀ h2, one_mul]
    conv_rhs => rw [this]
    ring
  · simp [mixF, codeMatrix, dot, List.replicate, List.range_succ]
  · simp [mixF, codeMatrix, dot, List.replicate]

theorem getD_zipWith_add (xs ys : List K) (h : xs.length = ys.length) (j : Nat) :
    (List.zipWith (· + ·) xs ys).getD j 0 = xs.getD j 0 + ys.getD j 0 := by
  by_cases hj : j < xs.length
  · simp [List.getD, hj, h ▸ hj]
  · have : ¬ j < ys.length := by omega
    simp [List.getD, hj, this]

theorem dot_add (row xs ys : List K) (h : xs.length = ys.length) :
    dot row (List.zipWith (· + ·) xs ys) = dot row xs + dot row ys := by
  induction row generalizing xs ys with
  | nil => simp [dot]
  | cons a row ih =>
    cases xs with
    | nil => cases ys with
      | nil => simp [dot]
      | cons => simp at h
    | cons x xs => cases ys with
      | nil => simp at h
      | cons y ys =>
        have := ih xs ys (by simpa using h)
        simp only [dot] at this
        simp only [dot, List.zipWith_cons_cons, List.sum_cons, this]
        ring

theorem mixF_add (r : K) (interp : Interp) (m : Nat) (xs ys : List K) (h : xs.length = ys.length) :
    mixF r interp m (List.zipWith (· + ·) xs ys) =
      List.zipWith (· + ·) (mixF r interp m xs) (mixF r interp m ys) := by
  unfold mixF
  rw [List.length_zipWith, ← h, Nat.min_self]
  split
  · apply List.ext_getElem?
    intro j
    simp only [List.getElem?_map, List.getElem?_zipWith]
    rename_i rows _
    cases rows[j]? with
    | none => rfl
    | some row => simp [dot_add _ _ _ h]
  · apply List.ext_getElem?
    intro j
    simp only [List.getElem?_map, List.getElem?_zipWith]
    cases (List.range m)[j]? with
    | none => rfl
    | some j => simpa [List.getD] using getD_zipWith_add _ _ h j

theorem add_frame [NeZero (2 : K)] {H : Nat → Nat → K} {n : Nat} (h0 : H 0 = fun _ => 0) (hn : 0 < n)
    (r : K) (mode : Mode) (count : Nat) (interp : Interp) {self other : List (Chan K)}
    (hs : Con H n self) (ho : Con H n other) (hs1 : self ≠ []) (ho1 : other ≠ [])
    (hfast : Fast interp self other →
      CollapseOk self.length (newCount mode count self.length other.length) ∧
      CollapseOk other.length (newCount mode count self.length other.length)) (i : Nat) :
    frame (add r mode count interp n self other).1 i =
      List.zipWith (· + ·)
        (mixF r interp (newCount mode count self.length other.length) (frame self i))
        (mixF r interp (newCount mode count self.length other.length) (frame other i)) := by
  unfold add
  by_cases hf : Fast interp self other
  · obtain ⟨ha, hb⟩ := hfast hf
    obtain ⟨rfl, h1, h2⟩ := hf
    rw [if_pos (by simp [h1, h2])]
    cases self with
    | nil => exact absurd rfl hs1
    | cons a as => cases other with
      | nil => exact absurd rfl ho1
      | cons b bs =>
        simp only
        rw [mix_frame, identical_frame hs h1, identical_frame ho h2]
        simp only [List.length_cons] at ha hb ⊢
        rw [mixF_collapse r _ ha, mixF_collapse r _ hb, ← mixF_add _ _ _ _ _ (by simp)]
        simp only [frame, List.map_cons, List.map_nil, List.zipWith_cons_cons, List.zipWith_nil_right]
        rw [chanAdd_data h0 (hs a (by simp)).2 (ho b (by simp)).2]
  · rw [if_neg (by simpa [Fast, and_assoc] using hf)]
    simp only
    obtain ⟨H1, e1, c1⟩ := mix_con h0 hn r
      (newCount mode count self.length other.length) interp hs
    have h01 : H1 0 = fun _ => 0 := by rw [e1.2 0 hn, h0]
    have hn1 := lt_of_lt_of_le hn e1.1
    obtain ⟨H2, e2, c2⟩ := mix_con h01 hn1 r
      (newCount mode count self.length other.length) interp (ho.ext e1)
    have h02 : H2 0 = fun _ => 0 := by rw [e2.2 0 hn1, h01]
    rw [addChans_frame h02 (by rw [mix_length, mix_length]) (fun c hc => ((c1.ext e2) c hc).2)
      (fun c hc => (c2 c hc).2), mix_frame, mix_frame]

theorem add_con {H : Nat → Nat → K} {n : Nat} (h0 : H 0 = fun _ => 0) (hn : 0 < n)
    (r : K) (mode : Mode) (count : Nat) (interp : Interp) {self other : List (Chan K)}
    (hs : Con H n self) (ho : Con H n other) :
    ∃ H', Ext H n H' (add r mode count interp n self other).2 ∧
      Con H' (add r mode count interp n self other).2 (add r mode count interp n self other).1 := by
  unfold add
  simp only
  split
  · split
    · rename_i a as b bs _
      rw [con_cons] at hs ho
      obtain ⟨H1, e1, p1, d1⟩ := chanAdd_con hs.1 ho.1
      have h01 : H1 0 = fun _ => 0 := by rw [e1.2 0 hn, h0]
      obtain ⟨H2, e2, c2⟩ := mix_con h01 (lt_of_lt_of_le hn e1.1) r
        (newCount mode count (a :: as).length (b :: bs).length) interp
        (cs := [(Chan.add n a b).1]) (con_cons.2 ⟨⟨p1, d1⟩, con_nil⟩)
      exact ⟨H2, e1.trans e2, c2⟩
    · exact ⟨H, Ext.refl _ _, hs⟩
  · obtain ⟨H1, e1, c1⟩ := mix_con h0 hn r
      (newCount mode count self.length other.length) interp hs
    have h01 : H1 0 = fun _ => 0 := by rw [e1.2 0 hn, h0]
    have hn1 := lt_of_lt_of_le hn e1.1
    obtain ⟨H2, e2, c2⟩ := mix_con h01 hn1 r
      (newCount mode count self.length other.length) interp (ho.ext e1)
    obtain ⟨H3, e3, c3⟩ := addChans_con (c1.ext e2) c2
    exact ⟨H3, (e1.trans e2).trans e3, c3⟩

/-! ## Sums of several signals -/

/-- sum of frames, all brought to `m` channels -/
def vsum (m : Nat) (l : List (List K)) : List K :=
  (List.range m).map fun j => (l.map fun x => x.getD j 0).sum

theorem vsum_length (m : Nat) (l : List (List K)) : (vsum m l).length = m := by simp [vsum]

theorem vsum_nil (m : Nat) : vsum m ([] : List (List K)) = List.replicate m 0 := by
  simp [vsum, List.map_const']

theorem vsum_cons {m : Nat} {x : List K} (hx : x.length = m) (l : List (List K)) :
    vsum m (x :: l) = List.zipWith (· + ·) x (vsum m l) := by
  apply List.ext_getElem?
  intro j
  simp only [vsum, List.getElem?_map, List.getElem?_zipWith]
  by_cases hj : j < m
  · simp [List.getD, hj, hx ▸ hj]
  · simp [hj]

theorem zipWith_add_comm (x y : List K) :
    List.zipWith (· + ·) x y = List.zipWith (· + ·) y x := List.zipWith_comm_of_comm add_comm

theorem vsum_append_singleton {m : Nat} {x : List K} (hx : x.length = m) (l : List (List K)) :
    vsum m (l ++ [x]) = List.zipWith (· + ·) (vsum m l) x := by
  apply List.ext_getElem?
  intro j
  simp only [vsum, List.getElem?_map, List.getElem?_zipWith]
  by_cases hj : j < m
  · simp [List.getD, hj, hx ▸ hj]
  · simp [hj]

theorem dot_zeros (row : List K) (n : Nat) : dot row (List.replicate n 0) = 0 := by
  induction row generalizing n with
  | nil => simp [dot]
  | cons a row ih =>
    cases n with
    | zero => simp [dot]
    | succ n =>
      have := ih n
      simp only [dot] at this
      simp [dot, List.replicate_succ, this]

theorem mixF_zeros (r : K) (interp : Interp) (n m : Nat) :
    mixF r interp m (List.replicate n 0) = List.replicate m 0 := by
  rw [List.eq_replicate_iff]
  refine ⟨mixF_length _ _ _ _, ?_⟩
  intro b hb
  unfold mixF at hb
  split at hb
  · obtain ⟨row, _, rfl⟩ := List.mem_map.1 hb
    exact dot_zeros row n
  · obtain ⟨j, _, rfl⟩ := List.mem_map.1 hb
    by_cases hj : j < n <;> simp [List.getD, hj]

theorem mixF_vsum (r : K) (interp : Interp) (n m : Nat) (l : List (List K))
    (hl : ∀ x ∈ l, x.length = n) :
    mixF r interp m (vsum n l) = vsum m (l.map (mixF r interp m)) := by
  induction l with
  | nil => rw [vsum_nil, List.map_nil, vsum_nil, mixF_zeros]
  | cons x l ih =>
    rw [vsum_cons (hl x (by simp)), List.map_cons, vsum_cons (mixF_length _ _ _ _),
      mixF_add _ _ _ _ _ (by rw [vsum_length, hl x (by simp)]),
      ih fun y hy => hl y (List.mem_cons_of_mem _ hy)]

/-- mixing in two steps is mixing in one step -/
theorem mixF_comp (r : K) (interp : Interp) (t t' : Nat) (x : List K)
    (h : t = t' ∨ (x.length ≤ t ∧ t ≤ t' ∧ (interp = .discrete ∨ (0 < x.length ∧ t' ≤ 2)))) :
    mixF r interp t' (mixF r interp t x) = mixF r interp t' x := by
  have self : ∀ t : Nat, mixF r interp t (mixF r interp t x) = mixF r interp t x := fun t => by
    have := mixF_self r interp (mixF r interp t x)
    rwa [mixF_length] at this
  rcases h with rfl | ⟨h1, h2, h3⟩
  · exact self t
  · rcases h3 with rfl | ⟨h3, h4⟩
    · have e : ∀ m (y : List K), mixF r .discrete m y = (List.range m).map fun j => y.getD j 0 :=
        fun m y => mixF_none (by simp)
      rw [e, e, e]
      apply List.map_congr_left
      intro j _
      by_cases hj : j < t
      · simp [List.getD, hj]
      · have : ¬ j < x.length := by omega
        simp [List.getD, hj, this]
    · have h5 : t = x.length ∨ t = t' := by omega
      rcases h5 with rfl | rfl
      · rw [mixF_self]
      · exact self t

/-- channel count of an input with the given connections -/
def target (mode : Mode) (count : Nat) (lens : List Nat) : Nat :=
  match mode with
  | .max => lens.foldl Nat.max 1
  | .explicit => count
  | .clampedMax => Nat.min (lens.foldl Nat.max 1) count

theorem foldl_max_append (l : List Nat) (a n : Nat) :
    (l ++ [n]).foldl Nat.max a = Nat.max (l.foldl Nat.max a) n := by simp

theorem le_foldl_max (l : List Nat) (a : Nat) : a ≤ l.foldl Nat.max a := by
  induction l generalizing a with
  | nil => exact le_rfl
  | cons b l ih => exact (Nat.le_max_left a b).trans (ih _)

theorem mem_le_foldl_max (l : List Nat) (a n : Nat) (h : n ∈ l) : n ≤ l.foldl Nat.max a := by
  induction l generalizing a with
  | nil => cases h
  | cons b l ih =>
    rcases List.mem_cons.1 h with rfl | h
    · exact (Nat.le_max_right a n).trans (le_foldl_max l _)
    · exact ih _ h

theorem foldl_max_le (l : List Nat) (a b : Nat) (ha : a ≤ b) (h : ∀ n ∈ l, n ≤ b) :
    l.foldl Nat.max a ≤ b := by
  induction l generalizing a with
  | nil => exact ha
  | cons c l ih => exact ih _ (Nat.max_le.2 ⟨ha, h c (by simp)⟩) fun n hn => h n (by simp [hn])

/-- The situations in which summing is exact: discrete interpretation, or speakers interpretation
with mono and stereo only. -/
def SumOk (mode : Mode) (count : Nat) (interp : Interp) (lens : List Nat) : Prop :=
  interp = .discrete ∨
    ((∀ n ∈ lens, n ≤ 2) ∧ (mode = .explicit → count ≤ 2))

theorem sum_frame [NeZero (2 : K)] {H : Nat → Nat → K} {n : Nat} (h0 : H 0 = fun _ => 0) (hn : 0 < n)
    (r : K) (mode : Mode) (count : Nat) (hc : 0 < count) (interp : Interp) (others : List (List (Chan K)))
    (hcon : ∀ o ∈ others, Con H n o) (hne : ∀ o ∈ others, o ≠ [])
    (hok : SumOk mode count interp (others.map List.length)) (hnil : others ≠ []) (i : Nat) :
    frame (sumInto r mode count interp n others).1 i =
      vsum (target mode count (others.map List.length))
        (others.map fun o => mixF r interp (target mode count (others.map List.length)) (frame o i)) := by
  have key : ∀ l : List (List (Chan K)), (∀ o ∈ l, Con H n o) → (∀ o ∈ l, o ≠ []) →
      SumOk mode count interp (l.map List.length) →
      let T := if l = [] then 1 else target mode count (l.map List.length)
      (∃ H', Ext H n H' (sumInto r mode count interp n l).2 ∧
        Con H' (sumInto r mode count interp n l).2 (sumInto r mode count interp n l).1) ∧
      (sumInto r mode count interp n l).1.length = T ∧
      frame (sumInto r mode count interp n l).1 i =
        vsum T (l.map fun o => mixF r interp T (frame o i)) := by
    intro l
    induction l using List.reverseRecOn with
    | nil =>
      intro _ _ _
      refine ⟨⟨H, Ext.refl _ _, ?_⟩, rfl, ?_⟩
      · simp [sumInto, con_cons, con_nil, zero, hn, h0]
      · simp [sumInto, frame, zero, vsum]
    | append_singleton l o ih =>
      intro h1 h2 h3
      have h3' : SumOk mode count interp (l.map List.length) := by
        rcases h3 with h3 | h3
        · exact .inl h3
        · exact .inr ⟨fun n hn => h3.1 n (by rw [List.map_append]; exact List.mem_append_left _ hn), h3.2⟩
      obtain ⟨⟨H1, e1, c1⟩, l1, f1⟩ := ih (fun o ho => h1 o (by simp [ho]))
        (fun o ho => h2 o (by simp [ho])) h3'
      have hstep : sumInto r mode count interp n (l ++ [o]) =
          add r mode count interp (sumInto r mode count interp n l).2
            (sumInto r mode count interp n l).1 o := by
        simp [sumInto]
      rw [hstep]
      simp only [List.append_eq_nil_iff, List.cons_ne_self, and_false, if_false]
      generalize sumInto r mode count interp n l = acc at *
      have ho : Con H1 acc.2 o := (h1 o (by simp)).ext e1
      have h01 : H1 0 = fun _ => 0 := by rw [e1.2 0 hn, h0]
      have hn1 := lt_of_lt_of_le hn e1.1
      obtain ⟨H2, e2, c2⟩ := add_con h01 hn1 r mode count interp c1 ho
      have hT : newCount mode count acc.1.length o.length =
          target mode count ((l ++ [o]).map List.length) := by
        rw [l1, List.map_append, List.map_singleton]
        by_cases hl : l = []
        · subst hl; cases mode <;> rfl
        · rw [if_neg hl]
          cases mode
          · simp only [newCount, target, foldl_max_append]
          · simp only [newCount, target, foldl_max_append]
            generalize List.foldl Nat.max 1 (List.map List.length l) = M
            simp only [Nat.max_def, Nat.min_def]
            grind
          · rfl
      have hone : 0 < o.length := List.length_pos_iff.2 (h2 o (by simp))
      have hacc : 0 < acc.1.length := by
        rw [l1]
        split
        · omega
        · have hp := le_foldl_max (l.map List.length) 1
          cases mode with
          | max => exact hp
          | clampedMax =>
            simp only [target, Nat.min_def]
            split <;> omega
          | explicit => exact hc
      have hTle : interp = .speakers → target mode count ((l ++ [o]).map List.length) ≤ 2 ∧
          0 < target mode count ((l ++ [o]).map List.length) ∧ o.length ≤ 2 ∧
          acc.1.length ≤ 2 := by
        intro hi
        rcases h3 with h3 | ⟨h3, h4⟩
        · rw [h3] at hi; cases hi
        · have hp := le_foldl_max ((l ++ [o]).map List.length) 1
          have hq := foldl_max_le ((l ++ [o]).map List.length) 1 2 (by omega) h3
          have hq' := foldl_max_le (l.map List.length) 1 2 (by omega) fun n hn =>
            h3 n (by rw [List.map_append]; exact List.mem_append_left _ hn)
          have ho2 : o.length ≤ 2 := h3 _ (by simp)
          rw [l1]
          cases mode with
          | max => refine ⟨hq, hp, ho2, ?_⟩; split; · omega
                   · exact hq'
          | clampedMax =>
            simp only [target, Nat.min_def]
            refine ⟨?_, ?_, ho2, ?_⟩
            · split <;> omega
            · split <;> omega
            · split
              · omega
              · split <;> omega
          | explicit => refine ⟨h4 rfl, hc, ho2, ?_⟩; split; · omega
                        · exact h4 rfl
      have hlT : (if l = [] then 1 else target mode count (l.map List.length)) =
          target mode count ((l ++ [o]).map List.length) ∨
          ((∀ x ∈ l, x.length ≤ (if l = [] then 1 else target mode count (l.map List.length))) ∧
          (if l = [] then 1 else target mode count (l.map List.length)) ≤
            target mode count ((l ++ [o]).map List.length)) ∨ l = [] := by
        by_cases hl : l = []
        · exact .inr (.inr hl)
        · rw [if_neg hl]
          have hm : ∀ x ∈ l, x.length ≤ (l.map List.length).foldl Nat.max 1 := fun x hx =>
            mem_le_foldl_max _ _ _ (List.mem_map.2 ⟨x, hx, rfl⟩)
          have hmono : (l.map List.length).foldl Nat.max 1 ≤
              ((l ++ [o]).map List.length).foldl Nat.max 1 := by
            rw [List.map_append, List.map_singleton, foldl_max_append]
            exact Nat.le_max_left _ _
          cases mode with
          | max => exact .inr (.inl ⟨hm, hmono⟩)
          | explicit => exact .inl rfl
          | clampedMax =>
            simp only [target]
            by_cases hc : (l.map List.length).foldl Nat.max 1 ≤ count
            · right; left
              have e : Nat.min ((l.map List.length).foldl Nat.max 1) count =
                (l.map List.length).foldl Nat.max 1 := Nat.min_eq_left hc
              rw [e]
              exact ⟨hm, Nat.le_min.2 ⟨hmono, hc⟩⟩
            · left
              have e : ∀ M, count ≤ M → Nat.min M count = count := fun M h => Nat.min_eq_right h
              rw [e _ (by omega), e _ (by omega)]
      have hfr := add_frame h01 hn1 r mode count interp c1 ho (List.length_pos_iff.1 hacc)
        (h2 o (by simp)) (by
          intro hf
          obtain ⟨a1, a2, a3, a4⟩ := hTle hf.1
          rw [hT]
          constructor <;> unfold CollapseOk <;> omega) i
      rw [hT] at hfr
      refine ⟨⟨H2, e1.trans e2, c2⟩, ?_, ?_⟩
      · rw [← frame_length _ i, hfr]
        simp [mixF_length]
      · generalize hTT : target mode count ((l ++ [o]).map List.length) = T at *
        rw [hfr, List.map_append, List.map_singleton, vsum_append_singleton (mixF_length _ _ _ _), f1,
          mixF_vsum _ _ _ _ _ (by intro x hx; obtain ⟨y, _, rfl⟩ := List.mem_map.1 hx; exact mixF_length _ _ _ _),
          List.map_map]
        congr 2
        apply List.map_congr_left
        intro x hx
        apply mixF_comp
        rw [frame_length]
        rcases hlT with h | h | h
        · exact .inl h
        · refine .inr ⟨h.1 x hx, h.2, ?_⟩
          cases interp with
          | discrete => exact .inl rfl
          | speakers =>
            exact .inr ⟨List.length_pos_iff.2 (h2 x (by simp [hx])), (hTle rfl).1⟩
        · subst h; cases hx
  have := (key others hcon hne hok).2.2
  rwa [if_neg hnil] at this

end Verif.Mix
