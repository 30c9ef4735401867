import Verif.Engine.Model
import Verif.Mix.Layouts

/-!
# Summing of connections in the engine, frame by frame

`AudioRenderQuantum::add` (`/repo/src/render/quantum.rs` l.532-569) on signals whose channels do not share buffers is:
mix both to the new number of channels, add.
-/

namespace Verif.Engine

open Verif.Render

section
variable {K : Type} [Field K] [LinearOrder K] [IsStrictOrderedRing K]

/-- a sample of a channel -/
def at' (c : Node.Chan K) (f : Nat) : K := match c with
  | none => 0
  | some l => l.getD f 0

/-- the samples of all channels at frame `f` -/
def fr (q : Sig K) (f : Nat) : List K := q.map fun c => at' c f

omit [LinearOrder K] [IsStrictOrderedRing K] in
theorem fr_length (q : Sig K) (f : Nat) : (fr q f).length = q.length := List.length_map _

omit [LinearOrder K] [IsStrictOrderedRing K] in
theorem sample_fr (q : Sig K) (k f : Nat) : Node.sample q k f = (fr q f).getD k 0 := by
  unfold Node.sample fr
  rw [List.getD, List.getElem?_map]
  cases q[k]? with
  | none => rfl
  | some c => cases c <;> rfl

/-- the heap in which two signals are placed -/
def heap (q : Sig K) (p i : Nat) : K := if p = 0 then 0 else at' (q.getD (p - 1) none) i

omit [LinearOrder K] [IsStrictOrderedRing K] in
theorem heap_zero (q : Sig K) : heap q 0 = fun _ => 0 := rfl

omit [LinearOrder K] [IsStrictOrderedRing K] in
theorem place_getElem? (off : Nat) (q : Sig K) (k : Nat) : (place off q)[k]? = (q[k]?).map fun c => match c with
    | none => Mix.zero
    | some l => ⟨off + k + 1, fun i => l.getD i 0⟩ := by
  unfold place
  rw [List.getElem?_mapIdx]
  rfl

omit [LinearOrder K] [IsStrictOrderedRing K] in
theorem place_length (off : Nat) (q : Sig K) : (place off q).length = q.length := by simp [place]

omit [LinearOrder K] [IsStrictOrderedRing K] in
theorem place_con (pre q post : Sig K) (n : Nat) (hn : pre.length + q.length < n) :
    Mix.Con (heap (pre ++ q ++ post)) n (place pre.length q) := by
  intro c hc
  obtain ⟨k, hk⟩ := List.mem_iff_getElem?.1 hc
  rw [place_getElem?, Option.map_eq_some_iff] at hk
  obtain ⟨x, hx, rfl⟩ := hk
  have hlt : k < q.length := (List.getElem?_eq_some_iff.1 hx).1
  cases x with
  | none => exact ⟨by simp only [Mix.zero]; omega, rfl⟩
  | some l =>
    refine ⟨by simp only; omega, ?_⟩
    funext i
    simp only [heap]
    have hg : (pre ++ q ++ post).getD (pre.length + k) none = some l := by
      rw [List.getD, List.append_assoc, List.getElem?_append_right (by omega), Nat.add_sub_cancel_left,
        List.getElem?_append_left hlt, hx]
      rfl
    rw [if_neg (by omega), Nat.add_sub_cancel, hg]
    rfl

omit [LinearOrder K] [IsStrictOrderedRing K] in
theorem place_frame (off : Nat) (q : Sig K) (f : Nat) : Mix.frame (place off q) f = fr q f := by
  refine List.ext_getElem? fun k => ?_
  unfold Mix.frame fr
  rw [List.getElem?_map, place_getElem?, List.getElem?_map]
  cases q[k]? with
  | none => rfl
  | some c => cases c <;> rfl

omit [LinearOrder K] [IsStrictOrderedRing K] in
theorem place_first (r : K) (m i off : Nat) (q : Sig K) (hi : Mix.identical (place off q) = true) :
    Mix.First r m i (place off q) := by
  have hcon := place_con ([] : Sig K) q [] (q.length + 1) (by simp)
  intro a as h
  cases q with
  | nil => simp [place] at h
  | cons c q =>
    cases q with
    | nil =>
      have : as = [] := by
        have := congrArg List.length h
        simp only [place_length, List.length_cons, List.length_nil] at this
        exact List.length_eq_zero_iff.1 (by omega)
      subst this
      rw [h]
      rfl
    | cons d q =>
      -- two channels with the same address are silent
      have h0 : (place off (c :: d :: q))[0]? = some a := by rw [h]; rfl
      have h1 : ∃ b, (place off (c :: d :: q))[1]? = some b := ⟨_, by rw [place_getElem?]; rfl⟩
      obtain ⟨b, h1⟩ := h1
      have hab : b.ptr = a.ptr := by
        rw [h] at hi h1
        simp only [Mix.identical, List.all_eq_true, beq_iff_eq] at hi
        exact hi b (List.mem_of_getElem? (by simpa using h1))
      have ha0 : a.ptr = 0 := by
        rw [place_getElem?] at h0 h1
        simp only [List.getElem?_cons_zero, Option.map_some, Option.some.injEq, List.getElem?_cons_succ] at h0 h1
        cases c with
        | none => rw [← h0]; rfl
        | some l =>
          cases d with
          | none => rw [← hab, ← h1]; rfl
          | some l' =>
            rw [← h0, ← h1] at hab
            simp only at hab
            omega
      have hz : ∀ x ∈ place off (c :: d :: q), x.ptr = 0 := by
        rw [h] at hi ⊢
        simp only [Mix.identical, List.all_eq_true, beq_iff_eq] at hi
        intro x hx
        rcases List.mem_cons.1 hx with rfl | hx
        · exact ha0
        · rw [hi x hx, ha0]
      have hd : ∀ x ∈ place off (c :: d :: q), x.data i = 0 := by
        intro x hx
        have := hz x hx
        obtain ⟨k, hk⟩ := List.mem_iff_getElem?.1 hx
        rw [place_getElem?, Option.map_eq_some_iff] at hk
        obtain ⟨y, _, rfl⟩ := hk
        cases y with
        | none => rfl
        | some l => simp at this
      have hfr : Mix.frame (place off (c :: d :: q)) i = List.replicate (place off (c :: d :: q)).length 0 := by
        rw [List.eq_replicate_iff]
        refine ⟨by simp [Mix.frame], fun x hx => ?_⟩
        obtain ⟨y, hy, rfl⟩ := List.mem_map.1 hx
        exact hd y hy
      rw [hfr, Mix.mixF_zeros, hd a (by rw [h]; simp)]
      exact (Mix.mixF_zeros r .speakers 1 m).symm

/-- the number of channels of a sum -/
def sumCount (c : Cfg) (a b : Sig K) : Nat := Mix.newCount (modeOf c.mode) c.count a.length b.length

omit [LinearOrder K] [IsStrictOrderedRing K] in
/-- A sum, frame by frame: both signals are mixed to the new number of channels and added. -/
theorem addSig_fr (N : Nat) (r : K) (c : Cfg) {a b : Sig K} (ha : a ≠ []) (hb : b ≠ []) {f : Nat} (hf : f < N) :
    fr (addSig N r c a b) f = List.zipWith (· + ·) (Mix.mixF r (interpOf c.interp) (sumCount c a b) (fr a f))
      (Mix.mixF r (interpOf c.interp) (sumCount c a b) (fr b f)) := by
  have hA := place_con ([] : Sig K) a b (a.length + b.length + 1) (by simp)
  have hB := place_con a b ([] : Sig K) (a.length + b.length + 1) (by omega)
  rw [List.nil_append] at hA
  rw [List.append_nil] at hB
  rw [show ([] : Sig K).length = 0 from rfl] at hA
  have hne : ∀ (off : Nat) {q : Sig K}, q ≠ [] → place off q ≠ [] := by
    intro off q hq h
    have := congrArg List.length h
    rw [place_length] at this
    exact hq (List.length_eq_zero_iff.1 this)
  have h1 := Mix.add_frame_first (heap_zero (a ++ b)) (Nat.succ_pos _) r (modeOf c.mode) c.count (interpOf c.interp) hA hB
    (hne 0 ha) (hne a.length hb) f (fun hfast => ⟨place_first _ _ _ _ _ hfast.2.1, place_first _ _ _ _ _ hfast.2.2⟩)
  obtain ⟨H', e, hc⟩ := Mix.add_con (heap_zero (a ++ b)) (Nat.succ_pos _) r (modeOf c.mode) c.count (interpOf c.interp)
    hA hB
  rw [place_length, place_length, place_frame, place_frame] at h1
  unfold sumCount
  rw [← h1]
  unfold addSig fr contents Mix.frame
  rw [List.map_map]
  refine List.map_congr_left fun x hx => ?_
  simp only [Function.comp_apply]
  split
  · rename_i hp
    have := (hc x hx).2
    rw [this, hp, e.2 0 (Nat.succ_pos _)]
    rfl
  · simp [at', List.getD, hf]

omit [LinearOrder K] [IsStrictOrderedRing K] in
theorem addChans_length (as : List (Mix.Chan K)) : ∀ (n : Nat) (bs : List (Mix.Chan K)), as.length = bs.length →
    (Mix.addChans n as bs).1.length = as.length := by
  induction as with
  | nil => intro n bs _; rfl
  | cons a as ih =>
    intro n bs h
    cases bs with
    | nil => simp at h
    | cons b bs =>
      simp only [Mix.addChans, List.length_cons]
      rw [ih _ bs (by simpa using h)]

omit [LinearOrder K] [IsStrictOrderedRing K] in
theorem addSig_length (N : Nat) (r : K) (c : Cfg) {a b : Sig K} (ha : a ≠ []) (hb : b ≠ []) :
    (addSig N r c a b).length = sumCount c a b := by
  have h0 := place_length 0 a
  have h1 := place_length a.length b
  unfold addSig contents sumCount
  rw [List.length_map]
  unfold Mix.add
  rw [h0, h1]
  simp only
  split
  · split
    · exact Mix.mix_length _ _ _ _ _
    · rename_i hn
      exfalso
      cases hp : place 0 a with
      | nil => rw [hp] at h0; exact ha (List.length_eq_zero_iff.1 h0.symm)
      | cons x xs =>
        cases hq : place a.length b with
        | nil => rw [hq] at h1; exact hb (List.length_eq_zero_iff.1 h1.symm)
        | cons y ys => exact hn x xs y ys hp hq
  · rw [addChans_length _ _ _ (by rw [Mix.mix_length, Mix.mix_length]), Mix.mix_length]

/-- every channel is silent or has a sample for each of the `N` frames, and there is a channel -/
def Full (N : Nat) (q : Sig K) : Prop := q ≠ [] ∧ ∀ l, some l ∈ q → l.length = N

omit [LinearOrder K] [IsStrictOrderedRing K] in
theorem addSig_full (N : Nat) (r : K) (c : Cfg) {a b : Sig K} (ha : a ≠ []) (hb : b ≠ []) (hc : 0 < sumCount c a b) :
    Full N (addSig N r c a b) := by
  refine ⟨fun h => ?_, fun l hl => ?_⟩
  · have := addSig_length N r c ha hb
    rw [h] at this
    simp at this
    omega
  · unfold addSig contents at hl
    obtain ⟨x, _, hx⟩ := List.mem_map.1 hl
    split at hx
    · cases hx
    · cases hx
      simp

end

end Verif.Engine
