import Verif.Cow.Spec
import Mathlib.Tactic.Common
import Mathlib.Data.List.Nodup

/-! # Helper lemmas for the copy-on-write buffers -/

namespace Verif.Cow

variable {V : Type} [AddZeroClass V]

/-- what all handles see -/
def St.view (s : St V) : List (Nat × V) := s.handles.map fun x => (x.1, s.mem x.2)

structure Inv (s : St V) : Prop where
  keys : (s.handles.map (·.1)).Nodup
  hlt : ∀ x ∈ s.handles, x.2 < s.next
  plt : ∀ p ∈ s.pool, p < s.next
  pos : 0 < s.next
  pool0 : 0 ∉ s.pool
  poolNodup : s.pool.Nodup
  disj : ∀ x ∈ s.handles, x.2 ∉ s.pool
  zero : s.mem 0 = 0

omit [AddZeroClass V] in
theorem ptr_mem {s : St V} {h p : Nat} (hp : s.ptr h = some p) : (h, p) ∈ s.handles := by
  unfold St.ptr at hp
  cases hf : s.handles.find? fun x => x.1 == h with
  | none => simp [hf] at hp
  | some x =>
    rw [hf] at hp
    have h1 := List.find?_some hf
    have h2 := List.mem_of_find?_eq_some hf
    simp at hp h1
    rw [← hp, ← h1]; exact h2

omit [AddZeroClass V] in
theorem ptr_none {s : St V} {h : Nat} (hp : s.ptr h = none) : ∀ x ∈ s.handles, x.1 ≠ h := by
  unfold St.ptr at hp
  simpa using hp

omit [AddZeroClass V] in
theorem keys_inj {s : St V} (hk : (s.handles.map (·.1)).Nodup) {x y : Nat × Nat}
    (hx : x ∈ s.handles) (hy : y ∈ s.handles) (h : x.1 = y.1) : x = y :=
  List.inj_on_of_nodup_map hk hx hy h

omit [AddZeroClass V] in
theorem owners_zero_handles {s : St V} {p : Nat} (h : s.owners p = 0) :
    (∀ x ∈ s.handles, x.2 ≠ p) ∧ p ∉ s.pool ∧ p ≠ 0 := by
  unfold St.owners at h
  have h1 : s.handles.countP (fun x => x.2 == p) = 0 := by omega
  have h2 : s.pool.count p = 0 := by omega
  refine ⟨?_, List.count_eq_zero.1 h2, ?_⟩
  · intro x hx he
    have := List.countP_eq_zero.1 h1 x hx
    simp [he] at this
  · rintro rfl; simp at h

omit [AddZeroClass V] in
theorem owners_one_handle {s : St V} {h p : Nat} (ho : s.owners p = 1) (hm : (h, p) ∈ s.handles)
    (hk : (s.handles.map (·.1)).Nodup) :
    (∀ x ∈ s.handles, x.2 = p → x.1 = h) ∧ p ∉ s.pool ∧ p ≠ 0 := by
  unfold St.owners at ho
  have hpos : 0 < s.handles.countP (fun x => x.2 == p) := List.countP_pos_iff.2 ⟨_, hm, by simp⟩
  have h2 : s.pool.count p = 0 := by omega
  have h0 : p ≠ 0 := by
    rintro rfl
    rw [if_pos rfl] at ho
    omega
  refine ⟨?_, List.count_eq_zero.1 h2, h0⟩
  intro x hx he
  by_contra hne
  have h1 : s.handles.countP (fun x => x.2 == p) = 1 := by omega
  have hnd : s.handles.Nodup := List.Nodup.of_map _ hk
  have hsub : [x, (h, p)].Sublist (s.handles.filter fun x => x.2 == p) ∨
      [(h, p), x].Sublist (s.handles.filter fun x => x.2 == p) := by
    have hlen : (s.handles.filter fun x => x.2 == p).length = 1 := by
      rw [← List.countP_eq_length_filter]; exact h1
    obtain ⟨y, hy⟩ := List.length_eq_one_iff.1 hlen
    have m1 : x ∈ s.handles.filter fun x => x.2 == p := List.mem_filter.2 ⟨hx, by simp [he]⟩
    have m2 : (h, p) ∈ s.handles.filter fun x => x.2 == p := List.mem_filter.2 ⟨hm, by simp⟩
    rw [hy] at m1 m2
    simp at m1 m2
    rw [← m2] at m1
    exact absurd (by rw [m1]) hne
  rcases hsub with hs | hs <;>
  · have := hs.length_le
    rw [← List.countP_eq_length_filter, h1] at this
    simp at this

/-- value level effect of writing through one handle -/
def vwrite (h : Nat) (f : V → V) (l : List (Nat × V)) : List (Nat × V) :=
  l.map fun x => if x.1 = h then (x.1, f x.2) else x

theorem allocate_spec (s : St V) (hi : Inv s) :
    Inv s.allocate.2 ∧ s.allocate.2.handles = s.handles ∧ s.allocate.2.owners s.allocate.1 = 0 ∧
    s.allocate.1 < s.allocate.2.next ∧ ∀ p, p ≠ s.allocate.1 → s.allocate.2.mem p = s.mem p := by
  unfold St.allocate
  cases hp : s.pool with
  | nil =>
    simp only [St.new]
    refine ⟨⟨hi.keys, fun x hx => Nat.lt_succ_of_lt (hi.hlt x hx), by simp [hp], by simp, by simp [hp],
      by simp [hp], by simp [hp], ?_⟩, trivial, ?_, by simp, ?_⟩
    · have := hi.pos
      simp [hi.zero]
    · have hn : s.next ≠ 0 := Nat.pos_iff_ne_zero.1 hi.pos
      simp only [St.owners, hp, List.count_nil, if_neg hn]
      have : s.handles.countP (fun x => x.2 == s.next) = 0 := by
        rw [List.countP_eq_zero]
        intro x hx
        have := hi.hlt x hx
        simp; omega
      omega
    · intro p h
      simp [h]
  | cons q ps =>
    have hnd := hi.poolNodup
    rw [hp, List.nodup_cons] at hnd
    have hq0 : q ≠ 0 := by
      rintro rfl
      exact hi.pool0 (by simp [hp])
    refine ⟨⟨hi.keys, hi.hlt, fun p h => hi.plt p (by simp [hp, h]), hi.pos,
      fun h => hi.pool0 (by simp [hp, h]), hnd.2, fun x hx h => hi.disj x hx (by simp [hp, h]),
      hi.zero⟩, rfl, ?_, hi.plt q (by simp [hp]), fun _ _ => rfl⟩
    simp only [St.owners, if_neg hq0]
    have h1 : s.handles.countP (fun x => x.2 == q) = 0 := by
      rw [List.countP_eq_zero]
      intro x hx
      have := hi.disj x hx
      simp only [beq_iff_eq]
      rintro rfl
      exact this (by simp [hp])
    have h2 := List.count_eq_zero.2 hnd.1
    omega

omit [AddZeroClass V] in
theorem redirect_countP {l : List (Nat × Nat)} {h q : Nat} (hk : (l.map (·.1)).Nodup)
    (hm : h ∈ l.map (·.1)) (hq : ∀ x ∈ l, x.2 ≠ q) :
    (l.map fun x => if x.1 = h then (x.1, q) else x).countP (fun x => x.2 == q) = 1 := by
  have h1 : (l.map fun x => if x.1 = h then (x.1, q) else x).countP (fun x => x.2 == q) =
      (l.map (·.1)).count h := by
    rw [List.countP_map, List.count, List.countP_map]
    apply List.countP_congr
    intro x hx
    have := hq x hx
    by_cases he : x.1 = h <;> simp [he, this]
  rw [h1]
  exact List.count_eq_one_of_mem hk hm

theorem makeMut_spec (s : St V) (hi : Inv s) (h p : Nat) (hm : (h, p) ∈ s.handles) :
    Inv (s.makeMut h p).2 ∧ (h, (s.makeMut h p).1) ∈ (s.makeMut h p).2.handles ∧
    (s.makeMut h p).2.owners (s.makeMut h p).1 = 1 ∧ (s.makeMut h p).2.view = s.view := by
  by_cases ho : s.owners p = 1
  · have : s.makeMut h p = (p, s) := by simp [St.makeMut, ho]
    rw [this]
    exact ⟨hi, hm, ho, rfl⟩
  · obtain ⟨ia, ha, oa, la, ma⟩ := allocate_spec s hi
    generalize hal : s.allocate = al at *
    obtain ⟨q, sA⟩ := al
    simp only at ia ha oa la ma
    obtain ⟨z1, z2, z3⟩ := owners_zero_handles oa
    have hloc : sA.makeMutLocal q = (q, sA) := by simp [St.makeMutLocal, oa]
    have hone : ((sA.store q (sA.mem p)).redirect h q).owners q = 1 := by
      simp only [St.owners, St.redirect, St.store, if_neg z3]
      rw [redirect_countP (h := h) ia.keys (List.mem_map.2 ⟨_, ha ▸ hm, rfl⟩) z1, List.count_eq_zero.2 z2]
    have : s.makeMut h p = (q, (sA.store q (sA.mem p)).redirect h q) := by
      simp only [St.makeMut, hal, if_pos ho, hloc]
      rw [if_pos hone]
    rw [this]
    have hpq : p ≠ q := fun he => z1 (h, p) (ha ▸ hm) he
    refine ⟨⟨?_, ?_, ia.plt, ia.pos, ia.pool0, ia.poolNodup, ?_, ?_⟩, ?_, hone, ?_⟩
    · have : (((sA.store q (sA.mem p)).redirect h q).handles.map (·.1)) = sA.handles.map (·.1) := by
        simp only [St.redirect, St.store, List.map_map]
        apply List.map_congr_left
        intro x _
        simp only [Function.comp]
        split <;> rfl
      rw [this]; exact ia.keys
    · intro x hx
      simp only [St.redirect, St.store] at hx
      obtain ⟨y, hy, rfl⟩ := List.mem_map.1 hx
      show _ < sA.next
      split
      · exact la
      · exact ia.hlt y hy
    · intro x hx
      simp only [St.redirect, St.store] at hx
      obtain ⟨y, hy, rfl⟩ := List.mem_map.1 hx
      show _ ∉ sA.pool
      split
      · exact z2
      · exact ia.disj y hy
    · simp only [St.redirect, St.store, if_neg (Ne.symm z3)]
      exact ia.zero
    · simp only [St.redirect, St.store]
      exact List.mem_map.2 ⟨(h, p), ha ▸ hm, by simp⟩
    · simp only [St.view, St.redirect, St.store, List.map_map, ha]
      apply List.map_congr_left
      intro x hx
      simp only [Function.comp]
      have hxq : x.2 ≠ q := z1 x (ha ▸ hx)
      by_cases he : x.1 = h
      · have : x = (h, p) := keys_inj hi.keys hx hm he
        rw [if_pos he]
        simp [ma p hpq, this]
      · rw [if_neg he]
        simp [hxq, ma _ hxq]

theorem write_spec (s : St V) (hi : Inv s) (h : Nat) (f : V → V) :
    Inv (s.write h f) ∧ (s.write h f).view = vwrite h f s.view := by
  unfold St.write
  cases hp : s.ptr h with
  | none =>
    refine ⟨hi, ?_⟩
    have := ptr_none hp
    simp only [vwrite, St.view, List.map_map]
    apply List.map_congr_left
    intro x hx
    simp [this x hx]
  | some p =>
    obtain ⟨i1, m1, o1, v1⟩ := makeMut_spec s hi h p (ptr_mem hp)
    simp only
    generalize s.makeMut h p = r at *
    obtain ⟨q, s1⟩ := r
    simp only at i1 m1 o1 v1 ⊢
    obtain ⟨u1, u2, u3⟩ := owners_one_handle o1 m1 i1.keys
    refine ⟨⟨i1.keys, i1.hlt, i1.plt, i1.pos, i1.pool0, i1.poolNodup, i1.disj, ?_⟩, ?_⟩
    · simp only [St.store, if_neg (Ne.symm u3)]
      exact i1.zero
    · rw [← v1]
      simp only [vwrite, St.view, St.store, List.map_map]
      apply List.map_congr_left
      intro x hx
      simp only [Function.comp]
      by_cases he : x.1 = h
      · have : x = (h, q) := keys_inj i1.keys hx m1 he
        subst this
        simp
      · have : x.2 ≠ q := fun h2 => he (u1 x hx h2)
        simp [he, this]

omit [AddZeroClass V] in
theorem view_find (s : St V) [Zero V] (h : Nat) :
    (s.view.find? fun x => x.1 == h).map (·.2) = (s.ptr h).map s.mem := by
  simp only [St.view, St.ptr, List.find?_map, Option.map_map]
  rfl


omit [AddZeroClass V] in
theorem lookup_view (s : St V) (h : Nat) : s.view.lookup h = (s.ptr h).map s.mem := by
  unfold St.view St.ptr
  induction s.handles with
  | nil => rfl
  | cons x l ih =>
    by_cases he : x.1 = h
    · subst he; simp
    · have h1 : (h == x.1) = false := by simpa using fun e => he e.symm
      have h2 : (x.1 == h) = false := by simpa using he
      simp [List.lookup_cons, h1, h2, ih]

omit [AddZeroClass V] in
theorem any_view (s : St V) (h : Nat) : s.view.any (fun x => x.1 == h) = (s.ptr h).isSome := by
  unfold St.view St.ptr
  rw [List.any_map, Option.isSome_map, Bool.eq_iff_iff, List.find?_isSome, List.any_eq_true]
  rfl

theorem step_spec (s : St V) (hi : Inv s) (op : Op V) :
    Inv (s.step op) ∧ (s.step op).view = specStep s.view op := by
  cases op with
  | silence h =>
    simp only [St.step, specStep, any_view]
    split
    · exact ⟨hi, rfl⟩
    · rename_i hn
      have hn' : s.ptr h = none := by simpa using hn
      have := ptr_none hn'
      refine ⟨⟨?_, ?_, hi.plt, hi.pos, hi.pool0, hi.poolNodup, ?_, hi.zero⟩, ?_⟩
      · rw [List.map_cons, List.nodup_cons]
        refine ⟨?_, hi.keys⟩
        intro hm
        obtain ⟨x, hx, he⟩ := List.mem_map.1 hm
        exact this x hx he
      · intro x hx
        rcases List.mem_cons.1 hx with rfl | hx
        · exact hi.pos
        · exact hi.hlt x hx
      · intro x hx
        rcases List.mem_cons.1 hx with rfl | hx
        · exact hi.pool0
        · exact hi.disj x hx
      · simp [St.view, hi.zero]
  | clone h k =>
    simp only [St.step, specStep, lookup_view, any_view]
    cases hp : s.ptr h with
    | none => exact ⟨hi, rfl⟩
    | some p =>
      simp only [Option.map_some]
      split
      · exact ⟨hi, rfl⟩
      · rename_i hn
        have hn' : s.ptr k = none := by simpa using hn
        have hk := ptr_none hn'
        have hm := ptr_mem hp
        refine ⟨⟨?_, ?_, hi.plt, hi.pos, hi.pool0, hi.poolNodup, ?_, hi.zero⟩, ?_⟩
        · rw [List.map_cons, List.nodup_cons]
          refine ⟨?_, hi.keys⟩
          intro hm
          obtain ⟨x, hx, he⟩ := List.mem_map.1 hm
          exact hk x hx he
        · intro x hx
          rcases List.mem_cons.1 hx with rfl | hx
          · exact hi.hlt (h, p) hm
          · exact hi.hlt x hx
        · intro x hx
          rcases List.mem_cons.1 hx with rfl | hx
          · exact hi.disj (h, p) hm
          · exact hi.disj x hx
        · simp [St.view]
  | drop h =>
    simp only [St.step, specStep, St.drop]
    cases hp : s.ptr h with
    | none =>
      refine ⟨hi, ?_⟩
      have := ptr_none hp
      rw [eq_comm, List.filter_eq_self]
      intro x hx
      obtain ⟨y, hy, rfl⟩ := List.mem_map.1 hx
      simpa using this y hy
    | some p =>
      have hm := ptr_mem hp
      have hview : (s.handles.filter fun x => x.1 ≠ h).map (fun x => (x.1, s.mem x.2)) =
          s.view.filter fun x => x.1 ≠ h := by
        simp only [St.view, List.filter_map]
        rfl
      have hkeys : ((s.handles.filter fun x => x.1 ≠ h).map (·.1)).Nodup :=
        hi.keys.sublist (List.filter_sublist.map _)
      have hsub : ∀ x ∈ s.handles.filter fun x => x.1 ≠ h, x ∈ s.handles ∧ x.1 ≠ h := by
        intro x hx
        simpa using hx
      by_cases ho : s.owners p = 1
      · obtain ⟨u1, u2, u3⟩ := owners_one_handle ho hm hi.keys
        simp only [if_pos ho]
        refine ⟨⟨hkeys, fun x hx => hi.hlt x (hsub x hx).1, ?_, hi.pos, ?_, ?_, ?_, hi.zero⟩, hview⟩
        · intro q hq
          rcases List.mem_cons.1 hq with rfl | hq
          · exact hi.hlt _ hm
          · exact hi.plt q hq
        · intro h0
          rcases List.mem_cons.1 h0 with h0 | h0
          · exact u3 h0.symm
          · exact hi.pool0 h0
        · exact List.nodup_cons.2 ⟨u2, hi.poolNodup⟩
        · intro x hx hq
          rcases List.mem_cons.1 hq with hq | hq
          · exact (hsub x hx).2 (u1 x (hsub x hx).1 hq)
          · exact hi.disj x (hsub x hx).1 hq
      · simp only [if_neg ho]
        exact ⟨⟨hkeys, fun x hx => hi.hlt x (hsub x hx).1, hi.plt, hi.pos, hi.pool0, hi.poolNodup,
          fun x hx => hi.disj x (hsub x hx).1, hi.zero⟩, hview⟩
  | write h f =>
    obtain ⟨h1, h2⟩ := write_spec s hi h f
    refine ⟨h1, h2.trans ?_⟩
    simp only [vwrite, specStep]
    apply List.map_congr_left
    intro x _
    split <;> simp_all
  | add h k =>
    simp only [St.step, specStep, lookup_view]
    cases hk : s.ptr k with
    | none => cases s.ptr h <;> exact ⟨hi, rfl⟩
    | some q =>
      cases hp : s.ptr h with
      | none =>
        refine ⟨hi, ?_⟩
        simp only [Option.map_some]
        split
        · rfl
        · have := ptr_none hp
          simp only [St.view, List.map_map]
          apply List.map_congr_left
          intro x hx
          simp [this x hx]
      | some p =>
        simp only [Option.map_some]
        split
        · exact ⟨hi, rfl⟩
        · have hm := ptr_mem hp
          have hmk := ptr_mem hk
          split
          · rename_i hp0
            subst hp0
            have hown : s.owners 0 ≠ 1 := by
              intro ho
              exact (owners_one_handle ho hm hi.keys).2.2 rfl
            rw [if_neg hown]
            refine ⟨⟨?_, ?_, hi.plt, hi.pos, hi.pool0, hi.poolNodup, ?_, hi.zero⟩, ?_⟩
            · have : (s.handles.map fun x => if x.1 = h then (x.1, q) else x).map (·.1) =
                  s.handles.map (·.1) := by
                rw [List.map_map]
                apply List.map_congr_left
                intro x _
                simp only [Function.comp]
                split <;> rfl
              simp only [this]; exact hi.keys
            · intro x hx
              obtain ⟨y, hy, rfl⟩ := List.mem_map.1 hx
              split
              · exact hi.hlt (k, q) hmk
              · exact hi.hlt y hy
            · intro x hx
              obtain ⟨y, hy, rfl⟩ := List.mem_map.1 hx
              split
              · exact hi.disj (k, q) hmk
              · exact hi.disj y hy
            · simp only [St.view, List.map_map]
              apply List.map_congr_left
              intro x hx
              by_cases he : x.1 = h
              · have : x = (h, 0) := keys_inj hi.keys hx hm he
                subst this
                simp [hi.zero]
              · simp [he]
          · split
            · obtain ⟨h1, h2⟩ := write_spec s hi h fun v => v + s.mem q
              refine ⟨h1, h2.trans ?_⟩
              simp only [vwrite]
              apply List.map_congr_left
              intro x _
              split <;> simp_all
            · rename_i hq
              have hq : q = 0 := by simpa using hq
              refine ⟨hi, ?_⟩
              rw [eq_comm, hq, hi.zero]
              conv_rhs => rw [← List.map_id s.view]
              apply List.map_congr_left
              intro x _
              split
              · rename_i he
                simp [← he]
              · rfl

theorem init_inv (n : Nat) : Inv (St.init n : St V) := by
  refine ⟨by simp [St.init], by simp [St.init], ?_, by simp [St.init], by simp [St.init], ?_, by simp [St.init],
    rfl⟩
  · intro p hp
    simp [St.init] at hp ⊢
    omega
  · exact List.nodup_range.map fun a b h => by simpa using h

theorem run_spec (s : St V) (hi : Inv s) (ops : List (Op V)) :
    Inv (s.run ops) ∧ (s.run ops).view = ops.foldl specStep s.view := by
  induction ops generalizing s with
  | nil => exact ⟨hi, rfl⟩
  | cons op ops ih =>
    obtain ⟨h1, h2⟩ := step_spec s hi op
    have := ih _ h1
    simp only [St.run, List.foldl_cons] at this ⊢
    rw [← h2]
    exact this

end Verif.Cow
