import Verif.Mix.Props

/-!
# C13 for all speaker layouts

`C13_sum_partial` is about mono and stereo. Here any numbers of channels, when the number of channels of the input does
not change on the way (mode `explicit`, or the first connection has the most channels) and no two channels that are not
silent share their memory, as with the merger of `C13_negated_fast_path`.
-/

namespace Verif.Mix

variable {K : Type} [Field K]

/-- every channel that is not silent has its own memory -/
def Own (bufs : List (List (Chan K))) : Prop :=
  (bufs.flatten.map (·.ptr)).Pairwise fun p q => p = q → p = 0

/-- the channels 0 and 2 are not the same, unless silent -/
def Apart (cs : List (Chan K)) : Prop :=
  ∀ a b, cs[0]? = some a → cs[2]? = some b → a.ptr = b.ptr → a.ptr = 0

theorem own_apart {cs : List (Chan K)} (h : Own [cs]) : Apart cs := by
  intro a b ha hb he
  rcases cs with _ | ⟨a', _ | ⟨c, _ | ⟨b', cs⟩⟩⟩
  · simp at ha
  · simp at hb
  · simp at hb
  · simp at ha hb
    subst ha hb
    simp [Own] at h
    exact h.1.2.1 he

theorem own_identical {a : Chan K} {as : List (Chan K)} (h : Own [a :: as]) (hi : identical (a :: as) = true) :
    a.ptr = 0 ∨ as = [] := by
  cases as with
  | nil => exact .inr rfl
  | cons b as =>
    left
    simp only [identical, List.all_cons, Bool.and_eq_true, beq_iff_eq] at hi
    simp [Own] at h
    exact h.1.1 hi.1.symm

theorem own_mem {bufs : List (List (Chan K))} (h : Own bufs) {o : List (Chan K)} (ho : o ∈ bufs) : Own [o] := by
  unfold Own at h ⊢
  refine h.sublist (List.Sublist.map _ ?_)
  simpa using List.sublist_flatten_of_mem ho

theorem own_last {l : List (List (Chan K))} {o : List (Chan K)} (h : Own (l ++ [o])) {x : List (Chan K)} (hx : x ∈ l)
    {c d : Chan K} (hc : c ∈ x) (hd : d ∈ o) (he : c.ptr = d.ptr) : c.ptr = 0 := by
  unfold Own at h
  rw [List.flatten_append, List.map_append, List.pairwise_append] at h
  refine h.2.2 c.ptr (List.mem_map.2 ⟨c, List.mem_flatten.2 ⟨x, hx, hc⟩, rfl⟩) d.ptr
    (List.mem_map.2 ⟨d, by simpa using hd, rfl⟩) he

/-- Where the channels of a buffer come from: silence, a set `S` of addresses, or new ones from `n` on. -/
def From (S : Nat → Prop) (n n' : Nat) (cs : List (Chan K)) : Prop :=
  n ≤ n' ∧ ∀ c ∈ cs, c.ptr = 0 ∨ S c.ptr ∨ (n ≤ c.ptr ∧ c.ptr < n')

/-- the addresses of a buffer -/
def At (cs : List (Chan K)) (p : Nat) : Prop := ∃ c ∈ cs, c.ptr = p

theorem fill_from (n : Nat) (cs : List (Chan K)) (m : Nat) : From (At cs) n n (fill cs m) := by
  refine ⟨le_rfl, fun c hc => ?_⟩
  rcases List.mem_append.1 (List.mem_of_mem_take hc) with h | h
  · exact .inr (.inl ⟨c, h, rfl⟩)
  · rw [List.eq_of_mem_replicate h]; exact .inl rfl

theorem fill_apart {cs : List (Chan K)} (h : Apart cs) (m : Nat) : Apart (fill cs m) := by
  intro a b ha hb he
  have hget : ∀ (j : Nat) (c : Chan K), (fill cs m)[j]? = some c → cs[j]? = some c ∨ c.ptr = 0 := by
    intro j c hj
    simp only [fill, List.getElem?_take] at hj
    split at hj
    · by_cases h2 : j < cs.length
      · rw [List.getElem?_append_left h2] at hj
        exact .inl hj
      · rw [List.getElem?_append_right (by omega)] at hj
        have := List.mem_of_getElem? hj
        rw [List.eq_of_mem_replicate this]
        exact .inr rfl
    · cases hj
  rcases hget 0 a ha with h1 | h1
  · rcases hget 2 b hb with h2 | h2
    · exact h a b h1 h2 he
    · rw [he, h2]
  · exact h1

theorem mix_from (r : K) (n : Nat) (cs : List (Chan K)) (m : Nat) (interp : Interp) :
    From (At cs) n (mix r n cs m interp).2 (mix r n cs m interp).1 := by
  unfold mix
  split
  · exact ⟨le_rfl, fun c hc => .inr (.inl ⟨c, hc, rfl⟩)⟩
  unfold mixInner
  split
  · exact fill_from n cs m
  split
  case h_14 => exact fill_from n _ _
  all_goals
    refine ⟨by omega, ?_⟩
    simp [At, zero]

theorem mix_apart (r : K) (n : Nat) (cs : List (Chan K)) (m : Nat) (interp : Interp) (ha : Apart cs)
    (hn : ∀ c ∈ cs, c.ptr < n) : Apart (mix r n cs m interp).1 := by
  unfold mix
  split
  · exact ha
  unfold mixInner
  split
  · exact fill_apart ha m
  split
  case h_14 => exact fill_apart ha _
  all_goals
    intro a b h1 h2 he
    simp at h1 h2
  all_goals
    subst h1 h2
    simp only [zero] at he ⊢
  all_goals first
    | exact he
    | rfl
    | skip
  have := hn _ (List.mem_cons_of_mem _ (List.mem_cons_of_mem _ (List.mem_cons_of_mem _ (List.mem_cons_of_mem _
    (List.mem_cons_self)))))
  omega

theorem addChans_from {S : Nat → Prop} {n : Nat} {as bs : List (Chan K)}
    (ha : ∀ c ∈ as, c.ptr = 0 ∨ S c.ptr) (hb : ∀ c ∈ bs, c.ptr = 0 ∨ S c.ptr) :
    From S n (addChans n as bs).2 (addChans n as bs).1 := by
  induction as generalizing n bs with
  | nil => exact ⟨le_rfl, fun c hc => (ha c hc).imp_right .inl⟩
  | cons a as ih =>
    cases bs with
    | nil => exact ⟨le_rfl, fun c hc => (ha c hc).imp_right .inl⟩
    | cons b bs =>
      have h1 : n ≤ (Chan.add n a b).2 ∧ ((Chan.add n a b).1.ptr = 0 ∨ S (Chan.add n a b).1.ptr ∨
          (n ≤ (Chan.add n a b).1.ptr ∧ (Chan.add n a b).1.ptr < (Chan.add n a b).2)) := by
        unfold Chan.add
        split
        · exact ⟨le_rfl, (hb b (by simp)).imp_right .inl⟩
        split
        · exact ⟨le_rfl, (ha a (by simp)).imp_right .inl⟩
        · exact ⟨by simp, .inr (.inr ⟨le_rfl, by simp⟩)⟩
      obtain ⟨h2, h3⟩ := ih (n := (Chan.add n a b).2) (bs := bs) (fun c hc => ha c (by simp [hc]))
        fun c hc => hb c (by simp [hc])
      refine ⟨h1.1.trans h2, fun c hc => ?_⟩
      simp only [addChans, List.mem_cons] at hc ⊢
      rcases hc with rfl | hc
      · rcases h1.2 with h | h | h
        · exact .inl h
        · exact .inr (.inl h)
        · exact .inr (.inr ⟨h.1, h.2.trans_le h2⟩)
      · rcases h3 c hc with h | h | h
        · exact .inl h
        · exact .inr (.inl h)
        · exact .inr (.inr ⟨h1.1.trans h.1, h.2⟩)

theorem chanAdd_cases (n : Nat) (a b : Chan K) :
    n ≤ (Chan.add n a b).2 ∧ ((Chan.add n a b).1 = a ∨ (Chan.add n a b).1 = b ∨
      ((Chan.add n a b).1.ptr = n ∧ (Chan.add n a b).2 = n + 1)) := by
  unfold Chan.add
  split
  · exact ⟨le_rfl, .inr (.inl rfl)⟩
  split
  · exact ⟨le_rfl, .inl rfl⟩
  · exact ⟨by simp, .inr (.inr ⟨rfl, rfl⟩)⟩

theorem addChans_apart {n : Nat} {as bs : List (Chan K)} (ha : Apart as) (hb : Apart bs)
    (hl : as.length = bs.length) (hna : ∀ c ∈ as, c.ptr < n) (hnb : ∀ c ∈ bs, c.ptr < n)
    (hab : ∀ c ∈ as, ∀ d ∈ bs, c.ptr = d.ptr → c.ptr = 0) : Apart (addChans n as bs).1 := by
  rcases as with _ | ⟨a0, _ | ⟨a1, _ | ⟨a2, as⟩⟩⟩ <;> rcases bs with _ | ⟨b0, _ | ⟨b1, _ | ⟨b2, bs⟩⟩⟩ <;>
    simp at hl
  · exact ha
  · intro a b h1 h2; simp [addChans] at h2
  · intro a b h1 h2; simp [addChans] at h2
  · intro a b h1 h2 he
    simp only [addChans, List.getElem?_cons_zero, Option.some.injEq] at h1
    simp only [addChans, List.getElem?_cons_succ, List.getElem?_cons_zero, Option.some.injEq] at h2
    subst h1 h2
    obtain ⟨k0, c0⟩ := chanAdd_cases n a0 b0
    obtain ⟨k1, -⟩ := chanAdd_cases (Chan.add n a0 b0).2 a1 b1
    obtain ⟨k2, c2⟩ := chanAdd_cases (Chan.add (Chan.add n a0 b0).2 a1 b1).2 a2 b2
    have ma0 := hna a0 (by simp)
    have mb0 := hnb b0 (by simp)
    have ma2 := hna a2 (by simp)
    have mb2 := hnb b2 (by simp)
    have x1 := ha a0 a2 rfl rfl
    have x2 := hb b0 b2 rfl rfl
    have x3 := hab a0 (by simp) b2 (by simp)
    have x4 := hab a2 (by simp) b0 (by simp)
    rcases c0 with c0 | c0 | ⟨c0, d0⟩ <;> rcases c2 with c2 | c2 | ⟨c2, d2⟩
    · rw [c0, c2] at he; rw [c0]; exact x1 he
    · rw [c0, c2] at he; rw [c0]; exact x3 he
    · rw [c0, c2] at he; omega
    · rw [c0, c2] at he; rw [c0, he]; exact x4 he.symm
    · rw [c0, c2] at he; rw [c0]; exact x2 he
    · rw [c0, c2] at he; omega
    · rw [c0, c2] at he; omega
    · rw [c0, c2] at he; omega
    · rw [c0, c2] at he; omega

/-- for the fast path: only the first channel counts -/
def First (r : K) (m i : Nat) (cs : List (Chan K)) : Prop :=
  ∀ a as, cs = a :: as → mixF r .speakers m (frame cs i) = mixF r .speakers m [a.data i]

theorem add_frame_first {H : Nat → Nat → K} {n : Nat} (h0 : H 0 = fun _ => 0) (hn : 0 < n)
    (r : K) (mode : Mode) (count : Nat) (interp : Interp) {self other : List (Chan K)}
    (hs : Con H n self) (ho : Con H n other) (hs1 : self ≠ []) (ho1 : other ≠ []) (i : Nat)
    (hfast : Fast interp self other →
      First r (newCount mode count self.length other.length) i self ∧
      First r (newCount mode count self.length other.length) i other) :
    frame (add r mode count interp n self other).1 i =
      List.zipWith (· + ·)
        (mixF r interp (newCount mode count self.length other.length) (frame self i))
        (mixF r interp (newCount mode count self.length other.length) (frame other i)) := by
  unfold add
  by_cases hf : Fast interp self other
  · obtain ⟨ha, hb⟩ := hfast hf
    obtain ⟨rfl, h1, h2⟩ := hf
    rw [if_pos (by simp [h1, h2])]
    cases self with
    | nil => exact absurd rfl hs1
    | cons a as => cases other with
      | nil => exact absurd rfl ho1
      | cons b bs =>
        simp only
        rw [mix_frame, ha a as rfl, hb b bs rfl, ← mixF_add _ _ _ _ _ (by simp)]
        simp only [frame, List.map_cons, List.map_nil, List.zipWith_cons_cons, List.zipWith_nil_right]
        rw [chanAdd_data h0 (hs a (by simp)).2 (ho b (by simp)).2]
  · rw [if_neg (by simpa [Fast, and_assoc] using hf)]
    simp only
    obtain ⟨H1, e1, c1⟩ := mix_con h0 hn r
      (newCount mode count self.length other.length) interp hs
    have h01 : H1 0 = fun _ => 0 := by rw [e1.2 0 hn, h0]
    have hn1 := lt_of_lt_of_le hn e1.1
    obtain ⟨H2, e2, c2⟩ := mix_con h01 hn1 r
      (newCount mode count self.length other.length) interp (ho.ext e1)
    have h02 : H2 0 = fun _ => 0 := by rw [e2.2 0 hn1, h01]
    rw [addChans_frame h02 (by rw [mix_length, mix_length]) (fun c hc => ((c1.ext e2) c hc).2)
      (fun c hc => (c2 c hc).2), mix_frame, mix_frame]

theorem first_silent {H : Nat → Nat → K} {n : Nat} (h0 : H 0 = fun _ => 0) (r : K) (m i : Nat) {a : Chan K}
    {as : List (Chan K)} (h : Con H n (a :: as)) (hi : identical (a :: as) = true) (hz : a.ptr = 0) :
    First r m i (a :: as) := by
  intro b bs hb
  have ha : a.data i = 0 := by rw [(h a (by simp)).2, hz, h0]
  obtain ⟨rfl, rfl⟩ := List.cons.inj hb
  rw [identical_frame h hi, ha, mixF_zeros]
  exact (mixF_zeros r .speakers 1 m).symm

theorem first_one (r : K) (m i : Nat) (a : Chan K) : First r m i [a] := by
  intro b bs hb
  obtain ⟨rfl, rfl⟩ := List.cons.inj hb
  rfl

theorem first_two {H : Nat → Nat → K} {n : Nat} (r : K) (i : Nat) {a b : Chan K}
    (h : Con H n [a, b]) (hi : identical [a, b] = true) : First r 2 i [a, b] := by
  intro c cs hc
  obtain ⟨rfl, rfl⟩ := List.cons.inj hc
  rw [identical_frame h hi]
  simp [mixF, codeMatrix, dot, List.replicate, List.range_succ]

/-- What is kept while connections are added: the sum so far is apart, and its addresses are new or from the connections
before. -/
structure Kept (n : Nat) (l : List (List (Chan K))) (s : List (Chan K) × Nat) : Prop where
  le : n ≤ s.2
  apart : Apart s.1
  lt : ∀ c ∈ s.1, c.ptr < s.2
  source : ∀ c ∈ s.1, c.ptr = 0 ∨ (∃ o ∈ l, At o c.ptr) ∨ n ≤ c.ptr

theorem one_apart (c : Chan K) : Apart [c] := by intro a b _ h; simp at h

theorem add_kept (r : K) (mode : Mode) (count : Nat) (interp : Interp) {n : Nat} (hn : 0 < n)
    {l : List (List (Chan K))} {o : List (Chan K)} (hown : Own (l ++ [o])) (ho : ∀ c ∈ o, c.ptr < n)
    {s : List (Chan K) × Nat} (hk : Kept n l s) : Kept n (l ++ [o]) (add r mode count interp s.2 s.1 o) := by
  have src : ∀ p, (p = 0 ∨ (∃ x ∈ l, At x p) ∨ n ≤ p) ∨ At o p → p = 0 ∨ (∃ x ∈ l ++ [o], At x p) ∨ n ≤ p := by
    rintro p ((h | ⟨x, hx, h⟩ | h) | h)
    · exact .inl h
    · exact .inr (.inl ⟨x, by simp [hx], h⟩)
    · exact .inr (.inr h)
    · exact .inr (.inl ⟨o, by simp, h⟩)
  have oo : Own [o] := own_mem hown (by simp)
  unfold add
  simp only
  split
  · split
    · rename_i a as b bs _ _
      generalize hm : newCount mode count _ _ = m
      clear hm
      obtain ⟨k0, c0⟩ := chanAdd_cases s.2 a b
      rename_i hs _
      have hsa : a ∈ s.1 := by rw [hs]; simp
      have hc : ((Chan.add s.2 a b).1.ptr = 0 ∨ (∃ x ∈ l ++ [b :: bs], At x (Chan.add s.2 a b).1.ptr) ∨
          n ≤ (Chan.add s.2 a b).1.ptr) ∧ (Chan.add s.2 a b).1.ptr < (Chan.add s.2 a b).2 := by
        rcases c0 with c0 | c0 | ⟨c0, d0⟩
        · rw [c0]; exact ⟨src _ (.inl (hk.source a hsa)), (hk.lt a hsa).trans_le k0⟩
        · rw [c0]
          exact ⟨src _ (.inr ⟨b, by simp, rfl⟩), ((ho b (by simp)).trans_le hk.le).trans_le k0⟩
        · rw [c0, d0]; exact ⟨.inr (.inr hk.le), by omega⟩
      generalize Chan.add s.2 a b = c at k0 hc
      have hf := mix_from r c.2 [c.1] m interp
      refine ⟨(hk.le.trans k0).trans hf.1, mix_apart r c.2 [c.1] m interp (one_apart _) ?_, ?_, ?_⟩
      · intro d hd
        rw [List.mem_singleton] at hd
        rw [hd]; exact hc.2
      · intro d hd
        rcases hf.2 d hd with h | ⟨e, he, h⟩ | h
        · have := hf.1; have := hk.le; omega
        · rw [List.mem_singleton] at he
          subst he
          rw [← h]; exact hc.2.trans_le hf.1
        · exact h.2
      · intro d hd
        rcases hf.2 d hd with h | ⟨e, he, h⟩ | h
        · exact .inl h
        · rw [List.mem_singleton] at he
          subst he
          rw [← h]; exact hc.1
        · exact .inr (.inr ((hk.le.trans k0).trans h.1))
    · exact ⟨hk.le, hk.apart, hk.lt, fun c hc => src _ (.inl (hk.source c hc))⟩
  · generalize newCount mode count _ _ = m
    have f1 := mix_from r s.2 s.1 m interp
    have l1 := mix_length r s.2 s.1 m interp
    have a1 := mix_apart r s.2 s.1 m interp hk.apart hk.lt
    generalize mix r s.2 s.1 m interp = p1 at f1 a1 l1
    have f2 := mix_from r p1.2 o m interp
    have l2 := mix_length r p1.2 o m interp
    have hop : ∀ c ∈ o, c.ptr < p1.2 := fun c hc => ((ho c hc).trans_le hk.le).trans_le f1.1
    have a2 := mix_apart r p1.2 o m interp (own_apart oo) hop
    generalize mix r p1.2 o m interp = p2 at f2 a2 l2
    have lt1 : ∀ c ∈ p1.1, c.ptr < p1.2 := by
      intro c hc
      rcases f1.2 c hc with h | ⟨d, hd, h⟩ | h
      · have := hk.le; have := f1.1; omega
      · rw [← h]; exact (hk.lt d hd).trans_le f1.1
      · exact h.2
    have lt2 : ∀ c ∈ p2.1, c.ptr < p2.2 := by
      intro c hc
      rcases f2.2 c hc with h | ⟨d, hd, h⟩ | h
      · have := hk.le; have := f1.1; have := f2.1; omega
      · rw [← h]; exact (hop d hd).trans_le f2.1
      · exact h.2
    have src1 : ∀ c ∈ p1.1, c.ptr = 0 ∨ (∃ x ∈ l, At x c.ptr) ∨ n ≤ c.ptr := by
      intro c hc
      rcases f1.2 c hc with h | ⟨d, hd, h⟩ | h
      · exact .inl h
      · rw [← h]; exact hk.source d hd
      · exact .inr (.inr (hk.le.trans h.1))
    have dis : ∀ c ∈ p1.1, ∀ d ∈ p2.1, c.ptr = d.ptr → c.ptr = 0 := by
      intro c hc d hd he
      rcases f2.2 d hd with h | ⟨e, he', h⟩ | h
      · rw [he, h]
      · rcases src1 c hc with g | ⟨x, hx, y, hy, g⟩ | g
        · exact g
        · rw [← g]
          exact own_last hown hx hy he' (by rw [g, he, h])
        · have := ho e he'
          omega
      · have := lt1 c hc
        omega
    have hf := addChans_from (S := fun p => At p1.1 p ∨ At p2.1 p) (n := p2.2) (as := p1.1) (bs := p2.1)
      (fun c hc => .inr (.inl ⟨c, hc, rfl⟩)) (fun c hc => .inr (.inr ⟨c, hc, rfl⟩))
    have ha := addChans_apart (n := p2.2) a1 a2 (by rw [l1, l2]) (fun c hc => (lt1 c hc).trans_le f2.1) lt2 dis
    refine ⟨((hk.le.trans f1.1).trans f2.1).trans hf.1, ha, ?_, ?_⟩
    · intro c hc
      rcases hf.2 c hc with h | (⟨d, hd, h⟩ | ⟨d, hd, h⟩) | h
      · have := hk.le; have := f1.1; have := f2.1; have := hf.1; omega
      · rw [← h]; exact ((lt1 d hd).trans_le f2.1).trans_le hf.1
      · rw [← h]; exact (lt2 d hd).trans_le hf.1
      · exact h.2
    · intro c hc
      rcases hf.2 c hc with h | (⟨d, hd, h⟩ | ⟨d, hd, h⟩) | h
      · exact .inl h
      · rw [← h]; exact src _ (.inl (src1 d hd))
      · rw [← h]
        rcases f2.2 d hd with g | g | g
        · exact .inl g
        · exact src _ (.inr g)
        · exact .inr (.inr ((hk.le.trans f1.1).trans g.1))
      · exact .inr (.inr (((hk.le.trans f1.1).trans f2.1).trans h.1))

/-- the number of channels of the sum stays `m` -/
def Constant (mode : Mode) (count : Nat) (bufs : List (List (Chan K))) : Prop :=
  mode = .explicit ∨ ∀ a l, bufs = a :: l → ∀ o ∈ l, o.length ≤ a.length

theorem constant_target {mode : Mode} {count : Nat} {l : List (List (Chan K))} {o : List (Chan K)} (hl : l ≠ [])
    (h : Constant mode count (l ++ [o])) :
    Constant mode count l ∧ target mode count ((l ++ [o]).map List.length) = target mode count (l.map List.length) ∧
    newCount mode count (target mode count (l.map List.length)) o.length = target mode count (l.map List.length) := by
  obtain ⟨a, l', rfl⟩ := List.exists_cons_of_ne_nil hl
  refine ⟨h.imp_right fun h => fun b k hb x hx => ?_, ?_⟩
  · obtain ⟨rfl, rfl⟩ := List.cons.inj hb
    exact h a (l' ++ [o]) rfl x (by simp [hx])
  · rcases h with rfl | h
    · exact ⟨rfl, rfl⟩
    · have ho := h a (l' ++ [o]) rfl o (by simp)
      have hm : o.length ≤ ((a :: l').map List.length).foldl Nat.max 1 :=
        ho.trans (mem_le_foldl_max _ _ _ (by simp))
      have e : ((a :: l' ++ [o]).map List.length).foldl Nat.max 1 = ((a :: l').map List.length).foldl Nat.max 1 := by
        rw [List.map_append, List.map_singleton, foldl_max_append]
        exact Nat.max_eq_left hm
      cases mode with
      | explicit => exact ⟨rfl, rfl⟩
      | max => exact ⟨e, Nat.max_eq_left hm⟩
      | clampedMax =>
        simp only [target, newCount, e]
        refine ⟨trivial, ?_⟩
        generalize ((a :: l').map List.length).foldl Nat.max 1 = M at hm
        simp only [Nat.max_def, Nat.min_def]
        grind

theorem sum_frame_layouts {H : Nat → Nat → K} {n : Nat} (h0 : H 0 = fun _ => 0) (hn : 0 < n)
    (r : K) (mode : Mode) (count : Nat) (hc : 0 < count) (others : List (List (Chan K)))
    (hcon : ∀ o ∈ others, Con H n o) (hne : ∀ o ∈ others, o ≠ [])
    (hk : Constant mode count others) (hown : Own others) (hnil : others ≠ []) (i : Nat) :
    frame (sumInto r mode count .speakers n others).1 i =
      vsum (target mode count (others.map List.length))
        (others.map fun o => mixF r .speakers (target mode count (others.map List.length)) (frame o i)) := by
  have key : ∀ l : List (List (Chan K)), (∀ o ∈ l, Con H n o) → (∀ o ∈ l, o ≠ []) →
      Constant mode count l → Own l →
      let T := if l = [] then 1 else target mode count (l.map List.length)
      (∃ H', Ext H n H' (sumInto r mode count .speakers n l).2 ∧
        Con H' (sumInto r mode count .speakers n l).2 (sumInto r mode count .speakers n l).1) ∧
      (sumInto r mode count .speakers n l).1.length = T ∧
      (l = [] → (sumInto r mode count .speakers n l).1 = [zero]) ∧
      Kept n l (sumInto r mode count .speakers n l) ∧
      frame (sumInto r mode count .speakers n l).1 i =
        vsum T (l.map fun o => mixF r .speakers T (frame o i)) := by
    intro l
    induction l using List.reverseRecOn with
    | nil =>
      intro _ _ _ _
      refine ⟨⟨H, Ext.refl _ _, ?_⟩, rfl, fun _ => rfl, ⟨le_rfl, one_apart _, ?_, ?_⟩, ?_⟩
      · simp [sumInto, con_cons, con_nil, zero, hn, h0]
      · simp [sumInto, zero, hn]
      · simp [sumInto, zero]
      · simp [sumInto, frame, zero, vsum]
    | append_singleton l o ih =>
      intro h1 h2 h3 h4
      have h3' : Constant mode count l := by
        by_cases hl : l = []
        · subst hl
          exact .inr fun a k hk => by cases hk
        · exact (constant_target hl h3).1
      have h4' : Own l := by
        unfold Own at h4 ⊢
        rw [List.flatten_append, List.map_append, List.pairwise_append] at h4
        exact h4.1
      obtain ⟨⟨H1, e1, c1⟩, l1, z1, k1, f1⟩ := ih (fun o ho => h1 o (by simp [ho]))
        (fun o ho => h2 o (by simp [ho])) h3' h4'
      have hstep : sumInto r mode count .speakers n (l ++ [o]) =
          add r mode count .speakers (sumInto r mode count .speakers n l).2
            (sumInto r mode count .speakers n l).1 o := by
        simp [sumInto]
      rw [hstep]
      simp only [List.append_eq_nil_iff, List.cons_ne_self, and_false, if_false]
      generalize sumInto r mode count .speakers n l = acc at *
      have ho : Con H1 acc.2 o := (h1 o (by simp)).ext e1
      have h01 : H1 0 = fun _ => 0 := by rw [e1.2 0 hn, h0]
      have hn1 := lt_of_lt_of_le hn e1.1
      obtain ⟨H2, e2, c2⟩ := add_con h01 hn1 r mode count .speakers c1 ho
      have hT : newCount mode count acc.1.length o.length = target mode count ((l ++ [o]).map List.length) := by
        by_cases hl : l = []
        · subst hl; rw [l1]; cases mode <;> rfl
        · rw [l1, if_neg hl, (constant_target hl h3).2.1, (constant_target hl h3).2.2]
      have hTpos : 0 < target mode count ((l ++ [o]).map List.length) := by
        have hp := le_foldl_max ((l ++ [o]).map List.length) 1
        cases mode with
        | max => exact hp
        | clampedMax =>
          simp only [target, Nat.min_def]
          split <;> omega
        | explicit => exact hc
      have hlen : l ≠ [] → acc.1.length = target mode count ((l ++ [o]).map List.length) := by
        intro hl
        rw [l1, if_neg hl, (constant_target hl h3).2.1]
      have hacc : acc.1 ≠ [] := by
        by_cases hl : l = []
        · rw [z1 hl]; simp
        · intro he
          have := hlen hl
          rw [he] at this
          simp only [List.length_nil] at this
          omega
      have hfr := add_frame_first h01 hn1 r mode count .speakers c1 ho hacc (h2 o (by simp)) i (by
        rintro ⟨-, hi1, hi2⟩
        rw [hT]
        constructor
        · by_cases hl : l = []
          · rw [z1 hl]; exact first_one r _ i _
          · obtain ⟨a, as, ha⟩ := List.exists_cons_of_ne_nil hacc
            have hap := k1.apart
            rw [← hlen hl]
            rw [ha] at hi1 c1 hap ⊢
            rcases as with _ | ⟨b, _ | ⟨c, as⟩⟩
            · exact first_one r _ i a
            · exact first_two r i c1 hi1
            · refine first_silent h01 r _ i c1 hi1 (hap a c rfl rfl ?_)
              simp only [identical, List.all_cons, Bool.and_eq_true, beq_iff_eq] at hi1
              exact hi1.2.1.symm
        · obtain ⟨a, as, ha⟩ := List.exists_cons_of_ne_nil (h2 o (by simp))
          have oo : Own [o] := own_mem h4 (by simp)
          rw [ha] at hi2 ho oo ⊢
          rcases own_identical oo hi2 with hz | rfl
          · exact first_silent h01 r _ i ho hi2 hz
          · exact first_one r _ i a)
      rw [hT] at hfr
      refine ⟨⟨H2, e1.trans e2, c2⟩, ?_, by simp, add_kept r mode count .speakers hn h4
        (fun c hc => (h1 o (by simp) c hc).1) k1, ?_⟩
      · rw [← frame_length _ i, hfr]
        simp [mixF_length]
      · have hTT : l ≠ [] → target mode count (l.map List.length) = target mode count ((l ++ [o]).map List.length) :=
          fun hl => (constant_target hl h3).2.1.symm
        generalize target mode count ((l ++ [o]).map List.length) = T at hfr hTT
        rw [hfr, List.map_append, List.map_singleton, vsum_append_singleton (mixF_length _ _ _ _)]
        congr 1
        by_cases hl : l = []
        · subst hl
          rw [z1 rfl, List.map_nil, vsum_nil]
          exact mixF_zeros r .speakers 1 _
        · rw [f1, if_neg hl, ← hTT hl]
          have := mixF_self r .speakers (vsum (target mode count (l.map List.length))
            (l.map fun o => mixF r .speakers (target mode count (l.map List.length)) (frame o i)))
          rwa [vsum_length] at this
  have := (key others hcon hne hk hown).2.2.2.2
  rwa [if_neg hnil] at this

/-- **C13, all speaker layouts.** The input of a node with speakers interpretation is the specified sum, for any numbers
of channels of the connected signals, if the mode is `explicit` or the signal that comes first has the most channels, if
no two channels share memory unless they are silent, and if four channels are not brought to five (`C12_negated`). What is
missing from the full property is false: see `C13_negated_fast_path`, `C13_negated_order`. -/
theorem C13_layouts_partial (r : K) (mode : Mode) (count : Nat) (hcount : 0 < count) (next : Nat)
    (bufs : List (List (Chan K))) (hmem : Memory next bufs) (hne : bufs ≠ []) (hch : ∀ o ∈ bufs, o ≠ [])
    (hfirst : mode = .explicit ∨ ∀ a l, bufs = a :: l → ∀ o ∈ l, o.length ≤ a.length)
    (hown : (bufs.flatten.map (·.ptr)).Pairwise fun p q => p = q → p = 0)
    (h45 : ∀ o ∈ bufs, ¬ (o.length = 4 ∧ computedChannels mode count (bufs.map List.length) = 5)) (i : Nat) :
    samplesAt (sumInto r mode count .speakers next bufs).1 i =
      specSum r mode count .speakers (bufs.map fun o => samplesAt o i) := by
  obtain ⟨H, h0, hcon⟩ := memory_con hmem
  have h := sum_frame_layouts h0 hmem.1 r mode count hcount bufs hcon hch hfirst hown hne i
  have hlen : (bufs.map fun o => samplesAt o i).map List.length = bufs.map List.length := by
    simp [samplesAt, Function.comp_def]
  have hT : computedChannels mode count (bufs.map List.length) =
      target mode count (bufs.map List.length) := by cases mode <;> rfl
  show frame _ i = _
  rw [h]
  simp only [specSum, hlen, hT, vsum, List.map_map]
  apply List.map_congr_left
  intro j _
  congr 1
  apply List.map_congr_left
  intro o ho
  simp only [Function.comp]
  rw [w3cMix_eq]
  · rfl
  · intro _
    rw [← hT]
    simpa [samplesAt] using h45 o ho

/-- A mono, a quad and a 5.1 signal into the destination of a 5.1 device. -/
example (i : Nat) :
    let bufs : List (List (Chan ℚ)) := [[⟨1, fun i => i⟩], [⟨2, fun _ => 1⟩, ⟨3, fun _ => 2⟩, ⟨4, fun _ => 3⟩, zero],
      [⟨5, fun _ => 10⟩, ⟨6, fun _ => 20⟩, zero, ⟨7, fun _ => 30⟩, zero, ⟨8, fun _ => 40⟩]]
    samplesAt (sumInto (7 / 10 : ℚ) .explicit 6 .speakers 9 bufs).1 i = [11, 22, i, 30, 3, 40] := by
  intro bufs
  rw [C13_layouts_partial _ _ _ (by omega) 9 bufs ⟨by omega, by simp [bufs, zero], by simp [bufs, zero]⟩
    (by simp [bufs]) (by simp [bufs]) (.inl rfl) (by simp [bufs, zero]) (by simp [bufs, computedChannels])]
  simp [specSum, bufs, samplesAt, computedChannels, w3cMix, w3cMatrix, rowTimes, List.range_succ, zero]
  norm_num

end Verif.Mix
