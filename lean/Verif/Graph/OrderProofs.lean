import Verif.Graph.OrderModel
import Mathlib.Logic.Relation
import Mathlib.Data.List.Chain
import Mathlib.Data.List.Nodup
import Mathlib.Data.List.TakeWhile

/-! Helper lemmas for the ordering model. The property theorems are in `OrderProps.lean`. -/

namespace Verif.Graph

open Relation

/-- Connection `u → v` of the graph. -/
def Topo.Edge (g : Topo) (u v : Nat) : Prop := u ∈ g.keys ∧ v ∈ g.succ u

/-- Node `n` lies on a cycle of connections. -/
def Topo.OnCycle (g : Topo) (n : Nat) : Prop := TransGen g.Edge n n

/-- All connections point to live nodes. -/
def Topo.Closed (g : Topo) : Prop := ∀ n ∈ g.keys, ∀ m ∈ g.succ n, m ∈ g.keys

structure Inv (g : Topo) (st : Dfs) : Prop where
  nodupO : st.ordered.Nodup
  nodupT : st.temp.Nodup
  mark : ∀ n, n ∈ st.marked ↔ n ∈ st.ordered ∨ n ∈ st.temp
  disj : ∀ n, n ∈ st.ordered → n ∉ st.temp
  keys : ∀ n ∈ st.marked, n ∈ g.keys
  chain : st.temp.IsChain g.Edge
  done : ∀ u pre post, st.ordered = pre ++ u :: post → ∀ v ∈ g.succ u, v ∈ pre ∨ u ∈ st.inCycle
  cyc : ∀ n ∈ st.inCycle, g.OnCycle n
  nobr : st.breakers = []

/-- number of nodes still to be visited -/
def unmarked (g : Topo) (st : Dfs) : Nat := (g.keys.filter (· ∉ st.marked)).length

/-- growth of the state along a traversal -/
structure Grow (st st' : Dfs) : Prop where
  temp : st'.temp = st.temp
  ord : st.ordered <+: st'.ordered
  cyc : ∀ n ∈ st.inCycle, n ∈ st'.inCycle
  mark : ∀ n ∈ st.marked, n ∈ st'.marked

theorem Grow.refl (st : Dfs) : Grow st st := ⟨rfl, List.prefix_refl _, fun _ h => h, fun _ h => h⟩

theorem Grow.trans {a b c : Dfs} (h : Grow a b) (h' : Grow b c) : Grow a c :=
  ⟨h'.temp.trans h.temp, h.ord.trans h'.ord, fun n hn => h'.cyc n (h.cyc n hn),
   fun n hn => h'.mark n (h.mark n hn)⟩

/-- the edge from the top of the stack to `n` has been dealt with -/
def Handled (st : Dfs) (n : Nat) : Prop :=
  n ∈ st.ordered ∨ (n ∈ st.temp ∧ ∀ x ∈ st.temp.getLast?, x ∈ st.inCycle)

theorem Handled.mono {a b : Dfs} (h : Grow a b) {n : Nat} (hn : Handled a n) : Handled b n := by
  rcases hn with hn | ⟨h1, h2⟩
  · exact Or.inl (h.ord.subset hn)
  · exact Or.inr ⟨by rw [h.temp]; exact h1, by rw [h.temp]; exact fun x hx => h.cyc x (h2 x hx)⟩

def PostT (g : Topo) (st' : Dfs) : Prop :=
  ∃ b, st'.breakers = [b] ∧ g.breaker b = true ∧ g.OnCycle b

theorem unmarked_mono {g : Topo} {a b : Dfs} (h : Grow a b) : unmarked g b ≤ unmarked g a := by
  unfold unmarked
  apply List.Sublist.length_le
  apply List.monotone_filter_right
  intro x hx
  simp only [decide_not, Bool.not_eq_eq_eq_not, Bool.not_true, decide_eq_false_iff_not] at hx ⊢
  exact fun hm => hx (h.mark x hm)

theorem chain_path {E : Nat → Nat → Prop} : ∀ (l : List Nat) (n x : Nat), (n :: l).IsChain E →
    x ∈ l → TransGen E n x := by
  intro l
  induction l with
  | nil => simp
  | cons a l ih =>
    intro n x h hx
    rw [List.isChain_cons_cons] at h
    rcases List.mem_cons.1 hx with rfl | hx
    · exact TransGen.single h.1
    · exact TransGen.head h.1 (ih a x h.2 hx)

theorem chain_path_last {E : Nat → Nat → Prop} : ∀ (l : List Nat) (n x y : Nat),
    (n :: l).IsChain E → x ∈ n :: l → (n :: l).getLast? = some y → ReflTransGen E x y := by
  intro l
  induction l with
  | nil => 
    intro n x y _ hx hy
    simp at hx hy
    subst hx; subst hy; exact ReflTransGen.refl
  | cons a l ih =>
    intro n x y h hx hy
    have hl : (a :: l).getLast? = some y := by simpa using hy
    rw [List.isChain_cons_cons] at h
    rcases List.mem_cons.1 hx with rfl | hx
    · exact ReflTransGen.head h.1 (ih a a y h.2 (List.mem_cons_self) hl)
    · exact ih a x y h.2 hx hl

/-- a back edge to a node on the DFS stack closes a cycle through the whole stack segment -/
theorem backEdge_cycle {E : Nat → Nat → Prop} (t : List Nat) (n : Nat) (hn : n ∈ t)
    (hc : t.IsChain E) (hl : ∀ x ∈ t.getLast?, E x n) :
    ∀ x ∈ t.dropWhile (· ≠ n), TransGen E x x := by
  obtain ⟨tl, htl⟩ : ∃ tl, t.dropWhile (· ≠ n) = n :: tl := by
    induction t with
    | nil => simp at hn
    | cons a t ih =>
      by_cases h : a = n
      · subst h; exact ⟨t, by simp⟩
      · have hn' : n ∈ t := by
          rcases List.mem_cons.1 hn with h' | h'
          · exact absurd h'.symm h
          · exact h'
        have hne : t ≠ [] := List.ne_nil_of_mem hn'
        obtain ⟨tl, htl⟩ := ih hn' (List.IsChain.tail hc) (by
          intro x hx; apply hl
          cases t with
          | nil => exact absurd rfl hne
          | cons b t => simpa using hx)
        exact ⟨tl, by rw [List.dropWhile_cons_of_pos (by simpa using h)]; exact htl⟩
  have hsuf : t.dropWhile (· ≠ n) <:+ t := List.dropWhile_suffix _
  obtain ⟨pre, hpre⟩ := hsuf
  rw [htl] at hpre
  have hc' : (n :: tl).IsChain E := by
    rw [← hpre] at hc
    exact hc.right_of_append
  obtain ⟨y, hy⟩ : ∃ y, (n :: tl).getLast? = some y := by
    cases h : (n :: tl).getLast? with
    | none => simp at h
    | some y => exact ⟨y, rfl⟩
  have hty : t.getLast? = some y := by
    rw [← hpre, List.getLast?_append, hy]; rfl
  have hyn : E y n := hl y (by rw [hty]; rfl)
  intro x hx
  rw [htl] at hx
  have h1 := chain_path_last tl n x y hc' hx hy
  rcases List.mem_cons.1 hx with rfl | hx'
  · exact TransGen.tail' h1 hyn
  · exact (TransGen.tail' h1 hyn).trans (chain_path tl n x hc' hx')

theorem done_append {g : Topo} {o : List Nat} {ic : List Nat} {n : Nat}
    (h : ∀ u pre post, o = pre ++ u :: post → ∀ v ∈ g.succ u, v ∈ pre ∨ u ∈ ic)
    (hn : ∀ v ∈ g.succ n, v ∈ o ∨ n ∈ ic) :
    ∀ u pre post, o ++ [n] = pre ++ u :: post → ∀ v ∈ g.succ u, v ∈ pre ∨ u ∈ ic := by
  intro u pre post heq v hv
  rcases List.eq_nil_or_concat post with rfl | ⟨post', x, rfl⟩
  · have h' := List.append_inj' heq rfl
    obtain ⟨h1, h2⟩ := h'
    simp at h2
    subst h2; subst h1
    exact hn v hv
  · have heq' : o ++ [n] = (pre ++ u :: post') ++ [x] := by simpa using heq
    have h' := List.append_inj' heq' rfl
    exact h u pre post' h'.1 v hv

/-- Specification of `visit` with fuel `f`. -/
def VisitSpec (g : Topo) (rec : Nat → Dfs → Res (Bool × Dfs)) (f : Nat) : Prop :=
  ∀ n st, Inv g st → n ∈ g.keys → (∀ x ∈ st.temp.getLast?, g.Edge x n) → unmarked g st < f →
    (∃ st', rec n st = .ok (false, st') ∧ Inv g st' ∧ Grow st st' ∧ Handled st' n) ∨
    (∃ st', rec n st = .ok (true, st') ∧ PostT g st')

theorem visitList_spec {g : Topo} {rec : Nat → Dfs → Res (Bool × Dfs)} {f : Nat}
    (hrec : VisitSpec g rec f) : ∀ (es : List Nat) (st : Dfs), Inv g st →
    (∀ e ∈ es, e ∈ g.keys) → (∀ e ∈ es, ∀ x ∈ st.temp.getLast?, g.Edge x e) → unmarked g st < f →
    (∃ st', visitList rec es st = .ok (false, st') ∧ Inv g st' ∧ Grow st st' ∧
      ∀ e ∈ es, Handled st' e) ∨
    (∃ st', visitList rec es st = .ok (true, st') ∧ PostT g st') := by
  intro es
  induction es with
  | nil => 
    intro st hi _ _ _
    exact Or.inl ⟨st, rfl, hi, Grow.refl st, by simp⟩
  | cons e es ih =>
    intro st hi hk he hf
    rcases hrec e st hi (hk e (by simp)) (he e (by simp)) hf with
      ⟨st1, h1, hi1, hg1, hh1⟩ | ⟨st1, h1, hp⟩
    · have := ih st1 hi1 (fun x hx => hk x (by simp [hx]))
        (fun x hx => by rw [hg1.temp]; exact he x (by simp [hx]))
        (lt_of_le_of_lt (unmarked_mono hg1) hf)
      rcases this with ⟨st2, h2, hi2, hg2, hh2⟩ | ⟨st2, h2, hp⟩
      · refine Or.inl ⟨st2, by simp [visitList, h1, h2], hi2, hg1.trans hg2, ?_⟩
        intro x hx
        rcases List.mem_cons.1 hx with rfl | hx
        · exact hh1.mono hg2
        · exact hh2 x hx
      · exact Or.inr ⟨st2, by simp [visitList, h1, h2], hp⟩
    · exact Or.inr ⟨st1, by simp [visitList, h1], hp⟩

theorem unmarked_push {g : Topo} {st : Dfs} {n : Nat} (hn : n ∈ g.keys) (hm : n ∉ st.marked) 
    (t : List Nat) :
    unmarked g { st with marked := st.marked ++ [n], temp := t } < unmarked g st := by
  unfold unmarked
  simp only
  have h2 : (g.keys.filter (· ∉ st.marked ++ [n])).length
      < (g.keys.filter (· ∉ st.marked)).length := by
    have : (g.keys.filter (· ∉ st.marked ++ [n]))
        = (g.keys.filter (· ∉ st.marked)).filter (· ≠ n) := by
      rw [List.filter_filter]
      congr 1
      funext x
      simp [Bool.and_comm]
    rw [this]
    rw [List.length_filter_lt_length_iff_exists]
    exact ⟨n, by simp [hn, hm], by simp⟩
  exact h2

theorem visit_spec {g : Topo} (hcl : g.Closed) : ∀ f, VisitSpec g (visit g f) f := by
  intro f
  induction f with
  | zero => intro n st _ _ _ h; exact absurd h (Nat.not_lt_zero _)
  | succ f ih =>
    intro n st hi hk hl hf
    by_cases hT : n ∈ st.temp
    · have hcy := backEdge_cycle st.temp n hT hi.chain hl
      cases hfind : (st.temp.dropWhile (· ≠ n)).find? g.breaker with
      | some b =>
        right
        refine ⟨{ st with breakers := st.breakers ++ [b] }, ?_, b, ?_, ?_, ?_⟩
        · simp only [visit, hT, if_true, hfind]
        · simp [hi.nobr]
        · exact List.find?_some hfind
        · exact hcy b (List.mem_of_find?_eq_some hfind)
      | none =>
        left
        refine ⟨{ st with inCycle := st.inCycle ++ st.temp.dropWhile (· ≠ n) }, ?_, ?_, ?_, ?_⟩
        · simp only [visit, hT, if_true, hfind]
        · refine { hi with done := ?_, cyc := ?_ }
          · intro u pre post h v hv
            rcases hi.done u pre post h v hv with h' | h'
            · exact Or.inl h'
            · exact Or.inr (List.mem_append.2 (Or.inl h'))
          · intro x hx
            rcases List.mem_append.1 hx with h' | h'
            · exact hi.cyc x h'
            · exact hcy x h'
        · exact ⟨rfl, List.prefix_refl _, fun x hx => List.mem_append.2 (Or.inl hx), fun _ h => h⟩
        · right
          refine ⟨hT, ?_⟩
          intro x hx
          refine List.mem_append.2 (Or.inr ?_)
          -- the last element of the stack is in the segment
          have hsuf : st.temp.dropWhile (· ≠ n) <:+ st.temp := List.dropWhile_suffix _
          obtain ⟨pre, hpre⟩ := hsuf
          have hne : st.temp.dropWhile (· ≠ n) ≠ [] := by
            intro h
            have := (List.dropWhile_eq_nil_iff.1 h) n hT
            simp at this
          have hx' : st.temp.getLast? = some x := by simpa using hx
          rw [← hpre, List.getLast?_append] at hx'
          cases hh : (st.temp.dropWhile (· ≠ n)).getLast? with
          | none => rw [List.getLast?_eq_none_iff] at hh; exact absurd hh hne
          | some y =>
            rw [hh] at hx'
            simp at hx'
            subst hx'
            exact List.mem_of_getLast? hh
    · by_cases hM : n ∈ st.marked
      · left
        refine ⟨st, by simp [visit, hT, hM], hi, Grow.refl st, ?_⟩
        rcases (hi.mark n).1 hM with h | h
        · exact Or.inl h
        · exact absurd h hT
      · -- fresh node
        have hO : n ∉ st.ordered := fun h => hM ((hi.mark n).2 (Or.inl h))
        set st1 : Dfs := { st with marked := st.marked ++ [n], temp := st.temp ++ [n] } with hst1
        have hi1 : Inv g st1 := by
          refine ⟨hi.nodupO, ?_, ?_, ?_, ?_, ?_, hi.done, hi.cyc, hi.nobr⟩
          · simp only [hst1]
            rw [List.nodup_append]
            refine ⟨hi.nodupT, by simp, ?_⟩
            intro a ha b hb hab
            simp at hb
            subst hb; subst hab; exact hT ha
          · intro x
            simp only [hst1, List.mem_append, List.mem_singleton, hi.mark x]
            tauto
          · intro x hx
            simp only [hst1, List.mem_append, List.mem_singleton]
            rintro (h | rfl)
            · exact hi.disj x hx h
            · exact hO hx
          · intro x hx
            simp only [hst1, List.mem_append, List.mem_singleton] at hx
            rcases hx with h | rfl
            · exact hi.keys x h
            · exact hk
          · simp only [hst1]
            rw [List.isChain_append]
            refine ⟨hi.chain, List.isChain_singleton _, ?_⟩
            intro x hx y hy
            simp at hy
            subst hy
            exact hl x hx
        have hlast : st1.temp.getLast? = some n := by simp [hst1]
        have hf1 : unmarked g st1 < f := by
          have := unmarked_push hk hM (st.temp ++ [n])
          have h2 : unmarked g st1 < unmarked g st := this
          omega
        have hv := visitList_spec ih (g.succ n) st1 hi1 (fun e he => hcl n hk e he)
          (fun e he x hx => by rw [hlast] at hx; simp at hx; subst hx; exact ⟨hk, he⟩) hf1
        rcases hv with ⟨st2, h2, hi2, hg2, hh2⟩ | ⟨st2, h2, hp⟩
        · left
          have htemp2 : st2.temp = st.temp ++ [n] := hg2.temp
          have hflt : st2.temp.filter (· ≠ n) = st.temp := by
            rw [htemp2, List.filter_append]
            have h1 : st.temp.filter (· ≠ n) = st.temp := by
              rw [List.filter_eq_self]
              intro a ha
              simp
              rintro rfl
              exact hT ha
            rw [h1]; simp
          have hn2 : n ∈ st2.temp := by rw [htemp2]; simp
          have hnO2 : n ∉ st2.ordered := fun h => hi2.disj n h hn2
          refine ⟨{ st2 with ordered := st2.ordered ++ [n], temp := st2.temp.filter (· ≠ n) },
            ?_, ?_, ?_, ?_⟩
          · simp only [visit, hT, hM, hk, if_false, if_true]
            rw [← hst1, h2]
          · refine ⟨?_, ?_, ?_, ?_, hi2.keys, ?_, ?_, hi2.cyc, hi2.nobr⟩
            · rw [List.nodup_append]
              refine ⟨hi2.nodupO, by simp, ?_⟩
              intro a ha b hb hab
              simp at hb
              subst hb; subst hab; exact hnO2 ha
            · rw [hflt]; exact hi.nodupT
            · intro x
              rw [hi2.mark x]
              show _ ↔ x ∈ st2.ordered ++ [n] ∨ x ∈ st2.temp.filter (· ≠ n)
              rw [hflt, htemp2, List.mem_append, List.mem_append, List.mem_singleton]
              tauto
            · intro x hx
              simp only [hflt]
              rcases List.mem_append.1 hx with h | h
              · intro hx'
                apply hi2.disj x h
                rw [htemp2]; simp [hx']
              · simp at h; subst h; exact hT
            · simp only [hflt]; exact hi.chain
            · apply done_append hi2.done
              intro v hv
              rcases hh2 v hv with h | ⟨_, h⟩
              · exact Or.inl h
              · right
                apply h n
                rw [htemp2]; simp
          · refine ⟨hflt, ?_, hg2.cyc, ?_⟩
            · exact hg2.ord.trans (List.prefix_append _ _)
            · intro x hx
              apply hg2.mark
              simp [hst1, hx]
          · left; simp
        · right
          refine ⟨st2, ?_, hp⟩
          simp only [visit, hT, hM, hk, if_false, if_true]
          rw [← hst1, h2]

theorem inv_empty (g : Topo) : Inv g {} := by
  refine ⟨by simp, by simp, by simp, by simp, by simp, by simp, ?_, by simp, rfl⟩
  intro u pre post h
  simp at h

/-- Result of one pass of the ordering loop. -/
theorem orderPass_spec {g : Topo} (hcl : g.Closed) :
    (∃ st, orderPass g = .ok (false, st) ∧ Inv g st ∧ st.temp = [] ∧
      ∀ n, n ∈ st.ordered ↔ n ∈ g.keys) ∨
    (∃ st, orderPass g = .ok (true, st) ∧ PostT g st) := by
  have hf : unmarked g {} < g.keys.length + 1 := by
    unfold unmarked
    exact Nat.lt_succ_of_le (List.length_filter_le _ _)
  have hv := visitList_spec (visit_spec hcl (g.keys.length + 1)) g.keys {} (inv_empty g)
    (fun _ h => h) (by simp) hf
  rcases hv with ⟨st, h, hi, hg, hh⟩ | ⟨st, h, hp⟩
  · left
    have ht : st.temp = [] := hg.temp
    refine ⟨st, h, hi, ht, ?_⟩
    intro n
    constructor
    · intro hn
      exact hi.keys n ((hi.mark n).2 (Or.inl hn))
    · intro hn
      rcases hh n hn with h' | ⟨h', _⟩
      · exact h'
      · rw [ht] at h'; simp at h'
  · exact Or.inr ⟨st, h, hp⟩

/-- `g'` arises from `g` by clearing the outgoing edges of some cycle breakers on cycles of `g`. -/
structure CutAtBreakers (g g' : Topo) : Prop where
  keys : g'.keys = g.keys
  breaker : g'.breaker = g.breaker
  succ : ∀ n ∈ g.keys, g'.succ n = g.succ n ∨
    (g'.succ n = [] ∧ g.breaker n = true ∧ g.OnCycle n)

theorem CutAtBreakers.refl (g : Topo) : CutAtBreakers g g := ⟨rfl, rfl, fun _ _ => Or.inl rfl⟩

theorem CutAtBreakers.edge {g g' : Topo} (h : CutAtBreakers g g') {u v : Nat}
    (he : g'.Edge u v) : g.Edge u v := by
  obtain ⟨h1, h2⟩ := he
  rw [h.keys] at h1
  refine ⟨h1, ?_⟩
  rcases h.succ u h1 with h' | ⟨h', _⟩
  · rwa [h'] at h2
  · rw [h'] at h2; simp at h2

theorem CutAtBreakers.onCycle {g g' : Topo} (h : CutAtBreakers g g') {u : Nat}
    (he : g'.OnCycle u) : g.OnCycle u :=
  TransGen.mono (r := g'.Edge) (p := g.Edge) (fun _ _ h' => h.edge h') u u he

theorem CutAtBreakers.trans {g g' g'' : Topo} (h : CutAtBreakers g g')
    (h' : CutAtBreakers g' g'') : CutAtBreakers g g'' := by
  refine ⟨h'.keys.trans h.keys, h'.breaker.trans h.breaker, ?_⟩
  intro n hn
  rcases h'.succ n (by rw [h.keys]; exact hn) with h1 | ⟨h1, h2, h3⟩
  · rw [h1]; exact h.succ n hn
  · exact Or.inr ⟨h1, by rw [← h.breaker]; exact h2, h.onCycle h3⟩

theorem onCycle_succ_ne {g : Topo} {b : Nat} (h : g.OnCycle b) : b ∈ g.keys ∧ g.succ b ≠ [] := by
  obtain ⟨c, hc, _⟩ := (TransGen.head'_iff).1 h
  exact ⟨hc.1, List.ne_nil_of_mem hc.2⟩

theorem edgeCount_clear {g : Topo} {b : Nat} (h : g.OnCycle b) :
    edgeCount (clearEdges g [b]) < edgeCount g := by
  obtain ⟨hk, hne⟩ := onCycle_succ_ne h
  unfold edgeCount clearEdges
  simp only [List.mem_singleton]
  have hle : ∀ l : List Nat, (l.map fun n => (if n = b then [] else g.succ n).length).sum
      ≤ (l.map fun n => (g.succ n).length).sum := by
    intro l
    induction l with
    | nil => simp
    | cons a l ih =>
      simp only [List.map_cons, List.sum_cons]
      split
      · simp only [List.length_nil]; omega
      · omega
  have : ∀ l : List Nat, b ∈ l →
      (l.map fun n => (if n = b then [] else g.succ n).length).sum
        < (l.map fun n => (g.succ n).length).sum := by
    intro l
    induction l with
    | nil => simp
    | cons a l ih =>
      intro hb
      simp only [List.map_cons, List.sum_cons]
      by_cases hab : a = b
      · subst hab
        have h1 := hle l
        have h2 : 0 < (g.succ a).length := List.length_pos_of_ne_nil hne
        simp only [if_true, List.length_nil]
        omega
      · have hb' : b ∈ l := by
          rcases List.mem_cons.1 hb with h' | h'
          · exact absurd h'.symm hab
          · exact h'
        have := ih hb'
        simp only [hab, if_false]
        omega
  exact this g.keys hk

theorem cut_clear {g : Topo} {b : Nat} (h : g.OnCycle b) (hb : g.breaker b = true) :
    CutAtBreakers g (clearEdges g [b]) := by
  refine ⟨rfl, rfl, ?_⟩
  intro n _
  simp only [clearEdges, List.mem_singleton]
  by_cases hn : n = b
  · subst hn; right; simp [h, hb]
  · left; simp [hn]

theorem CutAtBreakers.closed {g g' : Topo} (h : CutAtBreakers g g') (hcl : g.Closed) :
    g'.Closed := by
  intro n hn m hm
  have := h.edge ⟨hn, hm⟩
  rw [h.keys]
  exact hcl n this.1 m this.2

theorem orderLoop_spec : ∀ (k : Nat) (g : Topo), g.Closed → edgeCount g < k →
    ∃ g' st, orderLoop k g = .ok (g', st) ∧ CutAtBreakers g g' ∧ Inv g' st ∧
      ∀ n, n ∈ st.ordered ↔ n ∈ g.keys := by
  intro k
  induction k with
  | zero => intro g _ h; exact absurd h (Nat.not_lt_zero _)
  | succ k ih =>
    intro g hcl hk
    rcases orderPass_spec hcl with ⟨st, h, hi, _, ho⟩ | ⟨st, h, b, hb1, hb2, hb3⟩
    · exact ⟨g, st, by simp [orderLoop, h], CutAtBreakers.refl g, hi, ho⟩
    · have hcut := cut_clear hb3 hb2
      obtain ⟨g', st', h1, h2, h3, h4⟩ := ih (clearEdges g [b]) (hcut.closed hcl)
        (by have := edgeCount_clear hb3; omega)
      exact ⟨g', st', by simp [orderLoop, h, hb1, h1], hcut.trans h2, h3, h4⟩

/-- Index-free "u occurs before v" for duplicate free lists. -/
def Before (l : List Nat) (u v : Nat) : Prop := ∃ p q r, l = p ++ u :: q ++ v :: r

theorem orderNodes_spec (g : Topo) (hcl : g.Closed) :
    ∃ g' order, orderNodes g = .ok (g', order) ∧ CutAtBreakers g g' ∧ order.Nodup ∧
      (∀ n ∈ order, n ∈ g.keys) ∧
      (∀ n ∈ g.keys, n ∉ order → g'.OnCycle n) ∧
      (∀ u ∈ order, ∀ v ∈ order, g'.Edge u v → Before order u v) := by
  obtain ⟨g', st, h1, h2, h3, h4⟩ := orderLoop_spec (edgeCount g + 1) g hcl (Nat.lt_succ_self _)
  refine ⟨g', (st.ordered.filter (· ∉ st.inCycle)).reverse, by simp [orderNodes, h1], h2, ?_, ?_,
    ?_, ?_⟩
  · rw [List.nodup_reverse]; exact h3.nodupO.filter _
  · intro n hn
    rw [List.mem_reverse, List.mem_filter] at hn
    exact (h4 n).1 hn.1
  · intro n hn hno
    apply h3.cyc
    by_contra hc
    apply hno
    rw [List.mem_reverse, List.mem_filter]
    exact ⟨(h4 n).2 hn, by simpa using hc⟩
  · intro u hu v hv he
    rw [List.mem_reverse, List.mem_filter] at hu hv
    obtain ⟨hu1, hu2⟩ := hu
    have hu2' : u ∉ st.inCycle := by simpa using hu2
    obtain ⟨pre, post, hpp⟩ := List.append_of_mem hu1
    have hvp : v ∈ pre := by
      rcases h3.done u pre post hpp v he.2 with h | h
      · exact h
      · exact absurd h hu2'
    obtain ⟨a, b, hab⟩ := List.append_of_mem hvp
    refine ⟨(post.filter (· ∉ st.inCycle)).reverse, (b.filter (· ∉ st.inCycle)).reverse,
      (a.filter (· ∉ st.inCycle)).reverse, ?_⟩
    rw [hpp, hab]
    have hu3 : decide (u ∉ st.inCycle) = true := hu2
    simp only [List.filter_append, List.filter_cons, hv.2, hu3, if_true, List.reverse_append,
      List.reverse_cons, List.append_assoc, List.cons_append,
      List.nil_append]

end Verif.Graph
