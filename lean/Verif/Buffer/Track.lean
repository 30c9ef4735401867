import Mathlib.Data.List.Basic
import Mathlib.Data.List.Nodup
import Mathlib.Order.Basic

/-!
# C50: a media stream track and its consumers

Models `MediaStreamTrack` and `MediaStreamTrackIter`, `/repo/src/media_streams/mod.rs` l.45-124. A track
hands the chunks of its provider to any number of iterators; it keeps the latest chunk only. A call of
`next` is atomic in the model: iterators that are polled from different threads at the same time are not
covered. `α` is the type of chunks (a buffer or an error).
-/

namespace Verif.Buffer.Track

variable {α : Type}

/-- `MediaStreamTrackInner`, l.43-48, with the positions of all iterators (`MediaStreamTrackIter`,
l.90-93), which are named by numbers -/
structure St (α : Type) where
  provider : List α
  data : Option α
  position : Nat
  ended : Bool
  iter : Nat → Nat

/-- `MediaStreamTrack::from_iter`, l.51-66. The initial `data` is never seen. -/
def St.new (chunks : List α) : St α := ⟨chunks, none, 0, false, fun _ => 0⟩

/-- `MediaStreamTrackIter::next`, l.98-123 -/
def St.next (s : St α) (i : Nat) : Option α × St α :=
  if s.ended then (none, s)
  else if s.position = s.iter i then
    match s.provider with
    | [] => (none, { s with ended := true })
    | c :: rest =>
      (some c, ⟨rest, some c, s.position + 1, s.ended,
        fun k => if k = i then s.position + 1 else s.iter k⟩)
  else (s.data, { s with iter := fun k => if k = i then s.position else s.iter k })

/-- `MediaStreamTrack::close`, l.84-87 -/
def St.close (s : St α) : St α := { s with provider := [] }

/-- results of polling the iterators in the given order, with the iterator that got them -/
def St.polls (s : St α) : List Nat → List (Nat × Option α) × St α
  | [] => ([], s)
  | i :: is =>
    let (r, s1) := s.next i
    let (rs, s2) := s1.polls is
    ((i, r) :: rs, s2)

/-- what iterator `i` got -/
def got (rs : List (Nat × Option α)) (i : Nat) : List α :=
  rs.filterMap fun x => if x.1 = i then x.2 else none

/-- **C50** The only consumer of a track gets every chunk, in order, and then nothing. -/
theorem C50_single_consumer (chunks : List α) (i n : Nat) :
    ((St.new chunks).polls (List.replicate n i)).1 =
      (List.range n).map fun k => (i, chunks[k]?) := by
  have key : ∀ n (s : St α), s.ended = false → s.iter i = s.position →
      (s.polls (List.replicate n i)).1 = (List.range n).map fun k => (i, s.provider[k]?) := by
    intro n
    induction n with
    | zero => intro s _ _; rfl
    | succ n ih =>
      intro s he hp
      rw [List.replicate_succ, List.range_succ_eq_map, List.map_cons]
      simp only [St.polls, List.map_map]
      cases hpr : s.provider with
      | nil =>
        have hnext : s.next i = (none, { s with ended := true }) := by
          simp [St.next, he, hp, hpr]
        rw [hnext]
        have hend : ∀ m (t : St α), t.ended = true →
            (t.polls (List.replicate m i)).1 = (List.range m).map fun _ => (i, none) := by
          intro m
          induction m with
          | zero => intro t _; rfl
          | succ m ih =>
            intro t ht
            rw [List.replicate_succ, List.range_succ_eq_map, List.map_cons]
            simp only [St.polls, St.next, ht, if_true, List.map_map]
            rw [ih t ht]
            rfl
        rw [hend n _ rfl]
        rfl
      | cons c rest =>
        have hnext : s.next i = (some c, ⟨rest, some c, s.position + 1, s.ended,
            fun k => if k = i then s.position + 1 else s.iter k⟩) := by
          simp [St.next, he, hp, hpr]
        rw [hnext]
        congr 1
        exact ih _ he (if_pos rfl)
  exact key n _ rfl rfl

/-- the rest of a round, after the first consumer has fetched the chunk -/
theorem polls_behind {is : List Nat} (hn : is.Nodup) (s : St α) (he : s.ended = false)
    (hb : ∀ i ∈ is, s.iter i ≠ s.position) :
    (s.polls is).1 = is.map (fun i => (i, s.data)) ∧ (s.polls is).2.ended = false ∧
    (s.polls is).2.provider = s.provider ∧ (s.polls is).2.position = s.position ∧
    ∀ k, (s.polls is).2.iter k = if k ∈ is then s.position else s.iter k := by
  induction is generalizing s with
  | nil => simp [St.polls, he]
  | cons i is ih =>
    rw [List.nodup_cons] at hn
    have hnext : s.next i = (s.data, { s with iter := fun k => if k = i then s.position else s.iter k }) := by
      have := hb i (by simp)
      simp [St.next, he, this.symm]
    simp only [St.polls, hnext]
    have hb' : ∀ k ∈ is, (fun k => if k = i then s.position else s.iter k) k ≠ s.position := by
      intro k hk
      have hki : k ≠ i := by rintro rfl; exact hn.1 hk
      simp only [if_neg hki]
      exact hb k (by simp [hk])
    obtain ⟨h1, h2, h3, h4, h5⟩ := ih (s := { s with iter := fun k => if k = i then s.position else s.iter k })
      hn.2 he hb'
    refine ⟨by rw [h1]; rfl, h2, h3, h4, fun k => ?_⟩
    rw [h5 k]
    by_cases hk : k ∈ is
    · simp [hk]
    · by_cases hki : k = i
      · simp [hki]
      · simp [hk, hki]

/-- **C50** Consumers that are polled equally often, once per round in any order, all get every chunk:
the round after `r` rounds delivers chunk `r` to each of them, or the end. -/
theorem C50_lockstep (chunks : List α) (consumers : List Nat) (hne : consumers ≠ [])
    (rounds : List (List Nat)) (hr : ∀ l ∈ rounds, l.Perm consumers) (hn : consumers.Nodup) :
    ((St.new chunks).polls rounds.flatten).1 =
      ((List.range rounds.length).map fun r => (rounds.getD r []).map fun i => (i, chunks[r]?)).flatten := by
  have append : ∀ (a b : List Nat) (s : St α), (s.polls (a ++ b)) =
      ((s.polls a).1 ++ ((s.polls a).2.polls b).1, ((s.polls a).2.polls b).2) := by
    intro a b
    induction a with
    | nil => intro s; rfl
    | cons i a ih =>
      intro s
      simp only [List.cons_append, St.polls]
      rw [ih]
  -- a stream that has ended delivers nothing
  have hend : ∀ (is : List Nat) (t : St α), t.ended = true →
      (t.polls is).1 = is.map fun i => (i, none) := by
    intro is
    induction is with
    | nil => intro t _; rfl
    | cons i is ih =>
      intro t ht
      simp only [St.polls, St.next, ht, if_true, List.map_cons]
      rw [ih t ht]
  have key : ∀ (rounds : List (List Nat)) (s : St α), (∀ l ∈ rounds, l.Perm consumers) →
      s.ended = false → (∀ i ∈ consumers, s.iter i = s.position) →
      (s.polls rounds.flatten).1 = ((List.range rounds.length).map fun r =>
        (rounds.getD r []).map fun i => (i, s.provider[r]?)).flatten := by
    intro rounds
    induction rounds with
    | nil => intro s _ _ _; rfl
    | cons l rounds ih =>
      intro s hr he hp
      have hl := hr l (by simp)
      obtain ⟨i, is, rfl⟩ : ∃ i is, l = i :: is := by
        cases l with
        | nil => exact absurd hl.symm.eq_nil hne
        | cons i is => exact ⟨i, is, rfl⟩
      have hln : (i :: is).Nodup := hl.nodup_iff.2 hn
      rw [List.nodup_cons] at hln
      have hpi : s.iter i = s.position := hp i (hl.subset (by simp))
      rw [List.flatten_cons, List.length_cons, List.range_succ_eq_map, List.map_cons, List.flatten_cons,
        append]
      cases hpr : s.provider with
      | nil =>
        have hnext : s.next i = (none, { s with ended := true }) := by
          simp [St.next, he, hpi, hpr]
        have hpe : ∀ (is : List Nat) (t : St α), t.ended = true → (t.polls is).2 = t := by
          intro is
          induction is with
          | nil => intro t _; rfl
          | cons i is ih =>
            intro t ht
            simp only [St.polls, St.next, ht, if_true]
            exact ih t ht
        simp only [St.polls, hnext]
        rw [hend is _ rfl, hpe is _ rfl, hend _ _ rfl]
        congr 1
        rw [List.map_map, List.map_flatten]
        congr 1
        apply List.ext_getElem?
        intro k
        simp only [List.getElem?_map]
        by_cases hk : k < rounds.length
        · simp [List.getElem?_range hk, List.getElem?_eq_getElem hk]
        · rw [List.getElem?_eq_none (by omega), List.getElem?_eq_none (by simp; omega)]
          rfl
      | cons c rest =>
        have hnext : s.next i = (some c, ⟨rest, some c, s.position + 1, s.ended,
            fun k => if k = i then s.position + 1 else s.iter k⟩) := by
          simp [St.next, he, hpi, hpr]
        simp only [St.polls, hnext]
        have hb : ∀ k ∈ is, (fun k => if k = i then s.position + 1 else s.iter k) k ≠ s.position + 1 := by
          intro k hk
          have hki : k ≠ i := by rintro rfl; exact hln.1 hk
          have := hp k (hl.subset (by simp [hk]))
          simp only [if_neg hki, this]
          omega
        obtain ⟨h1, h2, h3, h4, h5⟩ := polls_behind (s := ⟨rest, some c, s.position + 1, s.ended,
          fun k => if k = i then s.position + 1 else s.iter k⟩) hln.2 he hb
        rw [h1]
        have hih := ih (s := _) (fun l hl => hr l (by simp [hl])) h2 (fun k hk => by
          rw [h5 k, h4]
          by_cases hkis : k ∈ is
          · simp [hkis]
          · have : k ∈ i :: is := hl.symm.subset hk
            have hki : k = i := by simpa [hkis] using this
            simp [hki])
        rw [hih, h3]
        simp [List.map_map, Function.comp_def]
  exact key rounds _ hr rfl fun _ _ => rfl

/-- **C50** Whatever the order of polling, a consumer gets chunks in the order of the stream and none of
them twice: what it got is a sublist of the chunks. Missing for the full property: that nothing is left
out, see `C50_negated_consumers`. -/
theorem C50_in_order_partial (chunks : List α) (is : List Nat) (i : Nat) :
    (got ((St.new chunks).polls is).1 i).Sublist chunks := by
  have key : ∀ (is : List Nat) (s : St α) (done : List α), chunks = done ++ s.provider →
      s.position = done.length → s.data = done.getLast? → s.iter i ≤ s.position →
      (got (s.polls is).1 i).Sublist (chunks.drop (s.iter i)) := by
    intro is
    induction is with
    | nil => intro s done _ _ _ _; simp [St.polls, got]
    | cons k is ih =>
      intro s done h1 h2 h3 h4
      simp only [St.polls, St.next]
      split
      · -- ended
        simp only [got, List.filterMap_cons, ite_self]
        exact ih s done h1 h2 h3 h4
      · split
        · rename_i hpk
          cases hpr : s.provider with
          | nil =>
            simp only [got, List.filterMap_cons, ite_self]
            have := ih ⟨[], s.data, s.position, true, s.iter⟩ done (by rw [h1, hpr]) h2 h3 h4
            exact this
          | cons c rest =>
            have h1' : chunks = (done ++ [c]) ++ rest := by rw [h1, hpr]; simp
            by_cases hki : k = i
            · subst hki
              have hr := ih ⟨rest, some c, s.position + 1, s.ended,
                fun j => if j = k then s.position + 1 else s.iter j⟩ (done ++ [c]) h1'
                (by simp [h2]) (by simp) (by simp)
              simp only [if_true] at hr
              simp only [got, List.filterMap_cons, if_true]
              have hd : chunks.drop (s.iter k) = c :: rest := by
                rw [← hpk, h1, hpr, h2, List.drop_left]
              rw [hd]
              refine List.Sublist.cons_cons c ?_
              have : chunks.drop (s.position + 1) = rest := by
                rw [h1', h2, show done.length + 1 = (done ++ [c]).length by simp, List.drop_left]
              rw [this] at hr
              exact hr
            · have hr := ih ⟨rest, some c, s.position + 1, s.ended,
                fun j => if j = k then s.position + 1 else s.iter j⟩ (done ++ [c]) h1'
                (by simp [h2]) (by simp) (by simp only [if_neg (Ne.symm hki)]; omega)
              simp only [if_neg (Ne.symm hki)] at hr
              simp only [got, List.filterMap_cons, if_neg hki]
              exact hr
        · rename_i hpk
          by_cases hki : k = i
          · subst hki
            have hr := ih { s with iter := fun j => if j = k then s.position else s.iter j } done h1 h2 h3
              (by simp)
            simp only [if_true] at hr
            have hlt : s.iter k < done.length := by omega
            obtain ⟨c, hc⟩ : ∃ c, done.getLast? = some c := by
              cases hd : done.getLast? with
              | none =>
                rw [List.getLast?_eq_none_iff] at hd
                simp [hd] at hlt
              | some c => exact ⟨c, rfl⟩
            have hdat : s.data = some c := h3.trans hc
            have hfm : ∀ t : List (Nat × Option α), got ((k, s.data) :: t) k = c :: got t k := by
              intro t
              simp [got, hdat]
            rw [hfm]
            obtain ⟨ini, rfl⟩ : ∃ ini, done = ini ++ [c] := by
              rw [List.getLast?_eq_some_iff] at hc
              exact hc
            have hsplit : chunks.drop (s.iter k) = (ini.drop (s.iter k)) ++ (c :: chunks.drop s.position) := by
              simp only [List.length_append, List.length_singleton] at hlt h2
              rw [h1, List.append_assoc, List.drop_append_of_le_length (by omega)]
              congr 1
              rw [h2, ← List.append_assoc,
                show ini.length + 1 = (ini ++ [c]).length by simp, List.drop_left]
              rfl
            rw [hsplit]
            exact (List.Sublist.cons_cons c hr).trans (List.sublist_append_right _ _)
          · have hr := ih { s with iter := fun j => if j = k then s.position else s.iter j } done h1 h2 h3
              (by simp only [if_neg (Ne.symm hki)]; exact h4)
            simp only [if_neg (Ne.symm hki)] at hr
            simp only [got, List.filterMap_cons, if_neg hki]
            exact hr
  have := key is (St.new chunks) [] rfl rfl rfl (Nat.zero_le _)
  simpa [St.new] using this

/-- **C50** After `close` a consumer gets at most the latest chunk, if it has not seen it yet, whatever the order of
polling; and the track has ended as soon as some consumer has been polled twice. -/
theorem C50_close (s : St α) (is : List Nat) (i : Nat) :
    (got (s.close.polls is).1 i = [] ∨
      s.iter i ≠ s.position ∧ s.data.isSome ∧ got (s.close.polls is).1 i = s.data.toList) ∧
    (2 ≤ is.count i → (s.close.polls is).2.ended = true) := by
  have hend : ∀ (is : List Nat) (t : St α), t.ended = true → got (t.polls is).1 i = [] ∧ (t.polls is).2.ended = true := by
    intro is
    induction is with
    | nil => intro t h; exact ⟨rfl, h⟩
    | cons k is ih =>
      intro t h
      simp only [St.polls, St.next, h, if_true]
      refine ⟨?_, (ih t h).2⟩
      simp only [got, List.filterMap_cons, ite_self]
      exact (ih t h).1
  have key : ∀ (is : List Nat) (t : St α), t.provider = [] →
      (got (t.polls is).1 i = [] ∨
        t.iter i ≠ t.position ∧ t.data.isSome ∧ got (t.polls is).1 i = t.data.toList) ∧
      (2 ≤ is.count i ∨ (1 ≤ is.count i ∧ t.iter i = t.position) → (t.polls is).2.ended = true) := by
    intro is
    induction is with
    | nil => intro t _; exact ⟨.inl rfl, by simp⟩
    | cons k is ih =>
      intro t hp
      by_cases he : t.ended = true
      · exact ⟨.inl (hend _ t he).1, fun _ => (hend _ t he).2⟩
      · by_cases hk : t.position = t.iter k
        · have hn : t.next k = (none, { t with ended := true }) := by simp [St.next, he, hk, hp]
          simp only [St.polls, hn]
          refine ⟨.inl ?_, fun _ => (hend is _ rfl).2⟩
          simp only [got, List.filterMap_cons, ite_self]
          exact (hend is _ rfl).1
        · have hn : t.next k = (t.data, { t with iter := fun j => if j = k then t.position else t.iter j }) := by
            simp [St.next, he, hk]
          simp only [St.polls, hn]
          have h := ih { t with iter := fun j => if j = k then t.position else t.iter j } hp
          by_cases hki : k = i
          · subst hki
            simp only [if_true, ne_eq, not_true_eq_false, false_and, or_false] at h
            refine ⟨?_, fun hc => h.2 ?_⟩
            · cases hd : t.data with
              | none =>
                left
                rw [hd] at h
                simp only [got, List.filterMap_cons, if_true]
                exact h.1
              | some c =>
                right
                refine ⟨fun e => hk e.symm, rfl, ?_⟩
                rw [hd] at h
                simp only [got, List.filterMap_cons, if_true, Option.toList_some]
                exact congrArg (c :: ·) h.1
            · rw [List.count_cons_self] at hc
              rcases hc with hc | hc
              · exact .inr ⟨by omega, trivial⟩
              · exact absurd hc.2.symm hk
          · simp only [if_neg (Ne.symm hki)] at h
            rw [List.count_cons_of_ne hki]
            refine ⟨?_, h.2⟩
            have : ∀ r : List (Nat × Option α), got ((k, t.data) :: r) i = got r i := by
              intro r; simp [got, hki]
            rw [this]
            exact h.1
  have h := key is s.close rfl
  exact ⟨h.1, fun hc => h.2 (.inl hc)⟩

/-- A consumer that is behind still gets the latest chunk. -/
example : got ((((St.new [10, 20, 30]).polls [0]).2.close).polls [1, 1, 0]).1 1 = [10] := by decide +kernel

/-- **C50** negated: a consumer that needs two chunks at once makes another consumer of the same track
miss the first of them; and the consumer that reaches the end first takes the last chunk from the
other. -/
theorem C50_negated_consumers :
    got ((St.new [10, 20, 30]).polls [0, 0, 1, 1, 0]).1 1 = [20, 30] ∧
    got ((St.new [10, 20, 30]).polls [0, 1, 0, 1, 0, 0, 1]).1 1 = [10, 20] := by decide +kernel

example : ((St.new [10, 20]).polls (List.replicate 3 0)).1 = [(0, some 10), (0, some 20), (0, none)] := by
  decide +kernel
example : ((St.new [10]).polls [[0, 1], [1, 0]].flatten).1 =
    [(0, some 10), (1, some 10), (1, none), (0, none)] := by decide +kernel

end Verif.Buffer.Track
