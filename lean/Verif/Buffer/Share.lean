import Mathlib.Data.List.Basic
import Mathlib.Data.List.Count
import Mathlib.Data.List.Nodup
import Mathlib.Algebra.Group.Int.Defs

/-!
# C48: cloned `AudioBuffer`s are isolated

Models the sharing of channel data between `AudioBuffer`s: `ChannelData`, `/repo/src/buffer.rs`
l.366-419, is an `Arc<Vec<f32>>` that is cloned by reference and written through `Arc::make_mut`.

Memory is a function from addresses to vectors of samples. A buffer is a list of addresses, one per
channel; different channels may share an address (`AudioBuffer::new`, l.86-91, clones one silent
channel). `Arc::strong_count` is the number of channels that have the address. `Arc::new` yields an
address that is not in use. An operation is atomic: buffers may be owned by several threads, but an `Arc`
that is unique cannot be cloned by somebody else while its owner writes (`&mut`), so that operations on
different threads take effect one after the other.

The primitive operations are those on a single channel. `copy_to_channel_with_offset` (l.197-214) and
`get_channel_data_mut` (l.235-238) are a `write`, `extend` (l.277-288) is a `write` of every channel,
`split_off` (l.291-300) is a `write` of every channel followed by `from`, `resample` (l.353-358) is an
`assign` of every channel.
-/

namespace Verif.Buffer.Share

/-- `handles`: name and channel addresses of every live buffer -/
structure St (V : Type) where
  mem : Nat → List V
  handles : List (Nat × List Nat)
  next : Nat

inductive Op (V : Type) where
  /-- `AudioBuffer::new`: `n` channels that share the silent vector `v`, as buffer `h` -/
  | new (h n : Nat) (v : List V)
  /-- `AudioBuffer::from`, as buffer `h` -/
  | from (h : Nat) (cs : List (List V))
  /-- `clone` of buffer `h` as buffer `k` -/
  | clone (h k : Nat)
  /-- drop of buffer `h` -/
  | drop (h : Nat)
  /-- mutation of channel `ch` of buffer `h` through `as_mut_slice` or `Arc::make_mut` -/
  | write (h ch : Nat) (f : List V → List V)
  /-- `channel.data = Arc::new(v)` for channel `ch` of buffer `h` -/
  | assign (h ch : Nat) (v : List V)

variable {V : Type}

/-- channel addresses of a buffer -/
def St.addrs (s : St V) (h : Nat) : Option (List Nat) := s.handles.lookup h

/-- `Arc::strong_count` -/
def St.owners (s : St V) (p : Nat) : Nat := (s.handles.map fun x => x.2.count p).sum

/-- `Arc::new` -/
def St.alloc (s : St V) (v : List V) : Nat × St V :=
  (s.next, { s with mem := fun p => if p = s.next then v else s.mem p, next := s.next + 1 })

/-- `Arc::new` for every vector -/
def St.allocAll (s : St V) : List (List V) → List Nat × St V
  | [] => ([], s)
  | v :: vs =>
    let (p, s1) := s.alloc v
    let (ps, s2) := s1.allocAll vs
    (p :: ps, s2)

def St.store (s : St V) (p : Nat) (v : List V) : St V :=
  { s with mem := fun q => if q = p then v else s.mem q }

/-- let channel `ch` of buffer `h` point to `q` -/
def St.redirect (s : St V) (h ch q : Nat) : St V :=
  { s with handles := s.handles.map fun x => if x.1 = h then (x.1, x.2.set ch q) else x }

/-- `Arc::make_mut` on channel `ch` (address `p`) of buffer `h` -/
def St.makeMut (s : St V) (h ch p : Nat) : Nat × St V :=
  if s.owners p = 1 then (p, s)
  else
    let (q, s1) := s.alloc (s.mem p)
    (q, s1.redirect h ch q)

/-- Names that do not exist (or exist already, for new buffers) and channels that do not exist leave the
state unchanged. -/
def St.step (s : St V) : Op V → St V
  | .new h n v =>
    if (s.addrs h).isSome then s
    else
      let (p, s1) := s.alloc v
      { s1 with handles := (h, List.replicate n p) :: s1.handles }
  | .from h cs =>
    if (s.addrs h).isSome then s
    else
      let (ps, s1) := s.allocAll cs
      { s1 with handles := (h, ps) :: s1.handles }
  | .clone h k =>
    match s.addrs h with
    | some ps => if (s.addrs k).isSome then s else { s with handles := (k, ps) :: s.handles }
    | none => s
  | .drop h => { s with handles := s.handles.filter fun x => x.1 ≠ h }
  | .write h ch f =>
    match (s.addrs h).bind (·[ch]?) with
    | none => s
    | some p =>
      let (q, s1) := s.makeMut h ch p
      s1.store q (f (s1.mem q))
  | .assign h ch v =>
    let (p, s1) := s.alloc v
    s1.redirect h ch p

def St.init : St V := ⟨fun _ => [], [], 0⟩

def St.run (ops : List (Op V)) : St V := ops.foldl St.step St.init

/-- the samples seen through a buffer -/
def St.read (s : St V) (h : Nat) : Option (List (List V)) := (s.addrs h).map (·.map s.mem)

/-! ## Specification: every buffer has its own samples -/

def specStep (l : List (Nat × List (List V))) : Op V → List (Nat × List (List V))
  | .new h n v => if (l.lookup h).isSome then l else (h, List.replicate n v) :: l
  | .from h cs => if (l.lookup h).isSome then l else (h, cs) :: l
  | .clone h k =>
    match l.lookup h with
    | some cs => if (l.lookup k).isSome then l else (k, cs) :: l
    | none => l
  | .drop h => l.filter fun x => x.1 ≠ h
  | .write h ch f => l.map fun x => if x.1 = h then (x.1, x.2.modify ch f) else x
  | .assign h ch v => l.map fun x => if x.1 = h then (x.1, x.2.set ch v) else x

/-! ## Proof -/

def St.view (s : St V) : List (Nat × List (List V)) := s.handles.map fun x => (x.1, x.2.map s.mem)

structure Inv (s : St V) : Prop where
  fresh : ∀ x ∈ s.handles, ∀ p ∈ x.2, p < s.next
  names : (s.handles.map (·.1)).Nodup

theorem lookup_map {α β : Type} (f : α → β) (l : List (Nat × α)) (h : Nat) :
    (l.map fun x => (x.1, f x.2)).lookup h = (l.lookup h).map f := by
  induction l with
  | nil => rfl
  | cons x l ih =>
    obtain ⟨a, v⟩ := x
    simp only [List.map_cons, List.lookup_cons]
    cases h == a <;> simp [ih]

theorem read_eq (s : St V) (h : Nat) : s.read h = s.view.lookup h := (lookup_map _ _ _).symm

theorem lookup_none {α : Type} {l : List (Nat × α)} {h : Nat} (hn : l.lookup h = none) :
    ∀ x ∈ l, x.1 ≠ h := by
  intro x hx he
  rw [List.lookup_eq_none_iff] at hn
  have := hn x hx
  simp [he] at this

theorem lookup_mem {α : Type} {l : List (Nat × α)} {h : Nat} {v : α} (hs : l.lookup h = some v) :
    (h, v) ∈ l := by
  induction l with
  | nil => cases hs
  | cons x l ih =>
    obtain ⟨a, w⟩ := x
    rw [List.lookup_cons] at hs
    cases he : h == a with
    | true =>
      rw [he] at hs
      have : h = a := by simpa using he
      subst this
      simp only [Option.some.injEq] at hs
      subst hs
      exact List.mem_cons_self
    | false =>
      rw [he] at hs
      exact List.mem_cons_of_mem _ (ih hs)

theorem map_congr_addr {s s' : St V} {hs : List (Nat × List Nat)} {n : Nat}
    (hf : ∀ x ∈ hs, ∀ p ∈ x.2, p < n) (hm : ∀ p < n, s'.mem p = s.mem p) :
    hs.map (fun x => (x.1, x.2.map s'.mem)) = hs.map (fun x => (x.1, x.2.map s.mem)) := by
  apply List.map_congr_left
  intro x hx
  congr 1
  exact List.map_congr_left fun p hp => hm p (hf x hx p hp)

theorem alloc_spec (s : St V) (v : List V) :
    (s.alloc v).1 = s.next ∧ (s.alloc v).2.next = s.next + 1 ∧ (s.alloc v).2.mem s.next = v ∧
    (s.alloc v).2.handles = s.handles ∧ ∀ p < s.next, (s.alloc v).2.mem p = s.mem p := by
  refine ⟨rfl, rfl, if_pos rfl, rfl, fun p hp => if_neg (by omega)⟩

theorem allocAll_spec (s : St V) (cs : List (List V)) :
    (s.allocAll cs).2.handles = s.handles ∧ s.next ≤ (s.allocAll cs).2.next ∧
    (∀ p < s.next, (s.allocAll cs).2.mem p = s.mem p) ∧
    (s.allocAll cs).1.map (s.allocAll cs).2.mem = cs ∧
    (∀ p ∈ (s.allocAll cs).1, p < (s.allocAll cs).2.next) := by
  induction cs generalizing s with
  | nil => simp [St.allocAll]
  | cons v vs ih =>
    obtain ⟨h1, h2, h3, h4, h5⟩ := ih (s.alloc v).2
    obtain ⟨a1, a2, a3, a4, a5⟩ := alloc_spec s v
    simp only [St.allocAll]
    rw [a2] at h2 h3
    refine ⟨h1.trans a4, by omega, fun p hp => (h3 p (by omega)).trans (a5 p hp), ?_, ?_⟩
    · rw [List.map_cons, h4, a1, h3 _ (by omega), a3]
    · intro p hp
      rcases List.mem_cons.1 hp with rfl | hp
      · rw [a1]; omega
      · exact h5 p hp

theorem view_redirect (s : St V) (h ch q : Nat) :
    (s.redirect h ch q).view = s.view.map fun x => if x.1 = h then (x.1, x.2.set ch (s.mem q)) else x := by
  simp only [St.view, St.redirect, List.map_map]
  apply List.map_congr_left
  intro x _
  simp only [Function.comp]
  split <;> simp

theorem inv_redirect {s : St V} (hi : Inv s) (h ch : Nat) {q : Nat} (hq : q < s.next) :
    Inv (s.redirect h ch q) := by
  constructor
  · intro x hx p hp
    simp only [St.redirect, List.mem_map] at hx
    obtain ⟨y, hy, rfl⟩ := hx
    split at hp
    · rcases List.mem_or_eq_of_mem_set hp with hp | rfl
      · exact hi.fresh y hy p hp
      · exact hq
    · exact hi.fresh y hy p hp
  · have : (s.redirect h ch q).handles.map (·.1) = s.handles.map (·.1) := by
      simp only [St.redirect, List.map_map]
      apply List.map_congr_left
      intro x _
      simp only [Function.comp]
      split <;> rfl
    rw [this]
    exact hi.names

theorem map_upd_of_count {mem : Nat → List V} {l : List Nat} {ch p : Nat} {v : List V}
    (hc : l.count p ≤ 1) (hl : l[ch]? = some p) :
    l.map (fun q => if q = p then v else mem q) = (l.map mem).set ch v := by
  induction l generalizing ch with
  | nil => simp at hl
  | cons a l ih =>
    cases ch with
    | zero =>
      simp only [List.getElem?_cons_zero, Option.some.injEq] at hl
      subst hl
      simp only [List.count_cons_self] at hc
      have hn : a ∉ l := List.count_eq_zero.1 (by omega)
      simp only [List.map_cons, if_true, List.set_cons_zero, List.cons.injEq, true_and]
      exact List.map_congr_left fun q hq => if_neg (by rintro rfl; exact hn hq)
    | succ k =>
      simp only [List.getElem?_cons_succ] at hl
      have hmem : p ∈ l := List.mem_of_getElem? hl
      have hpos := List.count_pos_iff.2 hmem
      rw [List.count_cons] at hc
      have hap : a ≠ p := by
        rintro rfl
        simp at hc
        omega
      simp only [List.map_cons, if_neg hap, List.set_cons_succ, List.cons.injEq, true_and]
      exact ih (by simpa [hap] using hc) hl

theorem le_sum_of_mem {l : List Nat} {n : Nat} (h : n ∈ l) : n ≤ l.sum := by
  induction l with
  | nil => cases h
  | cons a l ih =>
    rw [List.sum_cons]
    rcases List.mem_cons.1 h with rfl | h
    · omega
    · have := ih h; omega

theorem unique_owner {hs : List (Nat × List Nat)} {h p : Nat} {ps : List Nat}
    (hn : (hs.map (·.1)).Nodup) (hm : (h, ps) ∈ hs) (hp : p ∈ ps)
    (h1 : (hs.map fun x => x.2.count p).sum = 1) :
    ∀ x ∈ hs, (x.1 = h → x.2 = ps ∧ x.2.count p ≤ 1) ∧ (x.1 ≠ h → p ∉ x.2) := by
  induction hs with
  | nil => cases hm
  | cons y hs ih =>
    rw [List.map_cons, List.nodup_cons] at hn
    rw [List.map_cons, List.sum_cons] at h1
    have hps := List.count_pos_iff.2 hp
    rcases List.mem_cons.1 hm with he | hm2
    · subst he
      intro x hx
      rcases List.mem_cons.1 hx with rfl | hx
      · exact ⟨fun _ => ⟨rfl, by simp only at h1 ⊢; omega⟩, fun h => absurd rfl h⟩
      · refine ⟨fun he => absurd (List.mem_map_of_mem hx) (he ▸ hn.1), fun _ => ?_⟩
        have := le_sum_of_mem (List.mem_map_of_mem (f := fun x : Nat × List Nat => x.2.count p) hx)
        simp only at h1 this
        exact List.count_eq_zero.1 (by omega)
    · have hle := le_sum_of_mem (List.mem_map_of_mem (f := fun x : Nat × List Nat => x.2.count p) hm2)
      simp only at hle
      intro x hx
      rcases List.mem_cons.1 hx with rfl | hx
      · refine ⟨fun he => ?_, fun _ => List.count_eq_zero.1 (by omega)⟩
        subst he
        exact absurd (List.mem_map_of_mem (f := fun y : Nat × List Nat => y.1) hm2) hn.1
      · exact ih hn.2 hm2 (by omega) x hx

theorem step_spec {s : St V} (hi : Inv s) (op : Op V) :
    Inv (s.step op) ∧ (s.step op).view = specStep s.view op := by
  have hlk : ∀ h, s.view.lookup h = (s.addrs h).map (·.map s.mem) := fun h => lookup_map _ _ _
  cases op with
  | new h n v =>
    simp only [St.step, specStep, hlk, Option.isSome_map]
    split
    · exact ⟨hi, rfl⟩
    · rename_i hns
      obtain ⟨a1, a2, a3, a4, a5⟩ := alloc_spec s v
      refine ⟨⟨?_, ?_⟩, ?_⟩
      · intro x hx p hp
        rcases List.mem_cons.1 hx with rfl | hx
        · have := (List.mem_replicate.1 hp).2
          rw [this]
          show s.next < s.next + 1
          omega
        · exact Nat.lt_succ_of_lt (hi.fresh x hx p hp)
      · simp only [List.map_cons]
        refine List.nodup_cons.2 ⟨fun hmem => ?_, hi.names⟩
        obtain ⟨x, hx, he⟩ := List.mem_map.1 hmem
        exact lookup_none (Option.not_isSome_iff_eq_none.1 hns) x hx he
      · show _ :: _ = _
        congr 1
        · show (h, List.map _ (List.replicate n s.next)) = _
          rw [List.map_replicate]
          exact congrArg (fun w => (h, List.replicate n w)) a3
        · exact map_congr_addr hi.fresh a5
  | «from» h cs =>
    simp only [St.step, specStep, hlk, Option.isSome_map]
    split
    · exact ⟨hi, rfl⟩
    · rename_i hns
      obtain ⟨a1, a2, a3, a4, a5⟩ := allocAll_spec s cs
      refine ⟨⟨?_, ?_⟩, ?_⟩
      · intro x hx p hp
        rcases List.mem_cons.1 hx with rfl | hx
        · exact a5 p hp
        · rw [a1] at hx
          exact Nat.lt_of_lt_of_le (hi.fresh x hx p hp) a2
      · simp only [List.map_cons, a1]
        refine List.nodup_cons.2 ⟨fun hmem => ?_, hi.names⟩
        obtain ⟨x, hx, he⟩ := List.mem_map.1 hmem
        exact lookup_none (Option.not_isSome_iff_eq_none.1 hns) x hx he
      · simp only [St.view, a1, List.map_cons]
        congr 1
        · rw [a4]
        · exact map_congr_addr hi.fresh a3
  | clone h k =>
    simp only [St.step, specStep, hlk]
    cases hh : s.addrs h with
    | none => exact ⟨hi, rfl⟩
    | some ps =>
      simp only [Option.map_some, Option.isSome_map]
      split
      · exact ⟨hi, rfl⟩
      · rename_i hns
        refine ⟨⟨?_, ?_⟩, rfl⟩
        · intro x hx p hp
          rcases List.mem_cons.1 hx with rfl | hx
          · exact hi.fresh _ (lookup_mem hh) p hp
          · exact hi.fresh x hx p hp
        · simp only [List.map_cons]
          refine List.nodup_cons.2 ⟨fun hmem => ?_, hi.names⟩
          obtain ⟨x, hx, he⟩ := List.mem_map.1 hmem
          exact lookup_none (Option.not_isSome_iff_eq_none.1 hns) x hx he
  | drop h =>
    refine ⟨⟨fun x hx => hi.fresh x (List.mem_filter.1 hx).1, ?_⟩, ?_⟩
    · exact hi.names.sublist (List.filter_sublist.map _)
    · simp only [St.step, specStep, St.view, List.filter_map]
      rfl
  | write h ch f =>
    simp only [St.step, specStep]
    cases hb : (s.addrs h).bind (·[ch]?) with
    | none =>
      refine ⟨hi, ?_⟩
      symm
      simp only [St.view, List.map_map]
      apply List.map_congr_left
      intro x hx
      simp only [Function.comp]
      split
      · rename_i he
        have hx' : s.addrs h = some x.2 := by
          cases hl : s.addrs h with
          | none => exact absurd he (lookup_none hl x hx)
          | some ps =>
            have h1 := lookup_mem hl
            have := List.inj_on_of_nodup_map hi.names hx h1 he
            rw [this]
        rw [hx', Option.bind_some] at hb
        rw [List.modify_eq_set_getElem?]
        simp [hb]
      · rfl
    | some p =>
      obtain ⟨ps, hps, hp⟩ := Option.bind_eq_some_iff.1 hb
      have hmem := lookup_mem hps
      have hpm : p ∈ ps := List.mem_of_getElem? hp
      simp only [St.makeMut]
      split
      · rename_i h1
        refine ⟨⟨hi.fresh, hi.names⟩, ?_⟩
        have hu := unique_owner hi.names hmem hpm h1
        simp only [St.view, St.store, List.map_map]
        apply List.map_congr_left
        intro x hx
        simp only [Function.comp]
        split
        · rename_i he
          obtain ⟨e1, e2⟩ := (hu x hx).1 he
          rw [map_upd_of_count e2 (by rw [e1]; exact hp), e1, List.modify_eq_set_getElem?]
          simp [hp]
        · rename_i he
          congr 1
          exact List.map_congr_left fun q hq => if_neg (by rintro rfl; exact (hu x hx).2 he hq)
      · obtain ⟨a1, a2, a3, a4, a5⟩ := alloc_spec s (s.mem p)
        generalize s.alloc (s.mem p) = r at a1 a2 a3 a4 a5
        obtain ⟨q, s1⟩ := r
        simp only at a1 a2 a3 a4 a5 ⊢
        subst a1
        have hi1 : Inv s1 := by
          constructor
          · rw [a4, a2]
            exact fun x hx p hp => Nat.lt_succ_of_lt (hi.fresh x hx p hp)
          · rw [a4]
            exact hi.names
        have hi2 := inv_redirect hi1 h ch (q := s.next) (by omega)
        refine ⟨⟨hi2.fresh, hi2.names⟩, ?_⟩
        simp only [St.view, St.store, St.redirect, List.map_map, a4]
        apply List.map_congr_left
        intro x hx
        simp only [Function.comp]
        have hne : ∀ (l : List Nat), (∀ p ∈ l, p < s.next) → ∀ v : List V,
            l.map (fun q => if q = s.next then v else s1.mem q) = l.map s.mem := by
          intro l hl v
          refine List.map_congr_left fun q hq => ?_
          have := hl q hq
          rw [if_neg (by omega), a5 q this]
        split
        · rename_i he
          have hx' : x = (h, ps) := List.inj_on_of_nodup_map hi.names hx hmem he
          subst hx'
          simp only [List.map_set, if_true]
          rw [hne _ (hi.fresh _ hx), List.modify_eq_set_getElem?, a3]
          simp [hp]
        · rw [hne _ (hi.fresh _ hx)]
  | assign h ch v =>
    simp only [St.step, specStep]
    obtain ⟨a1, a2, a3, a4, a5⟩ := alloc_spec s v
    have hi1 : Inv (s.alloc v).2 := ⟨fun x hx p hp => Nat.lt_succ_of_lt (hi.fresh x hx p hp), hi.names⟩
    refine ⟨inv_redirect hi1 h ch (by rw [a1, a2]; omega), ?_⟩
    rw [view_redirect, a1, a3]
    congr 1
    exact map_congr_addr hi.fresh a5

theorem run_spec (ops : List (Op V)) :
    Inv (St.run ops) ∧ (St.run ops).view = ops.foldl specStep [] := by
  have key : ∀ (s : St V), Inv s → Inv (ops.foldl St.step s) ∧
      (ops.foldl St.step s).view = ops.foldl specStep s.view := by
    induction ops with
    | nil => exact fun s hs => ⟨hs, rfl⟩
    | cons op ops ih =>
      intro s hs
      obtain ⟨h1, h2⟩ := step_spec hs op
      have := ih _ h1
      rw [h2] at this
      exact this
  exact key St.init ⟨by simp [St.init], by simp [St.init]⟩

/-- **C48** After every sequence of creating, cloning, dropping and writing, every buffer contains the
samples it would contain if no two buffers (and no two channels) ever shared memory. -/
theorem C48_value_semantics (ops : List (Op V)) (h : Nat) :
    (St.run ops).read h = (ops.foldl specStep []).lookup h := by
  rw [read_eq, (run_spec ops).2]

/-- **C48** Writing through a buffer modifies the channel written to and nothing that any other buffer,
or any other channel of the same buffer, contains. -/
theorem C48_write_is_local (ops : List (Op V)) (h ch k : Nat) (f : List V → List V) :
    let s := St.run ops
    (s.step (.write h ch f)).read k = if k = h then (s.read h).map (·.modify ch f) else s.read k := by
  intro s
  rw [read_eq, (step_spec (run_spec ops).1 _).2, read_eq, read_eq]
  simp only [specStep, s]
  generalize (St.run ops).view = l
  induction l with
  | nil => simp
  | cons x l ih =>
    obtain ⟨a, v⟩ := x
    by_cases ha : a = h
    · subst ha
      by_cases hk : k = a
      · subst hk; simp
      · have : (k == a) = false := by simpa using hk
        simp only [List.map_cons, if_true, List.lookup_cons, this, if_neg hk] at ih ⊢
        exact ih
    · by_cases hk : k = a
      · subst hk; simp [ha]
      · have : (k == a) = false := by simpa using hk
        simp only [List.map_cons, if_neg ha, List.lookup_cons, this] at ih ⊢
        rw [ih]
        by_cases hkh : k = h
        · subst hkh
          simp [this]
        · simp [hkh]

/-- a new buffer of two channels, a clone, writes to both -/
def exOps : List (Op ℤ) :=
  [.new 0 2 [0, 0], .write 0 1 (·.set 0 5), .clone 0 1, .write 1 1 (·.set 1 6), .write 0 0 (· ++ [7]),
   .assign 1 0 [9], .drop 0]

example : (St.run exOps).read 1 = some [[9], [5, 6]] ∧ (St.run exOps).read 0 = none := by decide +kernel
example : (St.run (exOps.take 5)).read 0 = some [[0, 0, 7], [5, 0]] ∧
    (St.run (exOps.take 5)).read 1 = some [[0, 0], [5, 6]] := by decide +kernel
/-- the two channels of a new buffer share memory, and a clone shares both -/
example : (St.run (exOps.take 1)).addrs 0 = some [0, 0] ∧
    (St.run (exOps.take 3)).addrs 0 = some [0, 1] ∧
    (St.run (exOps.take 3)).addrs 1 = some [0, 1] := by decide +kernel

end Verif.Buffer.Share
