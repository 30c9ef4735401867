import Verif.Capacity.Model

/-!
# C74: theorems about the collection of the render capacity

The model is in `Capacity/Model.lean` (`/repo/src/capacity.rs`).
-/

namespace Verif.Capacity

/-! ## Specification -/

/-- every element and the next one are related -/
def Adj {γ : Type} (R : γ → γ → Prop) : List γ → Prop
  | [] => True
  | [_] => True
  | a :: b :: l => R a b ∧ Adj R (b :: l)

/-- the events of collector `k`, the newest first -/
def ofColl (k : Nat) (l : List Ev) : List Ev := l.filter fun e => e.coll = k

/-- the calls in a run are made by thread `j` only -/
def OneCaller (j : Nat) (acts : List Act) : Prop := ∀ a ∈ acts, ∀ i r, a = .call i r → i = j

/-! ## Each collector -/

theorem upd_same {γ : Type} (f : Nat → γ) (k : Nat) (v : γ) : upd f k v k = v := if_pos rfl

theorem upd_other {γ : Type} (f : Nat → γ) (k i : Nat) (v : γ) (h : i ≠ k) : upd f k v i = f i := if_neg h

theorem dropSender_pc (s : St) (k : Nat) : (dropSender s k).pc = (s.colls k).pc ∧ (dropSender s k).prev = (s.colls k).prev := by
  unfold dropSender
  cases s.slot with
  | none => exact ⟨rfl, rfl⟩
  | some i =>
    simp only
    by_cases h : k = i
    · subst h; rw [upd_same]; exact ⟨rfl, rfl⟩
    · rw [upd_other _ _ _ _ h]; exact ⟨rfl, rfl⟩

structure CollOk (s : St) (k : Nat) : Prop where
  adj : Adj (fun a b => b.hi = a.lo) (ofColl k s.log)
  pos : ∀ e ∈ ofColl k s.log, e.lo < e.hi
  head : ∀ e ∈ (ofColl k s.log).head?, e.hi = (s.colls k).prev
  le : (s.colls k).prev ≤ s.callbacks
  send : ∀ m, (s.colls k).pc = .send m → (s.colls k).prev < m ∧ m ≤ s.callbacks
  fresh : s.n ≤ k → ofColl k s.log = [] ∧ (s.colls k).pc = .done

theorem collOk_of {s s' : St} {k : Nat} (h : ∀ k, CollOk s k) (hl : s'.log = s.log) (hn : s'.n = s.n) (hc : s.callbacks ≤ s'.callbacks)
    (h1 : ∀ k, (s'.colls k).prev = (s.colls k).prev)
    (h2 : ∀ k, (s'.colls k).pc = (s.colls k).pc ∨ (s.n ≤ k → (s'.colls k).pc = .done) ∧
      ∀ m, (s'.colls k).pc = .send m → (s.colls k).prev < m ∧ m ≤ s'.callbacks) : CollOk s' k := by
  obtain ⟨a1, a2, a3, a4, a5, a6⟩ := h k
  refine ⟨by rw [hl]; exact a1, by rw [hl]; exact a2, by rw [hl, h1]; exact a3, by rw [h1]; omega, ?_, ?_⟩
  · intro m hm
    rw [h1]
    rcases h2 k with h2 | ⟨_, h2⟩
    · rw [h2] at hm
      have := a5 m hm
      exact ⟨this.1, by omega⟩
    · exact h2 m hm
  · intro hk
    rw [hn] at hk
    obtain ⟨b1, b2⟩ := a6 hk
    rw [hl]
    refine ⟨b1, ?_⟩
    rcases h2 k with h2 | ⟨h2, _⟩
    · rw [h2]; exact b2
    · exact h2 hk

theorem active_lt {s : St} (h : ∀ k, CollOk s k) (k : Nat) (hp : (s.colls k).pc ≠ .done) : k < s.n := by
  by_contra hc
  exact hp ((h k).fresh (by omega)).2

theorem collOk_step {iv cap : Nat} {s s' : St} {a : Act} (h : ∀ k, CollOk s k) (hs : Step iv cap s a s') (k : Nat) :
    CollOk s' k := by
  cases hs with
  | tick => exact collOk_of (k := k) h (by rfl) (by rfl) (Nat.le_refl _) (fun _ => rfl) (fun _ => .inl rfl)
  | render => exact collOk_of (k := k) h (by rfl) (by rfl) (by simp) (fun _ => rfl) (fun _ => .inl rfl)
  | callNone => exact collOk_of (k := k) h (by rfl) (by rfl) (Nat.le_refl _) (fun _ => rfl) (fun _ => .inl rfl)
  | callSome => exact collOk_of (k := k) h (by rfl) (by rfl) (Nat.le_refl _) (fun _ => rfl) (fun _ => .inl rfl)
  | meet j i d r h1 h2 =>
    refine collOk_of (k := k) h (by rfl) (by rfl) (Nat.le_refl _) (fun m => ?_) (fun m => ?_)
    · by_cases hm : m = i
      · subst hm; simp [upd_same]
      · simp [upd_other _ _ _ _ hm]
    · by_cases hm : m = i
      · subst hm; right; simp [upd_same]
      · left; simp [upd_other _ _ _ _ hm]
  | meetDone => exact collOk_of (k := k) h (by rfl) (by rfl) (Nat.le_refl _) (fun _ => rfl) (fun _ => .inl rfl)
  | store j h1 h2 =>
    by_cases hk : k = s.n
    · subst hk
      obtain ⟨b1, b2⟩ := (h s.n).fresh (Nat.le_refl _)
      constructor
      · show Adj _ (ofColl s.n s.log); rw [b1]; trivial
      · show ∀ e ∈ ofColl s.n s.log, _; rw [b1]; simp
      · show ∀ e ∈ (ofColl s.n s.log).head?, _; rw [b1]; simp
      · simp [upd_same]
      · simp [upd_same]
      · intro hc; exact absurd hc (by simp)
    · obtain ⟨p1, p2⟩ := dropSender_pc s k
      obtain ⟨a1, a2, a3, a4, a5, a6⟩ := h k
      constructor
      · exact a1
      · exact a2
      · simp only [upd_other _ _ _ _ hk, p2]; exact a3
      · simp only [upd_other _ _ _ _ hk, p2]; exact a4
      · simp only [upd_other _ _ _ _ hk, p2, p1]; exact a5
      · simp only [upd_other _ _ _ _ hk, p1]
        intro hc
        exact a6 (by omega)
  | timeout i d h1 h2 h3 =>
    have hi := active_lt h i (by rw [h1]; simp)
    refine collOk_of (k := k) h (by rfl) (by rfl) (Nat.le_refl _) (fun m => ?_) (fun m => ?_)
    · by_cases hm : m = i
      · subst hm; simp [upd_same]
      · simp [upd_other _ _ _ _ hm]
    · by_cases hm : m = i
      · subst hm; right; simp [upd_same]; omega
      · left; simp [upd_other _ _ _ _ hm]
  | same i h1 h2 =>
    have hi := active_lt h i (by rw [h1]; simp)
    refine collOk_of (k := k) h (by rfl) (by rfl) (Nat.le_refl _) (fun m => ?_) (fun m => ?_)
    · by_cases hm : m = i
      · subst hm; simp [upd_same]
      · simp [upd_other _ _ _ _ hm]
    · by_cases hm : m = i
      · subst hm; right; simp [upd_same]; omega
      · left; simp [upd_other _ _ _ _ hm]
  | news i h1 h2 =>
    have hi := active_lt h i (by rw [h1]; simp)
    refine collOk_of (k := k) h (by rfl) (by rfl) (Nat.le_refl _) (fun m => ?_) (fun m => ?_)
    · by_cases hm : m = i
      · subst hm; simp [upd_same]
      · simp [upd_other _ _ _ _ hm]
    · by_cases hm : m = i
      · subst hm; right
        have := (h m).le
        simp [upd_same]
        omega
      · left; simp [upd_other _ _ _ _ hm]
  | send i m h1 h2 =>
    have hi := active_lt h i (by rw [h1]; simp)
    by_cases hk : k = i
    · subst hk
      obtain ⟨a1, a2, a3, a4, a5, a6⟩ := h k
      obtain ⟨c1, c2⟩ := a5 m h1
      have hf : ofColl k (⟨k, (s.colls k).prev, m⟩ :: s.log) = ⟨k, (s.colls k).prev, m⟩ :: ofColl k s.log := by
        simp [ofColl]
      constructor
      · show Adj _ (ofColl k (_ :: s.log))
        rw [hf]
        cases ho : ofColl k s.log with
        | nil => trivial
        | cons b l =>
          rw [ho] at a1 a3
          exact ⟨a3 b rfl, a1⟩
      · show ∀ e ∈ ofColl k (_ :: s.log), _
        rw [hf]
        intro e he
        rcases List.mem_cons.mp he with he | he
        · subst he; exact c1
        · exact a2 e he
      · show ∀ e ∈ (ofColl k (_ :: s.log)).head?, _
        rw [hf]
        simp [upd_same]
      · simpa [upd_same] using c2
      · simp [upd_same]
      · intro hc; exact absurd hc (by simp; omega)
    · obtain ⟨a1, a2, a3, a4, a5, a6⟩ := h k
      have hf : ofColl k (⟨i, (s.colls i).prev, m⟩ :: s.log) = ofColl k s.log := by
        simp [ofColl, Ne.symm hk]
      constructor
      · show Adj _ (ofColl k (_ :: s.log)); rw [hf]; exact a1
      · show ∀ e ∈ ofColl k (_ :: s.log), _; rw [hf]; exact a2
      · show ∀ e ∈ (ofColl k (_ :: s.log)).head?, _; rw [hf]; simp only [upd_other _ _ _ _ hk]; exact a3
      · simp only [upd_other _ _ _ _ hk]; exact a4
      · simp only [upd_other _ _ _ _ hk]; exact a5
      · simp only [upd_other _ _ _ _ hk]
        intro hc
        rw [hf]
        exact a6 hc
  | handle => exact collOk_of (k := k) h (by rfl) (by rfl) (Nat.le_refl _) (fun _ => rfl) (fun _ => .inl rfl)
  | release h1 =>
    exact collOk_of (k := k) h (by rfl) (by rfl) (Nat.le_refl _) (fun k => (dropSender_pc s k).2) (fun k => .inl (dropSender_pc s k).1)

theorem collOk_run {iv cap : Nat} {s s' : St} {acts : List Act} (hr : Run iv cap s acts s') (h : ∀ k, CollOk s k) :
    ∀ k, CollOk s' k := by
  induction hr with
  | nil => exact h
  | cons hs _ ih => exact ih fun k => collOk_step h hs k

theorem collOk_new (k : Nat) : CollOk St.new k :=
  ⟨trivial, (fun e he => by cases he), (fun e he => by cases he), Nat.le_refl _, (fun m hm => by cases hm), fun _ => ⟨rfl, rfl⟩⟩

/-- C74: the events of a collector report disjoint periods without gaps in between, and each reports at least one callback.
For all runs, whatever threads call `start` and `stop`. -/
theorem C74_partition {iv cap : Nat} {acts : List Act} {s : St} (hr : Run iv cap St.new acts s) (k : Nat) :
    Adj (fun newer older => older.hi = newer.lo) (ofColl k s.log) ∧
    ∀ e ∈ ofColl k s.log, e.lo < e.hi :=
  ⟨(collOk_run hr collOk_new k).adj, (collOk_run hr collOk_new k).pos⟩

/-! ## Calls from one thread -/

structure Seq (j : Nat) (s : St) : Prop where
  others : ∀ i, i ≠ j → s.callers i = .idle
  slot : ∀ k, s.slot = some k → (∀ i r, s.callers j ≠ .rendezvous i r) ∧ s.callers j ≠ .storing ∧ (s.colls k).live = true ∧
    k < s.n
  meets : ∀ i r, s.callers j = .rendezvous i r → i < s.n
  locked : s.locked = true → ∃ i r, s.callers j = .rendezvous i r
  active : ∀ k, (s.colls k).pc ≠ .done → s.slot = some k ∨ ∃ r, s.callers j = .rendezvous k r

theorem seq_colls {j i : Nat} {s s' : St} {c : Coll} (h : Seq j s) (hs : s' = { s with colls := upd s.colls i c })
    (hl : c.live = (s.colls i).live) (hp : (s.colls i).pc ≠ .done) : Seq j s' := by
  subst hs
  refine ⟨h.others, ?_, h.meets, h.locked, ?_⟩
  · intro k hk
    obtain ⟨a, b, c', d⟩ := h.slot k hk
    refine ⟨a, b, ?_, d⟩
    by_cases hki : k = i
    · subst hki; simp only [upd_same]; rw [hl]; exact c'
    · simp only [upd_other _ _ _ _ hki]; exact c'
  · intro k hk
    by_cases hki : k = i
    · subst hki; exact h.active k hp
    · simp only [upd_other _ _ _ _ hki] at hk
      exact h.active k hk

theorem seq_step {iv cap j : Nat} {s s' : St} {a : Act} (h : Seq j s) (hc : ∀ k, CollOk s k) (hs : Step iv cap s a s')
    (ha : ∀ i r, a = .call i r → i = j) (hrel : a ≠ .release) : Seq j s' := by
  cases hs with
  | tick => exact ⟨h.others, h.slot, h.meets, h.locked, h.active⟩
  | render => exact ⟨h.others, h.slot, h.meets, h.locked, h.active⟩
  | callNone i r h1 h2 h3 =>
    have := ha i r rfl
    subst this
    constructor
    · intro m hm; simp only [upd_other _ _ _ _ hm]; exact h.others m hm
    · intro k hk; rw [h3] at hk; cases hk
    · intro m q hm; simp only [upd_same] at hm; cases r <;> cases hm
    · intro hl; simp only at hl; rw [h2] at hl; cases hl
    · intro k hk
      rcases h.active k hk with hk | ⟨q, hk⟩
      · rw [h3] at hk; cases hk
      · rw [h1] at hk; cases hk
  | callSome i k r h1 h2 h3 =>
    have := ha i r rfl
    subst this
    constructor
    · intro m hm; simp only [upd_other _ _ _ _ hm]; exact h.others m hm
    · intro k hk; cases hk
    · intro m q hm
      simp only [upd_same] at hm
      injection hm with hm
      subst hm
      exact (h.slot k h3).2.2.2
    · intro _; exact ⟨k, r, by simp only [upd_same]⟩
    · intro m hm
      right
      rcases h.active m hm with hk | ⟨q, hk⟩
      · rw [h3] at hk; injection hk with hk; subst hk; exact ⟨r, by simp only [upd_same]⟩
      · rw [h1] at hk; cases hk
  | meet i k d r h1 h2 =>
    have hij : i = j := by
      by_contra hne
      rw [h.others i hne] at h1
      cases h1
    subst hij
    have hsl : s.slot = none := by
      cases hx : s.slot with
      | none => rfl
      | some y => exact absurd h1 ((h.slot y hx).1 k r)
    constructor
    · intro m hm; simp only [upd_other _ _ _ _ hm]; exact h.others m hm
    · intro y hy; rw [hsl] at hy; cases hy
    · intro m q hm; simp only [upd_same] at hm; cases r <;> cases hm
    · intro hl; cases hl
    · intro m hm
      exfalso
      by_cases hmk : m = k
      · subst hmk; simp [upd_same] at hm
      · simp only [upd_other _ _ _ _ hmk] at hm
        rcases h.active m hm with hx | ⟨q, hx⟩
        · rw [hsl] at hx; cases hx
        · rw [h1] at hx; injection hx with hx; exact hmk hx.symm
  | meetDone i k r h1 h2 =>
    have hij : i = j := by
      by_contra hne
      rw [h.others i hne] at h1
      cases h1
    subst hij
    have hsl : s.slot = none := by
      cases hx : s.slot with
      | none => rfl
      | some y => exact absurd h1 ((h.slot y hx).1 k r)
    constructor
    · intro m hm; simp only [upd_other _ _ _ _ hm]; exact h.others m hm
    · intro y hy; rw [hsl] at hy; cases hy
    · intro m q hm; simp only [upd_same] at hm; cases r <;> cases hm
    · intro hl; cases hl
    · intro m hm
      exfalso
      rcases h.active m hm with hx | ⟨q, hx⟩
      · rw [hsl] at hx; cases hx
      · rw [h1] at hx; injection hx with hx; subst hx; exact hm h2
  | store i h1 h2 =>
    have hij : i = j := by
      by_contra hne
      rw [h.others i hne] at h1
      cases h1
    subst hij
    have hsl : s.slot = none := by
      cases hx : s.slot with
      | none => rfl
      | some y => exact absurd h1 (h.slot y hx).2.1
    constructor
    · intro m hm; simp only [upd_other _ _ _ _ hm]; exact h.others m hm
    · intro y hy
      simp only [Option.some.injEq] at hy
      subst hy
      refine ⟨?_, ?_, ?_, by simp⟩
      · intro m q hm; simp only [upd_same] at hm; cases hm
      · intro hm; simp only [upd_same] at hm; cases hm
      · simp [upd_same]
    · intro m q hm; simp only [upd_same] at hm; cases hm
    · intro hl; simp only at hl; rw [h2] at hl; cases hl
    · intro m hm
      by_cases hmn : m = s.n
      · subst hmn; left; rfl
      · exfalso
        simp only [upd_other _ _ _ _ hmn] at hm
        rw [(dropSender_pc s m).1] at hm
        rcases h.active m hm with hx | ⟨q, hx⟩
        · rw [hsl] at hx; cases hx
        · rw [h1] at hx; cases hx
  | timeout k d h1 h2 h3 => exact seq_colls h rfl rfl (by rw [h1]; simp)
  | same k h1 h2 => exact seq_colls h rfl rfl (by rw [h1]; simp)
  | news k h1 h2 => exact seq_colls h rfl rfl (by rw [h1]; simp)
  | send k m h1 h2 =>
    have := seq_colls (s' := { s with colls := upd s.colls k { s.colls k with pc := .wait (s.now + iv), prev := m } }) h rfl rfl
      (by rw [h1]; simp)
    exact ⟨this.others, this.slot, this.meets, this.locked, this.active⟩
  | handle e q h1 h2 => exact ⟨h.others, h.slot, h.meets, h.locked, h.active⟩
  | release h1 => exact absurd rfl hrel

theorem seq_new (j : Nat) : Seq j St.new :=
  ⟨fun _ _ => rfl, (fun k hk => by cases hk), (fun i r h => by cases h), (fun h => by cases h), (fun k hk => absurd rfl hk)⟩

theorem seq_run {iv cap j : Nat} {s s' : St} {acts : List Act} (hr : Run iv cap s acts s') (h : Seq j s)
    (hc : ∀ k, CollOk s k) (ha : OneCaller j acts) (hrel : Act.release ∉ acts) : Seq j s' ∧ ∀ k, CollOk s' k := by
  induction hr with
  | nil => exact ⟨h, hc⟩
  | cons hs _ ih =>
    have h1 := seq_step h hc hs (fun i r hx => ha _ List.mem_cons_self i r hx)
      (fun hx => hrel (by rw [hx]; exact List.mem_cons_self))
    exact ih h1 (fun k => collOk_step hc hs k) (fun a hm => ha a (List.mem_cons_of_mem _ hm))
      (fun hm => hrel (List.mem_cons_of_mem _ hm))

/-- C74: if one thread calls `start` and `stop`, at most one collector is at work at any time, and none once `stop` has
returned. -/
theorem C74_single_partial {iv cap j : Nat} {acts : List Act} {s : St} (hr : Run iv cap St.new acts s)
    (ha : OneCaller j acts) (hrel : Act.release ∉ acts) :
    (∀ k k', (s.colls k).pc ≠ .done → (s.colls k').pc ≠ .done → k = k') ∧
    (s.slot = none → s.callers j = .idle → ∀ k, (s.colls k).pc = .done) := by
  obtain ⟨h, _⟩ := seq_run hr (seq_new j) collOk_new ha hrel
  constructor
  · intro k k' hk hk'
    rcases h.active k hk with h1 | ⟨r, h1⟩
    · rcases h.active k' hk' with h2 | ⟨r', h2⟩
      · rw [h1] at h2; injection h2
      · exact absurd h2 ((h.slot k h1).1 k' r')
    · rcases h.active k' hk' with h2 | ⟨r', h2⟩
      · exact absurd h1 ((h.slot k' h2).1 k r)
      · rw [h1] at h2; injection h2
  · intro h1 h2 k
    by_contra hk
    rcases h.active k hk with h3 | ⟨r, h3⟩
    · rw [h1] at h3; cases h3
    · rw [h2] at h3; cases h3

/-- the periods of the events sent so far lie before what comes -/
structure Past (s : St) : Prop where
  pairs : s.log.Pairwise fun newer older => older.hi ≤ newer.lo
  le : ∀ e ∈ s.log, e.hi ≤ s.callbacks
  prev : ∀ k, (s.colls k).pc ≠ .done → ∀ e ∈ s.log, e.hi ≤ (s.colls k).prev

theorem past_of {s s' : St} (h : Past s) (hl : s'.log = s.log) (hc : s.callbacks ≤ s'.callbacks)
    (h1 : ∀ k, (s'.colls k).pc ≠ .done → (s.colls k).pc ≠ .done ∧ (s'.colls k).prev = (s.colls k).prev) : Past s' := by
  refine ⟨by rw [hl]; exact h.pairs, by rw [hl]; exact fun e he => Nat.le_trans (h.le e he) hc, ?_⟩
  rw [hl]
  intro k hk e he
  obtain ⟨a, b⟩ := h1 k hk
  rw [b]
  exact h.prev k a e he

theorem past_step {iv cap j : Nat} {s s' : St} {a : Act} (h : Past s) (hq : Seq j s) (hc : ∀ k, CollOk s k)
    (hs : Step iv cap s a s') (hrel : a ≠ .release) : Past s' := by
  have updOk : ∀ (i : Nat) (c : Coll), (s.colls i).pc ≠ .done → c.prev = (s.colls i).prev → ∀ k,
      (upd s.colls i c k).pc ≠ .done → (s.colls k).pc ≠ .done ∧ (upd s.colls i c k).prev = (s.colls k).prev := by
    intro i c h1 h2 k hk
    by_cases hki : k = i
    · subst hki; rw [upd_same]; exact ⟨h1, h2⟩
    · rw [upd_other _ _ _ _ hki] at hk ⊢; exact ⟨hk, rfl⟩
  cases hs with
  | tick => exact past_of h (by rfl) (Nat.le_refl _) (fun _ hk => ⟨hk, rfl⟩)
  | render => exact past_of h (by rfl) (by simp) (fun _ hk => ⟨hk, rfl⟩)
  | callNone => exact past_of h (by rfl) (Nat.le_refl _) (fun _ hk => ⟨hk, rfl⟩)
  | callSome => exact past_of h (by rfl) (Nat.le_refl _) (fun _ hk => ⟨hk, rfl⟩)
  | meet i k d r h1 h2 => exact past_of h (by rfl) (Nat.le_refl _) (updOk k _ (by rw [h2]; simp) rfl)
  | meetDone => exact past_of h (by rfl) (Nat.le_refl _) (fun _ hk => ⟨hk, rfl⟩)
  | store i h1 h2 =>
    refine ⟨h.pairs, h.le, ?_⟩
    intro k hk e he
    by_cases hkn : k = s.n
    · subst hkn; simp only [upd_same]; exact h.le e he
    · simp only [upd_other _ _ _ _ hkn] at hk ⊢
      rw [(dropSender_pc s k).1] at hk
      rw [(dropSender_pc s k).2]
      exact h.prev k hk e he
  | timeout k d h1 h2 h3 => exact past_of h (by rfl) (Nat.le_refl _) (updOk k _ (by rw [h1]; simp) rfl)
  | same k h1 h2 => exact past_of h (by rfl) (Nat.le_refl _) (updOk k _ (by rw [h1]; simp) rfl)
  | news k h1 h2 => exact past_of h (by rfl) (Nat.le_refl _) (updOk k _ (by rw [h1]; simp) rfl)
  | send k m h1 h2 =>
    have hk : (s.colls k).pc ≠ .done := by rw [h1]; simp
    obtain ⟨c1, c2⟩ := (hc k).send m h1
    refine ⟨List.Pairwise.cons (h.prev k hk) h.pairs, ?_, ?_⟩
    · intro e he
      rcases List.mem_cons.mp he with he | he
      · subst he; exact c2
      · exact h.le e he
    · intro i hi e he
      by_cases hik : i = k
      · subst hik
        simp only [upd_same]
        rcases List.mem_cons.mp he with he | he
        · subst he; exact Nat.le_refl _
        · have := h.prev i hk e he
          omega
      · exfalso
        simp only [upd_other _ _ _ _ hik] at hi
        rcases hq.active k hk with a1 | ⟨r, a1⟩
        · rcases hq.active i hi with a2 | ⟨r', a2⟩
          · rw [a1] at a2; injection a2 with a2; exact hik a2.symm
          · exact absurd a2 ((hq.slot k a1).1 i r')
        · rcases hq.active i hi with a2 | ⟨r', a2⟩
          · exact absurd a1 ((hq.slot i a2).1 k r)
          · rw [a1] at a2; injection a2 with a2; exact hik a2.symm
  | handle e q h1 h2 => exact past_of h (by rfl) (Nat.le_refl _) (fun _ hk => ⟨hk, rfl⟩)
  | release h1 => exact absurd rfl hrel

/-- C74: if one thread calls `start` and `stop`, no callback is reported twice: the periods of all events, of all collectors,
follow each other. -/
theorem C74_disjoint_partial {iv cap j : Nat} {acts : List Act} {s : St} (hr : Run iv cap St.new acts s)
    (ha : OneCaller j acts) (hrel : Act.release ∉ acts) :
    s.log.Pairwise fun newer older => older.hi ≤ newer.lo := by
  have key : ∀ {s s' : St} {acts : List Act}, Run iv cap s acts s' → Seq j s → (∀ k, CollOk s k) → Past s → OneCaller j acts →
      Act.release ∉ acts → Past s' := by
    intro s s' acts hr
    induction hr with
    | nil => intro _ _ hp _ _; exact hp
    | cons hs _ ih =>
      intro hq hc hp ha hrel
      have hne : _ ≠ Act.release := fun hx => hrel (by rw [← hx]; exact List.mem_cons_self)
      exact ih (seq_step hq hc hs (fun i r hx => ha _ List.mem_cons_self i r hx) hne) (fun k => collOk_step hc hs k)
        (past_step hp hq hc hs hne) (fun a hm => ha a (List.mem_cons_of_mem _ hm)) (fun hm => hrel (List.mem_cons_of_mem _ hm))
  exact (key hr (seq_new j) collOk_new ⟨List.Pairwise.nil, (fun e he => by cases he), (fun k hk => absurd rfl hk)⟩ ha hrel).pairs

/-- collector `k` has timed out `c` times -/
structure Paced (iv k c : Nat) (s : St) : Prop where
  wait : ∀ d, (s.colls k).pc = .wait d → (c + 1) * iv ≤ d
  now : c * iv ≤ s.now
  fresh : s.n ≤ k → c = 0

theorem paced_step {iv cap j k c : Nat} {s s' : St} {a : Act} (h : Paced iv k c s) (hq : Seq j s) (hc : ∀ k, CollOk s k)
    (hs : Step iv cap s a s') (hrel : a ≠ .release) : Paced iv k (c + if a = .timeout k then 1 else 0) s' := by
  have hupd : ∀ (i : Nat) (x : Coll), (k = i → ∀ d, x.pc = .wait d → (c + 1) * iv ≤ d) → ∀ d,
      (upd s.colls i x k).pc = .wait d → (c + 1) * iv ≤ d := by
    intro i x hx d hd
    by_cases hk : k = i
    · subst hk; rw [upd_same] at hd; exact hx rfl d hd
    · rw [upd_other _ _ _ _ hk] at hd; exact h.wait d hd
  have hmul : (c + 1) * iv = c * iv + iv := Nat.succ_mul c iv
  cases hs with
  | tick => exact ⟨h.wait, Nat.le_succ_of_le h.now, h.fresh⟩
  | render => exact ⟨h.wait, h.now, h.fresh⟩
  | callNone => exact ⟨h.wait, h.now, h.fresh⟩
  | callSome => exact ⟨h.wait, h.now, h.fresh⟩
  | meet i m d r h1 h2 => exact ⟨hupd m _ (fun _ d hd => by cases hd), h.now, h.fresh⟩
  | meetDone => exact ⟨h.wait, h.now, h.fresh⟩
  | store i h1 h2 =>
    refine ⟨?_, h.now, fun hk => h.fresh (by simp only at hk; omega)⟩
    intro d hd
    simp only [reduceCtorEq, if_false, Nat.add_zero]
    by_cases hk : k = s.n
    · subst hk
      simp only [upd_same] at hd
      injection hd with hd
      have := h.fresh (Nat.le_refl _)
      subst this
      omega
    · simp only [upd_other _ _ _ _ hk] at hd
      rw [(dropSender_pc s k).1] at hd
      exact h.wait d hd
  | timeout i d h1 h2 h3 =>
    by_cases hk : i = k
    · subst hk
      simp only [if_true]
      have hw := h.wait d h1
      have hd : d ≤ s.now := by
        rcases h2 with h2 | h2
        · exact h2
        · exfalso
          rcases hq.active i (by rw [h1]; simp) with ha | ⟨r, ha⟩
          · rw [(hq.slot i ha).2.2.1] at h2; cases h2
          · exact h3 ⟨j, r, ha⟩
      refine ⟨?_, by show (c + 1) * iv ≤ s.now; omega, ?_⟩
      · intro d' hd'
        simp [upd_same] at hd'
      · intro hn
        have := active_lt hc i (by rw [h1]; simp)
        simp only at hn
        omega
    · simp only [Act.timeout.injEq, if_neg hk, Nat.add_zero]
      exact ⟨hupd i _ (fun hx => absurd hx.symm hk), h.now, h.fresh⟩
  | same i h1 h2 =>
    refine ⟨hupd i _ ?_, h.now, h.fresh⟩
    intro _ d hd
    injection hd with hd
    have := h.now
    omega
  | news i h1 h2 => exact ⟨hupd i _ (fun _ d hd => by cases hd), h.now, h.fresh⟩
  | send i m h1 h2 =>
    refine ⟨hupd i _ ?_, h.now, h.fresh⟩
    intro _ d hd
    injection hd with hd
    have := h.now
    omega
  | handle e q h1 h2 => exact ⟨h.wait, h.now, h.fresh⟩
  | release h1 => exact absurd rfl hrel

/-- C74: if one thread calls `start` and `stop`, a collector looks at the statistics, and sends an event, at most once per
interval. -/
theorem C74_interval_partial {iv cap j : Nat} {acts : List Act} {s : St} (hr : Run iv cap St.new acts s)
    (ha : OneCaller j acts) (hrel : Act.release ∉ acts) (k : Nat) : acts.count (.timeout k) * iv ≤ s.now := by
  have key : ∀ {s s' : St} {acts : List Act} {c : Nat}, Run iv cap s acts s' → Seq j s → (∀ k, CollOk s k) → Paced iv k c s →
      OneCaller j acts → Act.release ∉ acts → Paced iv k (c + acts.count (.timeout k)) s' := by
    intro s s' acts c hr
    induction hr generalizing c with
    | nil => intro _ _ hp _ _; exact hp
    | @cons s t u a as hs _ ih =>
      intro hq hc hp ha hrel
      have hne : a ≠ Act.release := fun hx => hrel (by rw [← hx]; exact List.mem_cons_self)
      have h := ih (seq_step hq hc hs (fun i r hx => ha _ List.mem_cons_self i r hx) hne) (fun k => collOk_step hc hs k)
        (paced_step hp hq hc hs hne) (fun a hm => ha a (List.mem_cons_of_mem _ hm)) (fun hm => hrel (List.mem_cons_of_mem _ hm))
      rw [List.count_cons]
      have e : (if (a == Act.timeout k) = true then 1 else 0) = if a = Act.timeout k then 1 else 0 := by
        simp
      rw [e, show c + (as.count (Act.timeout k) + if a = Act.timeout k then 1 else 0) =
        c + (if a = Act.timeout k then 1 else 0) + as.count (Act.timeout k) by omega]
      exact h
  have h := key (c := 0) hr (seq_new j) collOk_new ⟨(fun d hd => by cases hd), by simp, fun _ => rfl⟩ ha hrel
  simpa using h.now

/-! ## Where it fails -/

theorem run_append {iv cap : Nat} {s t u : St} {as bs : List Act} (h1 : Run iv cap s as t) (h2 : Run iv cap t bs u) :
    Run iv cap s (as ++ bs) u := by
  induction h1 with
  | nil => exact h2
  | cons hs _ ih => exact .cons hs (ih h2)

/-- A collector without sender and without news goes round once. -/
theorem spin (iv cap : Nat) (s : St) (k d : Nat) (h1 : (s.colls k).pc = .wait d) (h2 : (s.colls k).live = false)
    (h3 : ∀ j, s.callers j = .idle) (h4 : s.callbacks = (s.colls k).prev) (n : Nat) :
    ∃ s', Run iv cap s (List.replicate n [Act.timeout k, Act.check k]).flatten s' ∧ s'.now = s.now ∧ (∃ d', (s'.colls k).pc = .wait d') ∧
      (s'.colls k).live = false ∧ s'.callers = s.callers ∧ s'.callbacks = s.callbacks ∧ (s'.colls k).prev = (s.colls k).prev := by
  induction n with
  | zero => exact ⟨s, .nil s, rfl, ⟨d, h1⟩, h2, rfl, rfl, rfl⟩
  | succ n ih =>
    obtain ⟨t, r, t1, ⟨d', t2⟩, t3, t4, t5, t6⟩ := ih
    have hp : ¬ pending t k := by
      rintro ⟨j, q, hj⟩
      rw [t4, h3 j] at hj
      cases hj
    have s1 := Step.timeout (iv := iv) (cap := cap) t k d' t2 (.inr t3) hp
    have s2 := Step.same (iv := iv) (cap := cap) { t with colls := upd t.colls k { t.colls k with pc := .check } } k
      (by simp [upd_same]) (by simp [upd_same, t5, t6, h4])
    have hrun := run_append r (.cons s1 (.cons s2 (.nil _)))
    have he : (List.replicate (n + 1) [Act.timeout k, Act.check k]).flatten =
        (List.replicate n [Act.timeout k, Act.check k]).flatten ++ [Act.timeout k, Act.check k] := by
      rw [List.replicate_succ', List.flatten_append]; rfl
    rw [he]
    exact ⟨_, hrun, t1, ⟨t.now + iv, by simp [upd_same]⟩, by simpa [upd_same] using t3, t4, t5, by simpa [upd_same] using t6⟩

theorem ticks (iv cap : Nat) (n : Nat) : ∀ s : St, Run iv cap s (List.replicate n .tick) { s with now := s.now + n } := by
  induction n with
  | zero => intro s; exact .nil s
  | succ n ih =>
    intro s
    have h := ih { s with now := s.now + 1 }
    rw [List.replicate_succ]
    refine .cons (.tick s) ?_
    have : s.now + (n + 1) = s.now + 1 + n := by omega
    rw [this]
    exact h

/-- C74, negated: when the context is dropped while a collection is on, the collector does not end, and no longer waits for the
interval: it goes round any number of times without time passing. -/
theorem C74_release_negated (iv cap n : Nat) :
    ∃ s s', Run iv cap St.new [.call 1 true, .store 1, .release] s ∧
      Run iv cap s (List.replicate n [Act.timeout 0, Act.check 0]).flatten s' ∧ s'.now = s.now ∧ (s'.colls 0).pc ≠ .done := by
  have r1 : Run iv cap St.new [.call 1 true, .store 1, .release] _ :=
    .cons (.callNone _ 1 true rfl rfl rfl) (.cons (.store _ 1 rfl rfl)
      (.cons (.release _ (by
        intro j
        by_cases hj : j = 1
        · subst hj; rfl
        · simp [upd_other _ _ _ _ hj, St.new])) (.nil _)))
  have hidle : ∀ j, upd (upd St.new.callers 1 (after true)) 1 Caller.idle j = .idle := by
    intro j
    by_cases hj : j = 1
    · subst hj; rfl
    · simp [upd_other _ _ _ _ hj, St.new]
  have he : ∃ s, Run iv cap St.new [.call 1 true, .store 1, .release] s ∧ (s.colls 0).pc = .wait (0 + iv) ∧
      (s.colls 0).live = false ∧ (∀ j, s.callers j = .idle) ∧ s.callbacks = (s.colls 0).prev :=
    ⟨_, r1, rfl, rfl, hidle, rfl⟩
  obtain ⟨s, b1, b2, b3, b4, b5⟩ := he
  obtain ⟨s', a1, a2, ⟨d, a3⟩, _⟩ := spin iv cap s 0 (0 + iv) b2 b3 b4 b5 n
  exact ⟨s, s', b1, a1, a2, by rw [a3]; simp⟩

/-- C74, negated: if two threads call `start` at the same time, two collectors work, every callback is reported twice, and one
of the collectors survives `stop`. -/
theorem C74_race_negated (iv cap : Nat) (hcap : 2 ≤ cap) :
    ∃ acts s, Run iv cap St.new acts s ∧ s.slot = none ∧ (∀ j, s.callers j = .idle) ∧ (s.colls 0).pc ≠ .done ∧
      s.log = [⟨1, 0, 1⟩, ⟨0, 0, 1⟩] := by
  have r1 : Run iv cap St.new [.call 1 true, .call 2 true, .store 1, .store 2, .render] _ :=
    .cons (.callNone _ 1 true rfl rfl rfl) (.cons (.callNone _ 2 true rfl rfl rfl) (.cons (.store _ 1 rfl rfl)
      (.cons (.store _ 2 rfl rfl) (.cons (.render _) (.nil _)))))
  have r2 := run_append r1 (ticks iv cap iv _)
  have nop : ∀ (f : Nat → Caller), (∀ j, f j = .idle) → ∀ k, ¬ ∃ j r, f j = .rendezvous k r := by
    rintro f hf k ⟨j, r, hj⟩
    rw [hf j] at hj
    cases hj
  have hidle : ∀ j, upd (upd (upd (upd St.new.callers 1 (after true)) 2 (after true)) 1 Caller.idle) 2 Caller.idle j = .idle := by
    intro j
    by_cases h2 : j = 2
    · subst h2; rfl
    · rw [upd_other _ _ _ _ h2]
      by_cases h1 : j = 1
      · subst h1; rfl
      · rw [upd_other _ _ _ _ h1, upd_other _ _ _ _ h2, upd_other _ _ _ _ h1]; rfl
  have r3 := run_append r2
    (.cons (.timeout _ 0 (0 + iv) rfl (.inr rfl) (nop _ hidle 0))
    (.cons (.news _ 0 rfl (show (1 : Nat) ≠ 0 by decide))
    (.cons (.send _ 0 1 rfl (show 0 < cap by omega))
    (.cons (.timeout _ 1 (0 + iv) rfl (.inl (Nat.le_refl _)) (nop _ hidle 1))
    (.cons (.news _ 1 rfl (show (1 : Nat) ≠ 0 by decide))
    (.cons (.send _ 1 1 rfl (show 1 < cap by omega))
    (.cons (.callSome _ 1 1 false rfl rfl rfl)
    (.cons (.meet _ 1 1 _ false rfl rfl) (.nil _)))))))))
  refine ⟨_, _, r3, rfl, ?_, ?_, rfl⟩
  · intro j
    show upd (upd _ 1 _) 1 Caller.idle j = .idle
    by_cases h1 : j = 1
    · subst h1; rfl
    · rw [upd_other _ _ _ _ h1, upd_other _ _ _ _ h1]; exact hidle j
  · show ¬ (Pc.wait _ = Pc.done)
    intro h
    cases h

/-- C74, negated: `stop` called by an event handler, while the collector waits for room in the event queue, never returns, and
with it the event thread stops. -/
theorem C74_handler_negated {iv cap : Nat} {s s' : St} {k m : Nat} {r : Bool} {acts : List Act}
    (h1 : s.callers 0 = .rendezvous k r) (h2 : (s.colls k).pc = .send m) (h3 : cap ≤ s.queue.length)
    (hk : k < s.n) (hr : Run iv cap s acts s') :
    s'.callers 0 = .rendezvous k r ∧ (s'.colls k).pc = .send m ∧ cap ≤ s'.queue.length := by
  induction hr with
  | nil => exact ⟨h1, h2, h3⟩
  | @cons s t u a as hs _ ih =>
    have hcaller : ∀ (j : Nat) (v : Caller), s.callers j ≠ .rendezvous k r → upd s.callers j v 0 = .rendezvous k r := by
      intro j v hj
      by_cases h : 0 = j
      · subst h; exact absurd h1 hj
      · rw [upd_other _ _ _ _ h]; exact h1
    have hcoll : ∀ (i : Nat) (c : Coll), (s.colls i).pc ≠ .send m → (upd s.colls i c k).pc = .send m := by
      intro i c hi
      by_cases h : k = i
      · subst h; exact absurd h2 hi
      · rw [upd_other _ _ _ _ h]; exact h2
    have hdrop : (dropSender s k).pc = .send m := by rw [(dropSender_pc s k).1]; exact h2
    have hstep : t.callers 0 = .rendezvous k r ∧ (t.colls k).pc = .send m ∧ cap ≤ t.queue.length ∧ k < t.n := by
      cases hs with
      | tick => exact ⟨h1, h2, h3, hk⟩
      | render => exact ⟨h1, h2, h3, hk⟩
      | callNone j q a1 a2 a3 => exact ⟨hcaller j _ (by rw [a1]; simp), h2, h3, hk⟩
      | callSome j i q a1 a2 a3 => exact ⟨hcaller j _ (by rw [a1]; simp), h2, h3, hk⟩
      | meet j i d q a1 a2 =>
        have hki : k ≠ i := by
          rintro rfl
          rw [h2] at a2; cases a2
        exact ⟨hcaller j _ (by rw [a1]; simp only [ne_eq, Caller.rendezvous.injEq]; exact fun h => hki h.1.symm),
          by show (upd s.colls i _ k).pc = _; rw [upd_other _ _ _ _ hki]; exact h2, h3, hk⟩
      | meetDone j i q a1 a2 =>
        have hki : k ≠ i := by
          rintro rfl
          rw [h2] at a2; cases a2
        exact ⟨hcaller j _ (by rw [a1]; simp only [ne_eq, Caller.rendezvous.injEq]; exact fun h => hki h.1.symm), h2, h3, hk⟩
      | store j a1 a2 =>
        refine ⟨hcaller j _ (by rw [a1]; simp), ?_, h3, by show k < s.n + 1; omega⟩
        show (upd (dropSender s) s.n _ k).pc = _
        rw [upd_other _ _ _ _ (by omega)]
        exact hdrop
      | timeout i d a1 a2 a3 => exact ⟨h1, hcoll i _ (by rw [a1]; simp), h3, hk⟩
      | same i a1 a2 => exact ⟨h1, hcoll i _ (by rw [a1]; simp), h3, hk⟩
      | news i a1 a2 => exact ⟨h1, hcoll i _ (by rw [a1]; simp), h3, hk⟩
      | send i q a1 a2 => exact absurd h3 (by omega)
      | handle e q a1 a2 => rw [h1] at a1; cases a1
      | release a1 => rw [a1 0] at h1; cases h1
    exact ih hstep.1 hstep.2.1 hstep.2.2.1 hstep.2.2.2

/-! ## Examples -/

/-- A collection with one event, then `stop`. -/
example : ∃ s, Run 0 256 St.new [.call 1 true, .store 1, .render, .render, .timeout 0, .check 0, .send 0, .handle, .call 1 false,
    .meet 1] s ∧ s.log = [⟨0, 0, 2⟩] ∧ s.slot = none ∧ (s.colls 0).pc = .done := by
  refine ⟨_, .cons (.callNone _ 1 true rfl rfl rfl) (.cons (.store _ 1 rfl rfl) (.cons (.render _) (.cons (.render _)
    (.cons (.timeout _ 0 0 rfl (.inl (Nat.le_refl _)) ?_) (.cons (.news _ 0 rfl (by decide)) (.cons (.send _ 0 2 rfl (by decide))
    (.cons (.handle _ ⟨0, 0, 2⟩ [] rfl rfl) (.cons (.callSome _ 1 0 false rfl rfl rfl) (.cons (.meet _ 1 0 0 false rfl rfl) (.nil _)))))))))),
    rfl, rfl, rfl⟩
  rintro ⟨j, r, hj⟩
  by_cases h1 : j = 1
  · subst h1; cases hj
  · simp [upd_other _ _ _ _ h1, St.new] at hj

/-- The hypotheses of `C74_handler_negated` (with a queue for one event). -/
example : ∃ s, Run 0 1 St.new [.call 1 true, .store 1, .render, .timeout 0, .check 0, .send 0, .handle, .render, .timeout 0,
      .check 0, .send 0, .render, .timeout 0, .check 0, .call 0 false] s ∧
    s.callers 0 = .rendezvous 0 false ∧ (s.colls 0).pc = .send 3 ∧ 1 ≤ s.queue.length ∧ 0 < s.n := by
  have nop : ¬ ∃ j r, upd (upd St.new.callers 1 (after true)) 1 Caller.idle j = .rendezvous 0 r := by
    rintro ⟨j, r, hj⟩
    by_cases h1 : j = 1
    · subst h1; cases hj
    · rw [upd_other _ _ _ _ h1, upd_other _ _ _ _ h1] at hj; cases hj
  exact ⟨_, .cons (.callNone _ 1 true rfl rfl rfl) (.cons (.store _ 1 rfl rfl) (.cons (.render _)
    (.cons (.timeout _ 0 0 rfl (.inl (Nat.le_refl _)) nop) (.cons (.news _ 0 rfl (by decide)) (.cons (.send _ 0 1 rfl (by decide))
    (.cons (.handle _ ⟨0, 0, 1⟩ [] rfl rfl) (.cons (.render _) (.cons (.timeout _ 0 0 rfl (.inl (Nat.le_refl _)) nop)
    (.cons (.news _ 0 rfl (by decide)) (.cons (.send _ 0 2 rfl (by decide)) (.cons (.render _)
    (.cons (.timeout _ 0 0 rfl (.inl (Nat.le_refl _)) nop) (.cons (.news _ 0 rfl (by decide))
    (.cons (.callSome _ 0 0 false rfl rfl rfl) (.nil _))))))))))))))),
    rfl, rfl, by decide, by decide⟩

end Verif.Capacity
