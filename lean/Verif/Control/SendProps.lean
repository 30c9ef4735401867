import Verif.Control.SendModel

/-!
# C19: order and delivery of control messages
-/

namespace Verif.Control

/-- messages of thread `i` -/
def of (i : Nat) (l : List Msg) : List Msg := l.filter fun m => m.tid = i

theorem of_append (i : Nat) (a b : List Msg) : of i (a ++ b) = of i a ++ of i b := by simp [of]

theorem of_cons (i : Nat) (m : Msg) (l : List Msg) :
    of i (m :: l) = if m.tid = i then m :: of i l else of i l := by
  simp only [of, List.filter_cons, decide_eq_true_eq]

@[simp] theorem of_nil (i : Nat) : of i [] = [] := rfl

/-- The discipline under which messages are safe: `suspend` is only called when not suspended already,
and a thread makes no call while messages it sent earlier are being flushed by another thread. -/
def careful (s : St) : Act → Prop
  | .send i _ => ∀ k, of i (s.pend k) = []
  | .suspend i _ => (∀ k, of i (s.pend k) = []) ∧ s.buf = none
  | .resume i _ => ∀ k, of i (s.pend k) = []
  | .push _ => True

/-- all steps of a history are careful -/
def Careful : St → List Act → Prop
  | _, [] => True
  | s, a :: as => careful s a ∧ ∀ s', step s a = some s' → Careful s' as

structure Inv (s : St) : Prop where
  buf : ∀ i, of i (s.buf.getD []) = [] ∨ ∀ k, of i (s.pend k) = []
  order : ∀ i, ∃ j, (∀ k, k ≠ j → of i (s.pend k) = []) ∧
    of i s.chan ++ of i (s.pend j) ++ of i (s.buf.getD []) = of i s.issued

theorem inv_step {s s' : St} {a : Act} (hs : Inv s) (hc : careful s a) (h : step s a = some s') :
    Inv s' := by
  -- the threads other than the caller: the new message is not theirs
  have other : ∀ i i' n, i' ≠ i → of i' [⟨i, n⟩] = [] := by
    intro i i' n h; simp [of, Ne.symm h]
  cases a with
  | send i n =>
    simp only [step] at h
    split at h
    · rename_i hp
      simp only [careful] at hc
      split at h
      · rename_i l hl
        simp only [Option.some.injEq] at h
        subst h
        refine ⟨fun i' => ?_, fun i' => ?_⟩
        · by_cases hi : i' = i
          · subst hi; exact .inr hc
          · have := hs.buf i'
            simp only [hl, Option.getD_some, of_append, other i i' n hi, List.append_nil] at this ⊢
            exact this
        · obtain ⟨j, h1, h2⟩ := hs.order i'
          refine ⟨j, h1, ?_⟩
          simp only [hl, Option.getD_some, of_append] at h2 ⊢
          rw [← h2]; simp
      · rename_i hl
        simp only [Option.some.injEq] at h
        subst h
        refine ⟨fun i' => .inl (by simp [hl]), fun i' => ?_⟩
        by_cases hi : i' = i
        · subst hi
          obtain ⟨j, h1, h2⟩ := hs.order i'
          refine ⟨i', ?_, ?_⟩
          · intro k hk; simp only [Function.update_of_ne hk]; exact hc k
          · rw [hc j] at h2
            simp only [hl, Option.getD_none, of_nil, List.append_nil, Function.update_self, of_append] at h2 ⊢
            rw [h2]
        · obtain ⟨j, h1, h2⟩ := hs.order i'
          have e : ∀ k, of i' (Function.update s.pend i [⟨i, n⟩] k) = of i' (s.pend k) := by
            intro k
            by_cases hk : k = i
            · subst hk; simp [other k i' n hi, hp]
            · simp [Function.update_of_ne hk]
          refine ⟨j, fun k hk => by rw [e]; exact h1 k hk, ?_⟩
          simp only [e, of_append, other i i' n hi, List.append_nil]; exact h2
    · cases h
  | suspend i n =>
    simp only [step] at h
    split at h
    · rename_i hp
      obtain ⟨hc, hl⟩ := hc
      simp only [Option.some.injEq] at h
      subst h
      refine ⟨fun i' => .inl (by simp), fun i' => ?_⟩
      by_cases hi : i' = i
      · subst hi
        obtain ⟨j, h1, h2⟩ := hs.order i'
        refine ⟨i', ?_, ?_⟩
        · intro k hk; simp only [Function.update_of_ne hk]; exact hc k
        · rw [hc j] at h2
          simp only [hl, Option.getD_none, Option.getD_some, of_nil, List.append_nil, Function.update_self, of_append] at h2 ⊢
          rw [h2]
      · obtain ⟨j, h1, h2⟩ := hs.order i'
        have e : ∀ k, of i' (Function.update s.pend i [⟨i, n⟩] k) = of i' (s.pend k) := by
          intro k
          by_cases hk : k = i
          · subst hk; simp [other k i' n hi, hp]
          · simp [Function.update_of_ne hk]
        refine ⟨j, fun k hk => by rw [e]; exact h1 k hk, ?_⟩
        simp only [hl, Option.getD_none] at h2
        simp only [e, of_append, other i i' n hi, List.append_nil, Option.getD_some]; exact h2
    · cases h
  | resume i n =>
    simp only [step] at h
    split at h
    · rename_i hp
      simp only [careful] at hc
      simp only [Option.some.injEq] at h
      subst h
      refine ⟨fun i' => .inl (by simp), fun i' => ?_⟩
      obtain ⟨j, h1, h2⟩ := hs.order i'
      rcases hs.buf i' with hb | hb
      · by_cases hi : i' = i
        · subst hi
          refine ⟨i', ?_, ?_⟩
          · intro k hk; simp only [Function.update_of_ne hk]; exact hc k
          · rw [hc j, hb] at h2
            simp only [Option.getD_none, of_nil, List.append_nil, Function.update_self, of_append, hb] at h2 ⊢
            rw [h2]; simp
        · have e : ∀ k, of i' (Function.update s.pend i (s.buf.getD [] ++ [⟨i, n⟩]) k) =
              of i' (s.pend k) := by
            intro k
            by_cases hk : k = i
            · subst hk; simp [of_append, other k i' n hi, hp, hb]
            · simp [Function.update_of_ne hk]
          refine ⟨j, fun k hk => by rw [e]; exact h1 k hk, ?_⟩
          rw [hb] at h2
          simp only [e, of_append, other i i' n hi, List.append_nil, Option.getD_none, of_nil] at h2 ⊢
          exact h2
      · refine ⟨i, ?_, ?_⟩
        · intro k hk; simp only [Function.update_of_ne hk]; exact hb k
        · rw [hb j] at h2
          simp only [Option.getD_none, of_nil, List.append_nil, Function.update_self, of_append] at h2 ⊢
          rw [← h2]; simp
    · cases h
  | push i =>
    simp only [step] at h
    split at h
    · rename_i m l hp
      simp only [Option.some.injEq] at h
      subst h
      refine ⟨fun i' => ?_, fun i' => ?_⟩
      · rcases hs.buf i' with hb | hb
        · exact .inl hb
        · right
          intro k
          by_cases hk : k = i
          · subst hk
            have := hb k
            rw [hp, of_cons] at this
            split at this
            · cases this
            · simpa using this
          · simp only [Function.update_of_ne hk]; exact hb k
      · obtain ⟨j, h1, h2⟩ := hs.order i'
        by_cases hji : j = i
        · subst hji
          refine ⟨j, fun k hk => by simp only [Function.update_of_ne hk]; exact h1 k hk, ?_⟩
          rw [← h2, hp]
          simp only [Function.update_self, of_append, of_cons]
          split <;> simp
        · have hm := h1 i (Ne.symm hji)
          rw [hp, of_cons] at hm
          split at hm
          · cases hm
          · rename_i hne
            refine ⟨j, ?_, ?_⟩
            · intro k hk
              by_cases hk' : k = i
              · subst hk'; simpa using hm
              · simp only [Function.update_of_ne hk']; exact h1 k hk
            · simp only [Function.update_of_ne hji, of_append, of_cons, if_neg hne, of_nil, List.append_nil]
              exact h2
    · cases h

theorem inv_run {s s' : St} {as : List Act} (hs : Inv s) (hc : Careful s as) (h : run s as = some s') :
    Inv s' := by
  induction as generalizing s with
  | nil => simp only [run, Option.some.injEq] at h; subst h; exact hs
  | cons a as ih =>
    simp only [run, Option.bind_eq_some_iff] at h
    obtain ⟨s1, h1, h2⟩ := h
    exact ih (inv_step hs hc.1 h1) (hc.2 s1 h1) h2

/-- C19: in every interleaving of any number of control threads that follows the discipline `Careful`:
what the render thread processes from a thread is always an initial part of what that thread issued, in
program order; when no call is in progress and the context is not suspended, everything has been sent,
exactly once and in order. Missing for the full claim: without the discipline messages are lost or
reordered, see `C19_negated_lost` and `C19_negated_order`. -/
theorem C19_order_partial {s : St} {as : List Act} (hc : Careful {} as) (h : run {} as = some s) (i : Nat) :
    of i s.chan <+: of i s.issued ∧
      ((∀ k, s.pend k = []) → s.buf = none → of i s.chan = of i s.issued) := by
  have h0 : Inv {} := ⟨fun i => .inl rfl, fun i => ⟨0, by intros; rfl, rfl⟩⟩
  obtain ⟨j, _, h2⟩ := (inv_run h0 hc h).order i
  refine ⟨⟨_, by rw [← h2, List.append_assoc]⟩, fun hp hb => ?_⟩
  rw [← h2, hp j, hb]; simp

/-- Every call of a thread is issued: `issued` is the history of calls. -/
def callOf : Act → List Msg
  | .send i n => [⟨i, n⟩]
  | .suspend i n => [⟨i, n⟩]
  | .resume i n => [⟨i, n⟩]
  | .push _ => []

/-- C19: the record of issued messages is what the calls of the history issued, in order. -/
theorem C19_issued {s s' : St} {as : List Act} (h : run s as = some s') :
    s'.issued = s.issued ++ as.flatMap callOf := by
  induction as generalizing s with
  | nil => simp only [run, Option.some.injEq] at h; subst h; simp
  | cons a as ih =>
    simp only [run, Option.bind_eq_some_iff] at h
    obtain ⟨s1, h1, h2⟩ := h
    rw [ih h2]
    have : s1.issued = s.issued ++ callOf a := by
      cases a <;> simp only [step] at h1 <;> split at h1 <;> try cases h1
      · split at h1 <;> (simp only [Option.some.injEq] at h1; subst h1; rfl)
      all_goals simp [callOf]
    rw [this]; simp

/-- A careful history of two threads: thread 1 suspends, thread 2 sends twice, thread 1 resumes and
flushes, thread 2 sends again. -/
def demo : List Act :=
  [.send 2 0, .push 2, .suspend 1 1, .push 1, .send 2 2, .send 2 3, .resume 1 4, .push 1, .push 1,
    .push 1, .send 2 5, .push 2]

example : Careful {} demo ∧ (run {} demo).map (fun s => (s.chan, s.buf)) =
    some ([⟨2, 0⟩, ⟨1, 1⟩, ⟨2, 2⟩, ⟨2, 3⟩, ⟨1, 4⟩, ⟨2, 5⟩], none) := by
  refine ⟨?_, by decide +kernel⟩
  simp [demo, Careful, careful, step, of, Function.update]

/-- C19 fails: messages are lost when `suspend` is called again before the render thread has processed
the first call (`AudioContext::suspend` is asynchronous and only checks `state()`, online.rs l.523-542):
`suspended_messages` is overwritten. One thread. -/
theorem C19_negated_lost :
    ∃ s, run {} [.suspend 0 0, .push 0, .send 0 1, .suspend 0 2, .push 0, .resume 0 3, .push 0] = some s ∧
      (∀ k, s.pend k = []) ∧ s.buf = none ∧ (⟨0, 1⟩ : Msg) ∈ s.issued ∧ ⟨0, 1⟩ ∉ s.chan := by
  refine ⟨_, rfl, ?_, rfl, by decide, by decide⟩
  intro k
  by_cases h : k = 0
  · subst h; rfl
  · simp [Function.update, h]

/-- C19 fails: a thread's messages are reordered when another thread resumes the context: message 1 is
still waiting to be flushed by thread 1 when message 3 of the same thread goes directly to the
channel. -/
theorem C19_negated_order :
    ∃ s, run {} [.suspend 1 0, .push 1, .send 2 1, .resume 1 2, .send 2 3, .push 2, .push 1, .push 1] =
        some s ∧
      (∀ k, s.pend k = []) ∧ s.buf = none ∧ of 2 s.issued = [⟨2, 1⟩, ⟨2, 3⟩] ∧
      of 2 s.chan = [⟨2, 3⟩, ⟨2, 1⟩] := by
  refine ⟨_, rfl, ?_, rfl, by decide, by decide⟩
  intro k
  by_cases h : k = 1
  · subst h; rfl
  · by_cases h2 : k = 2
    · subst h2; rfl
    · simp [Function.update, h, h2]

end Verif.Control
