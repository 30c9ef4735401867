import Mathlib.Data.List.Basic
import Mathlib.Tactic.Cases

/-!
# Model of asynchronous suspension of an offline context, and C82

Models `OfflineAudioContext::{start_rendering, suspend, resume}` (`/repo/src/context/offline.rs` l.198-230,
l.294-320, l.394-397), `RenderThread::render_audiobuffer` (`/repo/src/render/thread.rs` l.309-352) and
`ConcreteBaseAudioContext::set_state` (`/repo/src/context/concrete_base.rs` l.393-401), as steps of the three
kinds of futures: the rendering, the promises of `suspend`, and the calls of `resume`.

The channel of `resume` is `futures::channel::mpsc::channel(0)` with a fresh clone of the sender for every
call, so every call deposits its token at once (each sender has a slot of its own) and then waits; a token
stays until the renderer takes it. When the renderer is gone the deposit fails and `unwrap` panics. The
quanta of the suspensions are given; how they are computed is in `Verif.Thread.OfflineModel`. Promises
that are dropped are not modelled here (`C18_negated_dropped`). Waiting for `num_frames` quanta to go and
the quantum after a suspension are one step.
-/

namespace Verif.Events.Suspend

inductive CtxState where
  | suspended
  | running
  | closed
deriving DecidableEq, Repr

/-- the future of `start_rendering` -/
inductive Phase where
  | idle
  /-- about to do quantum `q` -/
  | run (q : Nat)
  /-- in `resume_receiver.next().await` before quantum `q`, thread.rs l.332 -/
  | wait (q : Nat)
  | done
deriving DecidableEq, Repr

/-- Ghost: what the user can see, in order -/
inductive Tr where
  | quantum (q : Nat)
  /-- the promise of the suspension before quantum `q` is resolved -/
  | resolved (q : Nat)
  /-- `resume` was called -/
  | resume
  /-- the promise of the rendering is resolved -/
  | finished
deriving DecidableEq, Repr

structure St where
  /-- suspensions to come -/
  sched : List Nat
  phase : Phase := .idle
  tokens : Nat := 0
  /-- suspensions whose promise was notified, but has not run yet -/
  notified : List Nat := []
  /-- the state that the user reads -/
  state : CtxState := .suspended
  trace : List Tr := []
deriving DecidableEq, Repr

inductive Act where
  | start
  | tick
  | proceed
  | wake (q : Nat)
  | resume
deriving DecidableEq, Repr

/-- One step for a rendering of `n` quanta; `none`: not possible now. -/
def step (n : Nat) (s : St) : Act → Option St
  -- offline.rs l.198-215
  | .start => if s.phase = .idle then some { s with phase := .run 0, state := .running } else none
  -- thread.rs l.327-345, and offline.rs l.221 at the end
  | .tick =>
    match s.phase with
    | .run q =>
      if q < n then
        if s.sched.head? = some q then
          some { s with sched := s.sched.tail, phase := .wait q, notified := s.notified ++ [q] }
        else some { s with phase := .run (q + 1), trace := s.trace ++ [.quantum q] }
      else some { s with phase := .done, state := .closed, trace := s.trace ++ [.finished] }
    | _ => none
  -- thread.rs l.332-344
  | .proceed =>
    match s.phase, s.tokens with
    | .wait q, k + 1 => some { s with tokens := k, phase := .run (q + 1), trace := s.trace ++ [.quantum q] }
    | _, _ => none
  -- offline.rs l.318-319
  | .wake q =>
    if q ∈ s.notified then
      some { s with notified := s.notified.erase q, state := .suspended, trace := s.trace ++ [.resolved q] }
    else none
  -- offline.rs l.394-397; in phase `done` the call panics, after the state was changed
  | .resume =>
    some { s with
      tokens := if s.phase = .done then s.tokens else s.tokens + 1
      state := .running
      trace := s.trace ++ [.resume] }

def run (n : Nat) : St → List Act → Option St
  | s, [] => some s
  | s, a :: as =>
    match step n s a with
    | none => none
    | some s => run n s as

/-! ## Specification -/

/-- The user calls `resume` once after every resolved suspension, and never otherwise. `o`: the last
suspension has not been resumed yet. -/
def Disciplined : Bool → List Act → Prop
  | _, [] => True
  | _, .wake _ :: as => Disciplined true as
  | o, .resume :: as => o = true ∧ Disciplined false as
  | o, .start :: as => Disciplined o as
  | o, .tick :: as => Disciplined o as
  | o, .proceed :: as => Disciplined o as

/-- What the user knows from the trace -/
structure View where
  /-- number of quanta rendered -/
  q : Nat := 0
  /-- suspended and not resumed -/
  «open» : Bool := false
  /-- the suspension before quantum `q` was announced -/
  here : Bool := false
  finished : Bool := false
deriving DecidableEq, Repr

/-- What may happen next: quanta in order, not while suspended, not without the suspension that was asked
for; a suspension that was asked for, at its quantum and only once; `resume` while suspended; the end after
`n` quanta, and nothing afterwards. -/
def View.next (n : Nat) (asked : List Nat) (v : View) : Tr → Option View
  | .quantum k =>
    if k = v.q ∧ k < n ∧ v.open = false ∧ v.finished = false ∧ (k ∈ asked → v.here = true) then
      some { q := v.q + 1 }
    else none
  | .resolved k =>
    if k = v.q ∧ k < n ∧ v.here = false ∧ v.finished = false ∧ k ∈ asked then
      some { v with «open» := true, here := true }
    else none
  | .resume => if v.open then some { v with «open» := false } else none
  | .finished => if v.q = n ∧ v.open = false ∧ v.finished = false then some { v with finished := true } else none

def view (n : Nat) (asked : List Nat) : List Tr → Option View :=
  List.foldl (fun v t => v.bind (·.next n asked t)) (some {})

/-- the state that the context should have -/
def View.state (started : Bool) (v : View) : CtxState :=
  if v.finished then .closed
  else if v.open then .suspended
  else if started then .running
  else .suspended

/-! ## Proofs -/

theorem view_snoc {n : Nat} {asked : List Nat} {tr : List Tr} {v : View} (h : view n asked tr = some v) (t : Tr) :
    view n asked (tr ++ [t]) = v.next n asked t := by
  unfold view at h ⊢
  rw [List.foldl_append, h]; rfl

structure Inv (n : Nat) (asked : List Nat) (s : St) (v : View) : Prop where
  view : view n asked s.trace = some v
  sorted : s.sched.Pairwise (· < ·)
  sched : ∀ x, x ∈ s.sched ↔ x ∈ asked ∧ v.q ≤ x ∧ (s.phase = .wait v.q → v.q < x)
  phase :
    (s.phase = .idle ∧ v = {} ∧ s.tokens = 0 ∧ s.notified = [] ∧ s.state = .suspended) ∨
    (s.phase = .run v.q ∧ v.q ≤ n ∧ v.open = false ∧ v.here = false ∧ v.finished = false ∧ s.tokens = 0 ∧
      s.notified = [] ∧ s.state = .running) ∨
    (s.phase = .wait v.q ∧ v.q < n ∧ v.q ∈ asked ∧ v.finished = false ∧
      ((v.open = false ∧ v.here = false ∧ s.tokens = 0 ∧ s.notified = [v.q] ∧ s.state = .running) ∨
       (v.open = true ∧ v.here = true ∧ s.tokens = 0 ∧ s.notified = [] ∧ s.state = .suspended) ∨
       (v.open = false ∧ v.here = true ∧ s.tokens = 1 ∧ s.notified = [] ∧ s.state = .running))) ∨
    (s.phase = .done ∧ v.open = false ∧ v.finished = true ∧ s.tokens = 0 ∧ s.notified = [] ∧
      s.state = .closed)

theorem inv_step {n : Nat} {asked : List Nat} {s s' : St} {v : View} {a : Act} (hi : Inv n asked s v)
    (hd : a = .resume → v.open = true) (h : step n s a = some s') :
    ∃ v', Inv n asked s' v' ∧ (v'.open = match a with | .wake _ => true | .resume => false | _ => v.open) := by
  obtain ⟨hv, hs, hm, hp⟩ := hi
  cases a with
  | start =>
    simp only [step] at h
    split at h
    · rename_i hidle
      obtain rfl := Option.some.inj h
      rcases hp with hp | hp | hp | hp
      · obtain ⟨-, rfl, h1, h2, -⟩ := hp
        refine ⟨{}, ⟨hv, hs, ?_, Or.inr (Or.inl ?_)⟩, rfl⟩
        · intro x; simpa [hidle] using hm x
        · simp [h1, h2]
      all_goals simp [hp.1] at hidle
    · cases h
  | tick =>
    simp only [step] at h
    rcases hp with hp | hp | hp | hp
    · simp [hp.1] at h
    · obtain ⟨hph, hle, ho, hh, hf, ht, hn, hst⟩ := hp
      rw [hph] at h
      simp only at h
      split at h
      · rename_i hlt
        split at h
        · rename_i hhead
          obtain rfl := Option.some.inj h
          obtain ⟨l, hl⟩ : ∃ l, s.sched = v.q :: l := by
            rcases hx : s.sched with _ | ⟨y, l⟩
            · simp [hx] at hhead
            · simp [hx] at hhead; exact ⟨l, by rw [hhead]⟩
          have hqin : v.q ∈ asked := ((hm v.q).1 (by rw [hl]; simp)).1
          refine ⟨v, ⟨hv, ?_, ?_, Or.inr (Or.inr (Or.inl ?_))⟩, rfl⟩
          · rw [hl] at hs ⊢; exact (List.pairwise_cons.1 hs).2
          · intro x
            have hx := hm x
            rw [hl] at hx hs ⊢
            have hgt := (List.pairwise_cons.1 hs).1
            simp only [List.tail_cons, hph] at hx ⊢
            constructor
            · intro hxl
              have := hgt x hxl
              exact ⟨(hx.1 (List.mem_cons_of_mem _ hxl)).1, by omega, fun _ => this⟩
            · rintro ⟨h1, h2, h3⟩
              have h3 := h3 trivial
              have := hx.2 ⟨h1, h2, by simp⟩
              rcases List.mem_cons.1 this with e | e
              · omega
              · exact e
          · exact ⟨rfl, hlt, hqin, hf, Or.inl ⟨ho, hh, ht, by simp [hn], hst⟩⟩
        · rename_i hhead
          obtain rfl := Option.some.inj h
          have hnot : v.q ∉ asked := by
            intro hin
            have hmem := (hm v.q).2 ⟨hin, Nat.le_refl _, by simp [hph]⟩
            rcases hx : s.sched with _ | ⟨y, l⟩
            · simp [hx] at hmem
            · rw [hx] at hmem hs hhead
              have hy : y ∈ s.sched := by rw [hx]; simp
              have hge := ((hm y).1 hy).2.1
              rcases List.mem_cons.1 hmem with e | e
              · simp [e] at hhead
              · have := (List.pairwise_cons.1 hs).1 _ e; omega
          refine ⟨{ q := v.q + 1 }, ⟨?_, hs, ?_, Or.inr (Or.inl ?_)⟩, ho.symm⟩
          · rw [view_snoc hv]
            simp [View.next, ho, hf, hlt, hnot]
          · intro x
            have hx := hm x
            simp only [hph] at hx ⊢
            rw [hx]
            constructor
            · rintro ⟨h1, h2, -⟩
              have : v.q ≠ x := by rintro rfl; exact hnot h1
              exact ⟨h1, by omega, by simp⟩
            · rintro ⟨h1, h2, -⟩; exact ⟨h1, by omega, by simp⟩
          · exact ⟨rfl, hlt, rfl, rfl, rfl, ht, hn, hst⟩
      · rename_i hge
        obtain rfl := Option.some.inj h
        have hq : v.q = n := by omega
        refine ⟨{ v with finished := true }, ⟨?_, hs, ?_, Or.inr (Or.inr (Or.inr ?_))⟩, rfl⟩
        · rw [view_snoc hv]
          simp [View.next, ho, hf, hq]
        · intro x
          have hx := hm x
          simpa [hph] using hx
        · exact ⟨rfl, ho, rfl, ht, hn, rfl⟩
    · simp [hp.1] at h
    · simp [hp.1] at h
  | proceed =>
    simp only [step] at h
    split at h
    · rename_i q k hph htok
      obtain rfl := Option.some.inj h
      rcases hp with hp | hp | hp | hp
      · simp [hph] at hp
      · simp [hph] at hp
      · obtain ⟨hph', hlt, hin, hf, hp⟩ := hp
        rw [hph] at hph'
        obtain rfl := Phase.wait.inj hph'
        rcases hp with hp | hp | hp
        · rw [hp.2.2.1] at htok; simp at htok
        · rw [hp.2.2.1] at htok; simp at htok
        · obtain ⟨ho, hh, ht, hn, hst⟩ := hp
          refine ⟨{ q := v.q + 1 }, ⟨?_, hs, ?_, Or.inr (Or.inl ?_)⟩, ho.symm⟩
          · rw [view_snoc hv]
            simp [View.next, ho, hf, hlt, hh]
          · intro x
            have hx := hm x
            simp only [hph] at hx ⊢
            rw [hx]
            constructor
            · rintro ⟨h1, h2, h3⟩
              have := h3 trivial
              exact ⟨h1, by omega, by simp⟩
            · rintro ⟨h1, h2, -⟩; exact ⟨h1, by omega, fun _ => by omega⟩
          · exact ⟨rfl, hlt, rfl, rfl, rfl, by show k = 0; omega, hn, hst⟩
      · simp [hph] at hp
    · cases h
  | wake q =>
    simp only [step] at h
    split at h
    · rename_i hmem
      obtain rfl := Option.some.inj h
      rcases hp with hp | hp | hp | hp
      · simp [hp.2.2.2.1] at hmem
      · simp [hp.2.2.2.2.2.2.1] at hmem
      · obtain ⟨hph, hlt, hin, hf, hp⟩ := hp
        rcases hp with hp | hp | hp
        · obtain ⟨ho, hh, ht, hn, hst⟩ := hp
          rw [hn] at hmem
          obtain rfl := List.mem_singleton.1 hmem
          refine ⟨{ v with «open» := true, here := true }, ⟨?_, hs, hm, Or.inr (Or.inr (Or.inl ?_))⟩, rfl⟩
          · rw [view_snoc hv]
            simp [View.next, hf, hlt, hh, hin]
          · exact ⟨hph, hlt, hin, hf, Or.inr (Or.inl ⟨rfl, rfl, ht, by simp [hn], rfl⟩)⟩
        · simp [hp.2.2.2.1] at hmem
        · simp [hp.2.2.2.1] at hmem
      · simp [hp.2.2.2.2.1] at hmem
    · cases h
  | resume =>
    have ho := hd rfl
    simp only [step] at h
    obtain rfl := Option.some.inj h
    rcases hp with hp | hp | hp | hp
    · rw [hp.2.1] at ho; simp at ho
    · rw [hp.2.2.1] at ho; simp at ho
    · obtain ⟨hph, hlt, hin, hf, hp⟩ := hp
      rcases hp with hp | hp | hp
      · rw [hp.1] at ho; simp at ho
      · obtain ⟨-, hh, ht, hn, hst⟩ := hp
        refine ⟨{ v with «open» := false }, ⟨?_, hs, hm, Or.inr (Or.inr (Or.inl ?_))⟩, rfl⟩
        · rw [view_snoc hv]
          simp [View.next, ho]
        · exact ⟨hph, hlt, hin, hf, Or.inr (Or.inr ⟨rfl, hh, by simp [hph, ht], hn, rfl⟩)⟩
      · rw [hp.1] at ho; simp at ho
    · rw [hp.2.1] at ho; simp at ho

theorem inv_run {n : Nat} {asked : List Nat} {as : List Act} {s s' : St} {v : View} (hi : Inv n asked s v)
    (hd : Disciplined v.open as) (h : run n s as = some s') : ∃ v', Inv n asked s' v' := by
  induction as generalizing s v with
  | nil => obtain rfl := Option.some.inj h; exact ⟨v, hi⟩
  | cons a as ih =>
    simp only [run] at h
    cases hx : step n s a with
    | none => simp [hx] at h
    | some s1 =>
      simp only [hx] at h
      have hd1 : a = .resume → v.open = true := by
        rintro rfl; exact hd.1
      obtain ⟨v', hi', ho⟩ := inv_step hi hd1 hx
      refine ih hi' ?_ h
      rw [ho]
      cases a
      case resume => exact hd.2
      all_goals exact hd

/-! ## C82 -/

/-- When `resume` is called once after every resolved suspension, then for every length and every set of
suspensions: no quantum is rendered while the context is suspended, every suspension happens at its
quantum and only once, the state is always the one that the user expects, and closed is final. In general
false: see the negations. -/
theorem C82_suspended_partial {n : Nat} {asked : List Nat} (hs : asked.Pairwise (· < ·)) {as : List Act}
    {s : St} (hd : Disciplined false as) (h : run n { sched := asked } as = some s) :
    ∃ v, view n asked s.trace = some v ∧ s.state = v.state (s.phase ≠ .idle) := by
  have h0 : Inv n asked { sched := asked } {} := by
    refine ⟨rfl, hs, ?_, Or.inl (by simp)⟩
    intro x; simp
  obtain ⟨v, hi⟩ := inv_run (v := {}) h0 hd h
  refine ⟨v, hi.view, ?_⟩
  rcases hi.phase with hp | hp | hp | hp
  · obtain ⟨h1, rfl, -, -, h5⟩ := hp; simp [View.state, h1, h5]
  · obtain ⟨h1, -, h2, -, h3, -, -, h4⟩ := hp; simp [View.state, h1, h2, h3, h4]
  · obtain ⟨h1, -, -, h3, hp⟩ := hp
    rcases hp with hp | hp | hp <;> simp [View.state, h1, h3, hp.1, hp.2.2.2.2]
  · obtain ⟨h1, -, h3, -, -, h4⟩ := hp; simp [View.state, h3, h4]

/-- the rendering never hangs by itself: unless it waits for the user to resume, or for a promise to run,
it can go on -/
theorem C82_progress_partial {n : Nat} {asked : List Nat} (hs : asked.Pairwise (· < ·)) {as : List Act}
    {s : St} (hd : Disciplined false as) (h : run n { sched := asked } as = some s)
    (hst : s.state = .running) : ∃ a, a ≠ .resume ∧ (step n s a).isSome := by
  have h0 : Inv n asked { sched := asked } {} := by
    refine ⟨rfl, hs, ?_, Or.inl (by simp)⟩
    intro x; simp
  obtain ⟨v, hi⟩ := inv_run (v := {}) h0 hd h
  rcases hi.phase with hp | hp | hp | hp
  · simp [hp.2.2.2.2] at hst
  · refine ⟨.tick, by simp, ?_⟩
    simp only [step, hp.1]
    split
    · split <;> rfl
    · rfl
  · obtain ⟨h1, -, -, h3, hp⟩ := hp
    rcases hp with hp | hp | hp
    · exact ⟨.wake v.q, by simp, by simp [step, hp.2.2.2.1]⟩
    · simp [hp.2.2.2.2] at hst
    · exact ⟨.proceed, by simp, by simp [step, h1, hp.2.2.1]⟩
  · simp [hp.2.2.2.2.2] at hst

/-- `resume` before the rendering has started does not panic, as documented, but stays in force: the
rendering does not stop at the suspension -/
theorem C82_negated_resume_early : ∃ as s, run 2 { sched := [1] } as = some s ∧
    s.trace = [.resume, .quantum 0, .quantum 1] ∧ s.notified = [1] :=
  ⟨[.resume, .start, .tick, .tick, .proceed],
    { sched := [], phase := .run 2, notified := [1], state := .running,
      trace := [.resume, .quantum 0, .quantum 1] }, by decide +kernel, rfl, rfl⟩

/-- ... and the promise of the suspension can be resolved after the end: a closed context becomes
suspended -/
theorem C82_negated_closed_suspended : ∃ as s, run 2 { sched := [1] } as = some s ∧
    s.trace = [.resume, .quantum 0, .quantum 1, .finished, .resolved 1] ∧ s.state = .suspended :=
  ⟨[.resume, .start, .tick, .tick, .proceed, .tick, .wake 1],
    { sched := [], phase := .done, state := .suspended,
      trace := [.resume, .quantum 0, .quantum 1, .finished, .resolved 1] }, by decide +kernel, rfl, rfl⟩

/-- `resume` after the end: the call panics, and the closed context is running again -/
theorem C82_negated_closed_running : ∃ as s, run 1 { sched := [] } as = some s ∧
    s.trace = [.quantum 0, .finished, .resume] ∧ s.state = .running :=
  ⟨[.start, .tick, .tick, .resume],
    { sched := [], phase := .done, state := .running, trace := [.quantum 0, .finished, .resume] },
    by decide +kernel, rfl, rfl⟩

/-- two suspensions, both resumed -/
example : ∃ s, run 3 { sched := [0, 2] } [.start, .tick, .wake 0, .resume, .proceed, .tick, .tick, .wake 2,
      .resume, .proceed, .tick] = some s ∧
    s.trace = [.resolved 0, .resume, .quantum 0, .quantum 1, .resolved 2, .resume, .quantum 2, .finished] ∧
    s.state = .closed :=
  ⟨{ sched := [], phase := .done, state := .closed, trace := [.resolved 0, .resume, .quantum 0, .quantum 1,
    .resolved 2, .resume, .quantum 2, .finished] }, by decide +kernel, rfl, rfl⟩

example : Disciplined false [.start, .tick, .wake 0, .resume, .proceed, .tick, .tick, .wake 2,
      .resume, .proceed, .tick] ∧ ([0, 2] : List Nat).Pairwise (· < ·) := by simp [Disciplined]

end Verif.Events.Suspend
