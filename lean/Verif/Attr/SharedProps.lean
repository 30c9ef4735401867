import Verif.Attr.Shared
import Mathlib.Data.List.Basic

/-!
# C95: settings shared by threads

All threads' calls that are accepted take effect one after the other, in an order which respects the order of each
thread and the real time; the renderer has the value after a first part of this order, and the value that the getters
show as soon as no call and no message is under way.
-/

namespace Verif.Attr

open Verif.Valid (Config Kind Allowed)

section
variable {Call V : Type}

/-- the calls that thread `t` made in an order of calls -/
def ofThread (t : Nat) (os : List (Nat × Call)) : List Call := (os.filter fun p => p.1 == t).map (·.2)

/-- the call of a thread which is accepted but has not had its turn -/
def Pc.waiting : Pc Call → List Call
  | .ready c => [c]
  | _ => []

/-- the call of a thread whose message is not yet sent -/
def Pc.unsent : Pc Call → List Call
  | .wrote c => [c]
  | _ => []

/-- the thread has the mutex -/
def Pc.holds : Pc Call → Bool
  | .wrote _ | .sent => true
  | _ => false

/-- The assertions accept the calls `acc` whatever the value is, as long as it is allowed; and accepted calls keep it
allowed. -/
structure Steady (h : Shared Call V) (P : V → Prop) (acc : Call → Bool) : Prop where
  ok : ∀ v c, P v → (h.ok v c && h.sends c) = acc c
  keep : ∀ v c, P v → acc c = true → P (h.write v c)
  same : ∀ v c, h.recv v c = h.write v c

/-- What holds in every state. -/
structure Inv (h : Shared Call V) (P : V → Prop) (acc : Call → Bool) (v0 : V) (prog : Nat → List Call)
    (s : Threads Call V) : Prop where
  allowed : P s.val
  val : s.val = (s.log.map (·.2)).foldl h.write v0
  mutex : ∀ t, (s.pc t).holds = true ↔ s.owner = some t
  late : ∃ done, s.ren = done.foldl h.write v0 ∧
    s.log.map (·.2) = done ++ s.chan ++ (match s.owner with | none => [] | some u => (s.pc u).unsent)
  order : ∀ t, ofThread t s.log ++ (s.pc t).waiting ++ (s.todo t).filter acc = (prog t).filter acc
  accepted : ∀ p ∈ s.log, acc p.2 = true
  waiting : ∀ t, ∀ c ∈ (s.pc t).waiting, acc c = true

variable {h : Shared Call V} {P : V → Prop} {acc : Call → Bool} {v0 : V} {prog : Nat → List Call}

theorem step_inv (hs : Steady h P acc) {s : Threads Call V} (i : Inv h P acc v0 prog s) (x : Pick) :
    Inv h P acc v0 prog (h.step s x) := by
  cases x with
  | deliver =>
    simp only [Shared.step]
    split
    · exact i
    · rename_i c cs hc
      refine ⟨i.allowed, i.val, i.mutex, ?_, i.order, i.accepted, i.waiting⟩
      obtain ⟨done, h1, h2⟩ := i.late
      refine ⟨done ++ [c], ?_, ?_⟩
      · simp [h1, hs.same]
      · rw [h2, hc]; simp
  | thread t =>
    simp only [Shared.step]
    have hm := i.mutex t
    split
    · rename_i hpc
      split
      · exact i
      · rename_i c cs htodo
        have hord := i.order t
        rw [hpc, htodo] at hord
        have hnot : s.owner ≠ some t := fun ho => by rw [← hm, hpc] at ho; cases ho
        split
        · rename_i hok
          have hacc : acc c = true := by rw [← hs.ok s.val c i.allowed]; exact hok
          refine ⟨i.allowed, i.val, ?_, ?_, ?_, i.accepted, ?_⟩
          · intro u
            by_cases hu : u = t
            · subst hu; simp [Pc.holds, hnot]
            · simpa [hu] using i.mutex u
          · obtain ⟨done, h1, h2⟩ := i.late
            refine ⟨done, h1, ?_⟩
            rw [h2]
            cases ho : s.owner with
            | none => rfl
            | some u =>
              have hu : u ≠ t := fun hu => hnot (hu ▸ ho)
              simp [hu]
          · intro u
            by_cases hu : u = t
            · subst hu
              rw [← hord]
              simp [Pc.waiting, hacc]
            · simpa [hu] using i.order u
          · intro u d hd
            by_cases hu : u = t
            · subst hu
              simp only [Function.update_self, Pc.waiting, List.mem_singleton] at hd
              rw [hd]; exact hacc
            · exact i.waiting u d (by simpa [hu] using hd)
        · rename_i hok
          have hacc : acc c = false := by rw [← hs.ok s.val c i.allowed]; simpa using hok
          refine ⟨i.allowed, i.val, i.mutex, i.late, ?_, i.accepted, i.waiting⟩
          intro u
          by_cases hu : u = t
          · subst hu
            rw [← hord]
            simp [hacc, hpc]
          · simpa [hu] using i.order u
    · rename_i c hpc
      have hacc : acc c = true := i.waiting t c (by rw [hpc]; simp [Pc.waiting])
      cases ho : s.owner with
      | some u => exact i
      | none =>
        dsimp only
        refine ⟨hs.keep _ _ i.allowed hacc, ?_, ?_, ?_, ?_, ?_, ?_⟩
        · simp [i.val]
        · intro u
          by_cases hu : u = t
          · subst hu; simp [Pc.holds]
          · have := i.mutex u
            rw [ho] at this
            simpa [hu, Ne.symm hu] using this
        · obtain ⟨done, h1, h2⟩ := i.late
          rw [ho] at h2
          exact ⟨done, h1, by simp [h2, Pc.unsent]⟩
        · intro u
          by_cases hu : u = t
          · subst hu
            have := i.order u
            rw [hpc] at this
            simpa [ofThread, Pc.waiting] using this
          · have := i.order u
            have hne : (t == u) = false := by simp [Ne.symm hu]
            simpa [ofThread, hu, hne] using this
        · intro p hp
          simp only [List.mem_append, List.mem_singleton] at hp
          rcases hp with hp | rfl
          · exact i.accepted p hp
          · exact hacc
        · intro u d hd
          by_cases hu : u = t
          · subst hu; simp [Pc.waiting] at hd
          · exact i.waiting u d (by simpa [hu] using hd)
    · rename_i c hpc
      have ho : s.owner = some t := hm.1 (by rw [hpc]; rfl)
      refine ⟨i.allowed, i.val, ?_, ?_, ?_, i.accepted, ?_⟩
      · intro u
        by_cases hu : u = t
        · subst hu; simp [Pc.holds, ho]
        · simpa [hu] using i.mutex u
      · obtain ⟨done, h1, h2⟩ := i.late
        rw [ho] at h2
        refine ⟨done, h1, ?_⟩
        simp only [ho]
        rw [h2]
        simp [hpc, Pc.unsent]
      · intro u
        by_cases hu : u = t
        · subst hu
          have := i.order u
          rw [hpc] at this
          simpa [Pc.waiting] using this
        · simpa [hu] using i.order u
      · intro u d hd
        by_cases hu : u = t
        · subst hu; simp [Pc.waiting] at hd
        · exact i.waiting u d (by simpa [hu] using hd)
    · rename_i hpc
      have ho : s.owner = some t := hm.1 (by rw [hpc]; rfl)
      refine ⟨i.allowed, i.val, ?_, ?_, ?_, i.accepted, ?_⟩
      · intro u
        by_cases hu : u = t
        · subst hu; simp [Pc.holds]
        · have := i.mutex u
          rw [ho] at this
          simpa [hu, Ne.symm hu] using this
      · obtain ⟨done, h1, h2⟩ := i.late
        rw [ho] at h2
        refine ⟨done, h1, ?_⟩
        simp only
        rw [h2]
        simp [hpc, Pc.unsent]
      · intro u
        by_cases hu : u = t
        · subst hu
          have := i.order u
          rw [hpc] at this
          simpa [Pc.waiting] using this
        · simpa [hu] using i.order u
      · intro u d hd
        by_cases hu : u = t
        · subst hu; simp [Pc.waiting] at hd
        · exact i.waiting u d (by simpa [hu] using hd)

theorem new_inv (hv : P v0) : Inv h P acc v0 prog (Threads.new v0 prog) :=
  ⟨hv, rfl, by simp [Threads.new, Pc.holds], ⟨[], rfl, rfl⟩, by simp [Threads.new, ofThread, Pc.waiting],
    by simp [Threads.new], by simp [Threads.new, Pc.waiting]⟩

theorem run_inv (hs : Steady h P acc) {s : Threads Call V} (i : Inv h P acc v0 prog s) (xs : List Pick) :
    Inv h P acc v0 prog (h.run s xs) := by
  induction xs generalizing s with
  | nil => exact i
  | cons x xs ih => exact ih (step_inv hs i x)

/-- The order only grows. -/
theorem run_log (s : Threads Call V) (xs : List Pick) : ∃ os, (h.run s xs).log = s.log ++ os := by
  induction xs generalizing s with
  | nil => exact ⟨[], by simp [Shared.run]⟩
  | cons x xs ih =>
    have hstep : ∃ os, (h.step s x).log = s.log ++ os := by
      cases x with
      | deliver =>
        simp only [Shared.step]
        split <;> exact ⟨[], by simp⟩
      | thread t =>
        simp only [Shared.step]
        split
        · split
          · exact ⟨[], by simp⟩
          · split <;> exact ⟨[], by simp⟩
        · split
          · exact ⟨[], by simp⟩
          · exact ⟨_, rfl⟩
        · exact ⟨[], by simp⟩
        · exact ⟨[], by simp⟩
    obtain ⟨o1, h1⟩ := hstep
    obtain ⟨o2, h2⟩ := ih (h.step s x)
    exact ⟨o1 ++ o2, by rw [← List.append_assoc, ← h1, ← h2]; rfl⟩

/-- a thread which is not within a call -/
def idle (s : Threads Call V) (t : Nat) : Prop := s.pc t = .idle

/-- What C95 says about the state `s` with the threads' calls `prog`, of which `acc` are accepted: there is an order `os`
of the accepted calls that threads have made, a value `f v0 (first calls of the order)` in the renderer, and so on. -/
def Linear (f : V → Call → V) (P : V → Prop) (acc : Call → Bool) (v0 : V) (prog : Nat → List Call)
    (s : Threads Call V) (os : List (Nat × Call)) : Prop :=
  s.val = (os.map (·.2)).foldl f v0 ∧ P s.val ∧
  (∃ k ≤ os.length, s.ren = ((os.take k).map (·.2)).foldl f v0 ∧ P s.ren) ∧
  (∀ t, ofThread t os <+: (prog t).filter acc) ∧
  (∀ t, idle s t → ofThread t os ++ (s.todo t).filter acc = (prog t).filter acc) ∧
  ((∀ t, idle s t) → s.chan = [] → s.ren = s.val)

theorem fold_allowed (hs : Steady h P acc) (v : V) (hv : P v) (cs : List Call) (hc : ∀ c ∈ cs, acc c = true) :
    P (cs.foldl h.write v) := by
  induction cs generalizing v with
  | nil => exact hv
  | cons c cs ih =>
    exact ih _ (hs.keep v c hv (hc c (by simp))) fun d hd => hc d (by simp [hd])

theorem linear (hs : Steady h P acc) (hv : P v0) {s : Threads Call V} (i : Inv h P acc v0 prog s) :
    Linear h.write P acc v0 prog s s.log := by
  obtain ⟨done, h1, h2⟩ := i.late
  have hpre : (s.log.take done.length).map (·.2) = done := by
    rw [List.map_take, h2, List.append_assoc, List.take_left]
  refine ⟨i.val, i.allowed, ⟨done.length, ?_, ?_, ?_⟩, ?_, ?_, ?_⟩
  · have := congrArg List.length h2
    simp only [List.length_map, List.length_append] at this
    omega
  · rw [hpre, h1]
  · rw [h1, ← hpre]
    refine fold_allowed hs v0 hv _ fun c hc => ?_
    obtain ⟨p, hp, rfl⟩ := List.mem_map.1 hc
    exact i.accepted p (List.mem_of_mem_take hp)
  · intro t
    exact ⟨_, by rw [← List.append_assoc]; exact i.order t⟩
  · intro t ht
    have := i.order t
    rw [ht] at this
    simpa [Pc.waiting] using this
  · intro hid hch
    have ho : s.owner = none := by
      cases ho : s.owner with
      | none => rfl
      | some u =>
        have := (i.mutex u).2 ho
        rw [hid u] at this
        cases this
    rw [ho, hch] at h2
    rw [h1, i.val, h2]
    simp

/-- The general form of C95: for every schedule of the threads and the renderer, before (`xs`) and after (`ys`) any
moment. -/
theorem shared_linear (hs : Steady h P acc) (hv : P v0) (prog : Nat → List Call) (xs ys : List Pick) :
    ∃ os os', Linear h.write P acc v0 prog (h.run (Threads.new v0 prog) xs) os ∧
      Linear h.write P acc v0 prog (h.run (Threads.new v0 prog) (xs ++ ys)) (os ++ os') := by
  have hi := run_inv (prog := prog) hs (new_inv (h := h) (acc := acc) hv) xs
  have hr : h.run (Threads.new v0 prog) (xs ++ ys) = h.run (h.run (Threads.new v0 prog) xs) ys := by
    simp [Shared.run]
  obtain ⟨os', hos⟩ := run_log (h := h) (h.run (Threads.new v0 prog) xs) ys
  refine ⟨_, os', linear hs hv hi, ?_⟩
  rw [← hos, hr]
  exact linear hs hv (run_inv hs hi ys)

/-- what a thread still has to do, in steps -/
def left (s : Threads Call V) (t : Nat) : Nat :=
  4 * (s.todo t).length + match s.pc t with
    | .idle => 0
    | .ready _ => 3
    | .wrote _ => 2
    | .sent => 1

theorem step_free (s : Threads Call V) (t : Nat) (ho : s.owner = none ∨ s.owner = some t)
    (hm : ∀ u, (s.pc u).holds = true ↔ s.owner = some u) (hl : left s t ≠ 0) :
    left (h.step s (.thread t)) t < left s t := by
  simp only [Shared.step]
  cases hpc : s.pc t with
  | idle =>
    simp only [left, hpc] at hl ⊢
    cases htd : s.todo t with
    | nil => rw [htd] at hl; simp at hl
    | cons c cs =>
      dsimp only
      split
      · simp
        omega
      · simp [hpc]
  | ready c =>
    have : s.owner = none := by
      rcases ho with ho | ho
      · exact ho
      · have := (hm t).2 ho
        rw [hpc] at this
        cases this
    simp [this, left, hpc]
  | wrote c => simp [left, hpc]
  | sent => simp [left, hpc]

/-- No deadlock: in every state that is reached, the renderer is not needed for a thread to go on; it has to wait for at
most two steps of another thread. -/
theorem shared_progress (hs : Steady h P acc) (hv : P v0) (prog : Nat → List Call) (xs : List Pick) (t : Nat)
    (hl : left (h.run (Threads.new v0 prog) xs) t ≠ 0) :
    ∃ u ys, ys.length ≤ 2 ∧ (∀ y ∈ ys, y = Pick.thread u) ∧
      left (h.run (h.run (Threads.new v0 prog) xs) (ys ++ [.thread t])) t <
        left (h.run (Threads.new v0 prog) xs) t := by
  have hi := run_inv (prog := prog) hs (new_inv (h := h) (acc := acc) hv) xs
  generalize h.run (Threads.new v0 prog) xs = s at hl hi
  by_cases hfree : s.owner = none ∨ s.owner = some t
  · exact ⟨0, [], by simp, by simp, by simpa [Shared.run] using step_free s t hfree hi.mutex hl⟩
  · obtain ⟨u, hu⟩ : ∃ u, s.owner = some u := by
      cases ho : s.owner with
      | none => simp [ho] at hfree
      | some u => exact ⟨u, rfl⟩
    have hut : t ≠ u := fun h => hfree (.inr (h ▸ hu))
    have hhold := (hi.mutex u).2 hu
    have key : ∀ s' : Threads Call V, Inv h P acc v0 prog s' → s'.pc u = .sent → left s' t = left s t →
        left (h.run s' ([.thread u] ++ [.thread t])) t < left s t := by
      intro s' hi' hpc hls
      have h1 : (h.step s' (.thread u)).owner = none := by simp [Shared.step, hpc]
      have h2 : left (h.step s' (.thread u)) t = left s t := by
        rw [← hls]; simp [Shared.step, hpc, left, hut]
      have := step_free (h := h) (h.step s' (.thread u)) t (.inl h1) (step_inv hs hi' _).mutex (by rw [h2]; exact hl)
      rw [h2] at this
      simpa [Shared.run] using this
    cases hpc : s.pc u with
    | idle => rw [hpc] at hhold; cases hhold
    | ready c => rw [hpc] at hhold; cases hhold
    | sent => exact ⟨u, [.thread u], by simp, by simp, key s hi hpc rfl⟩
    | wrote c =>
      refine ⟨u, [.thread u, .thread u], by simp, by simp, ?_⟩
      have := key (h.step s (.thread u)) (step_inv hs hi _) (by simp [Shared.step, hpc])
        (by simp [Shared.step, hpc, left, hut])
      simpa [Shared.run] using this

end

/-! ## Channel configuration -/

/-- what a call asks for -/
def wish (v : Config) (c : Verif.Valid.Call) : Config :=
  match c with
  | .count n => ⟨n, v.mode, v.interp⟩
  | .mode m => ⟨v.count, m, v.interp⟩
  | .interp i => ⟨v.count, v.mode, i⟩

/-- The calls that change something: those that ask for an allowed configuration, given the one the node was created
with; but mergers and splitters ignore the count. -/
def accepted (k : Kind) (v0 : Config) (c : Verif.Valid.Call) : Bool :=
  (channels k).ok v0 c && (channels k).sends c

theorem channels_steady (k : Kind) (v0 : Config) (hv : Allowed k v0) :
    Steady (channels k) (Allowed k) (accepted k v0) where
  ok v c hv' := by
    simp only [accepted]
    congr 1
    obtain ⟨n0, m0, i0⟩ := v0
    obtain ⟨n, m, i⟩ := v
    simp only [channels]
    rcases c with x | x | x <;> cases k <;>
      simp only [Allowed, Verif.Valid.set, Verif.Valid.setCount] at hv hv' ⊢ <;> grind
  keep v c hv' ha := by
    have hok : ((channels k).ok v c && (channels k).sends c) = true := by
      have : (channels k).ok v c = (channels k).ok v0 c := by
        obtain ⟨n0, m0, i0⟩ := v0
        obtain ⟨n, m, i⟩ := v
        simp only [channels]
        rcases c with x | x | x <;> cases k <;>
          simp only [Allowed, Verif.Valid.set, Verif.Valid.setCount] at hv hv' ⊢ <;> grind
      rw [this]; exact ha
    rw [Bool.and_eq_true] at hok
    obtain ⟨v', hv1⟩ := Option.isSome_iff_exists.1 hok.1
    by_cases hk : k = .listener
    · subst hk
      rcases c with x | x | x <;> simp [Verif.Valid.set] at hv1
    · have := ((Verif.Valid.C51_setter k hk v hv' c v').1 hv1).1
      rcases c with x | x | x <;> exact this
  same v c := by cases c <;> rfl

/-- C95: the channel configuration, for every kind of node, however many threads call the setters, for all schedules:
there is an order of the accepted calls such that the node shows the last values in this order, the renderer has those of
a first part of it, always an allowed configuration, and what the node shows when no call and no message is under way.
The order contains the accepted calls of each thread in its order, all of them that it completed; it only grows, so that a
call that was completed before another was begun precedes it. -/
theorem C95_channel_config (k : Kind) (o v0 : Config) (hd : ∀ n, k = .onlineDest n → o.count ≤ n)
    (h : Verif.Valid.create k o = some v0) (prog : Nat → List Verif.Valid.Call) (xs ys : List Pick) :
    ∃ os os', Linear wish (Allowed k) (accepted k v0) v0 prog ((channels k).run (Threads.new v0 prog) xs) os ∧
      Linear wish (Allowed k) (accepted k v0) v0 prog
        ((channels k).run (Threads.new v0 prog) (xs ++ ys)) (os ++ os') := by
  have hv := Verif.Valid.C51_created k o v0 hd h
  have hw : (channels k).write = wish := by
    funext v c
    cases c <;> rfl
  have := shared_linear (channels_steady k v0 hv) hv prog xs ys
  rwa [hw] at this

/-- C95: which calls are accepted: those which ask for an allowed configuration, whatever the current one is. -/
theorem C95_accepted (k : Kind) (hk : k ≠ .listener) (v0 v : Config) (h0 : Allowed k v0) (hv : Allowed k v)
    (c : Verif.Valid.Call) :
    accepted k v0 c = true ↔ Allowed k (wish v c) ∧
      ¬ ((k = .merger ∨ ∃ n, k = .splitter n) ∧ ∃ n, c = .count n) := by
  rw [← (channels_steady k v0 h0).ok v c hv, Bool.and_eq_true]
  have h1 : (channels k).ok v c = true ↔ Allowed k (wish v c) := by
    simp only [channels, Option.isSome_iff_exists, Verif.Valid.C51_setter k hk v hv c]
    constructor
    · rintro ⟨_, h, -⟩
      cases c <;> exact h
    · intro h
      exact ⟨_, by cases c <;> exact h, rfl⟩
  rw [h1]
  refine and_congr_right fun _ => ?_
  cases k <;> cases c <;> simp [channels]

/-- C95: no thread waits for ever for a setter of the channel configuration. -/
theorem C95_progress (k : Kind) (v0 : Config) (hv : Allowed k v0) (prog : Nat → List Verif.Valid.Call)
    (xs : List Pick) (t : Nat) (hl : left ((channels k).run (Threads.new v0 prog) xs) t ≠ 0) :
    ∃ u ys, ys.length ≤ 2 ∧ (∀ y ∈ ys, y = Pick.thread u) ∧
      left ((channels k).run ((channels k).run (Threads.new v0 prog) xs) (ys ++ [.thread t])) t <
        left ((channels k).run (Threads.new v0 prog) xs) t :=
  shared_progress (channels_steady k v0 hv) hv prog xs t hl

/-- Two threads set the count of a gain node to 1 and 4, one call is overtaken before it has the mutex, the other while it
waits. -/
example :
    let p : Nat → List Verif.Valid.Call := fun t => if t = 0 then [.count 1] else if t = 1 then [.count 4, .mode .explicit]
      else []
    let s := (channels .free).run (Threads.new ⟨2, .max, .speakers⟩ p)
      [.thread 0, .thread 1, .thread 1, .thread 0, .thread 1, .thread 1, .thread 0, .deliver, .thread 0, .thread 1,
        .thread 0]
    s.log = [(1, .count 4), (0, .count 1)] ∧ s.val = ⟨1, .max, .speakers⟩ ∧ s.ren = ⟨4, .max, .speakers⟩ ∧
      s.chan = [.count 1] ∧ s.pc 1 = .ready (.mode .explicit) ∧ left s 1 = 3 ∧ left s 0 = 0 := by
  decide +kernel

/-! ## Automation rate -/

/-- C95: the automation rate of a parameter, also between the clones of a parameter; a constrained one stays what it is,
on both sides. -/
theorem C95_automation_rate (constrained r0 : Bool) (prog : Nat → List Bool) (xs ys : List Pick) :
    ∃ os os',
      Linear (fun _ r => r) (fun r => constrained = true → r = r0) (fun r => !constrained || r == r0) r0 prog
        ((automationRate constrained).run (Threads.new r0 prog) xs) os ∧
      Linear (fun _ r => r) (fun r => constrained = true → r = r0) (fun r => !constrained || r == r0) r0 prog
        ((automationRate constrained).run (Threads.new r0 prog) (xs ++ ys)) (os ++ os') := by
  have hs : Steady (automationRate constrained) (fun r => constrained = true → r = r0)
      (fun r => !constrained || r == r0) := by
    refine ⟨?_, ?_, fun _ _ => rfl⟩
    · intro v c hv
      cases constrained <;> simp_all [automationRate]
    · intro v c hv hc
      cases constrained <;> simp_all [automationRate]
  exact shared_linear hs (fun _ => rfl) prog xs ys

example :
    let s := (automationRate false).run (Threads.new true fun t => if t = 0 then [false] else [])
      [.thread 0, .thread 0, .thread 0, .thread 0, .deliver]
    s.ren = false ∧ s.val = false ∧ s.chan = [] ∧ s.pc 0 = .idle := by decide +kernel

end Verif.Attr
