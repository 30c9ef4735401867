import Verif.Stats.Props

/-!
# C47: interleavings

One thread renders and records, any number of other threads take snapshots, peaks and resets, in every interleaving of
the atomic operations.
-/

namespace Verif.Stats

/-- the counters that a snapshot shows, apart from latency -/
inductive Fld where
  | callbacks | render | budget | underruns | under | events
deriving DecidableEq

def St.get (s : St) : Fld → Nat
  | .callbacks => s.callbacks
  | .render => s.render
  | .budget => s.budget
  | .underruns => s.underruns
  | .under => s.under
  | .events => s.events

def Snap.get (s : Snap) : Fld → Nat
  | .callbacks => s.callbacks
  | .render => s.render
  | .budget => s.budget
  | .underruns => s.underruns
  | .under => s.under
  | .events => s.events

/-- Specification: the value of a counter after the callbacks `l`. -/
def spec (l : List (Nat × Nat)) : Fld → Nat
  | .callbacks => l.length
  | .render => (l.map (·.1)).sum
  | .budget => (l.map (·.2)).sum
  | .underruns => (l.filter fun x => decide (x.2 < x.1)).length
  | .under => (l.map fun x => x.1 - x.2).sum
  | .events => runs l

theorem counts_get {s : St} {l : List (Nat × Nat)} (h : Counts s l) (f : Fld) : s.get f = spec l f := by
  cases f
  · exact h.callbacks
  · exact h.render
  · exact h.budget
  · exact h.underruns
  · exact h.under
  · exact h.events

def Op.isRender : Op → Bool
  | .render _ _ => true
  | _ => false

def Op.isReset : Op → Bool
  | .reset => true
  | _ => false

/-! ## The rendering thread is not disturbed -/

/-- same counters, same `swap` result -/
def Sim (s s' : St) : Prop := (∀ f, s.get f = s'.get f) ∧ s.prev = s'.prev

theorem steps_quiet (o : Op) (ho : o.isRender = false) : ∀ g ∈ o.steps, ∀ s l, Sim (g s l).1 s := by
  intro g hg s l
  cases o with
  | render d b => cases ho
  | latency x =>
    simp only [Op.steps, latencySteps, List.mem_cons, List.not_mem_nil, or_false] at hg
    rcases hg with rfl | rfl | rfl | rfl | rfl <;> exact ⟨fun f => by cases f <;> rfl, rfl⟩
  | reset =>
    simp only [Op.steps, resetSteps, List.mem_cons, List.not_mem_nil, or_false] at hg
    rcases hg with rfl | rfl | rfl | rfl | rfl <;> exact ⟨fun f => by cases f <;> rfl, rfl⟩
  | snapshot =>
    simp only [Op.steps, snapSteps, List.mem_cons, List.not_mem_nil, or_false] at hg
    rcases hg with rfl | rfl | rfl | rfl | rfl | rfl | rfl | rfl | rfl | rfl <;>
      exact ⟨fun f => by cases f <;> rfl, rfl⟩
  | peak =>
    simp only [Op.steps, peakSteps, List.mem_cons, List.not_mem_nil, or_false] at hg
    subst hg
    exact ⟨fun f => by cases f <;> rfl, rfl⟩

theorem steps_was (o : Op) (ho : o.isRender = false) : ∀ g ∈ o.steps, ∀ s l, (g s l).2.was = l.was := by
  intro g hg s l
  cases o with
  | render d b => cases ho
  | latency x =>
    simp only [Op.steps, latencySteps, List.mem_cons, List.not_mem_nil, or_false] at hg
    rcases hg with rfl | rfl | rfl | rfl | rfl <;> rfl
  | reset =>
    simp only [Op.steps, resetSteps, List.mem_cons, List.not_mem_nil, or_false] at hg
    rcases hg with rfl | rfl | rfl | rfl | rfl <;> rfl
  | snapshot =>
    simp only [Op.steps, snapSteps, List.mem_cons, List.not_mem_nil, or_false] at hg
    rcases hg with rfl | rfl | rfl | rfl | rfl | rfl | rfl | rfl | rfl | rfl <;> rfl
  | peak =>
    simp only [Op.steps, peakSteps, List.mem_cons, List.not_mem_nil, or_false] at hg
    subst hg
    rfl

theorem mem_renderSteps {g : Step} {d b : Nat} (hg : g ∈ renderSteps d b) :
    g = (fun s l => ({ s with callbacks := s.callbacks + 1 }, l)) ∨
    g = (fun s l => ({ s with render := s.render + d }, l)) ∨
    g = (fun s l => ({ s with budget := s.budget + b }, l)) ∨
    g = (fun s l => ({ s with peak := Nat.max s.peak (loadPpm d b) }, l)) ∨
    g = (fun s l => ({ s with underruns := s.underruns + 1 }, l)) ∨
    g = (fun s l => ({ s with under := s.under + (d - b) }, l)) ∨
    g = (fun s l => ({ s with prev := true }, { l with was := s.prev })) ∨
    g = (fun s l => (if l.was then s else { s with events := s.events + 1 }, l)) ∨
    g = (fun s l => ({ s with prev := false }, l)) := by
  unfold renderSteps at hg
  split at hg <;>
  · simp only [List.cons_append, List.nil_append, List.mem_cons, List.not_mem_nil, or_false] at hg
    tauto

/-- a step of any call depends only on the counters -/
theorem steps_congr (o : Op) : ∀ g ∈ o.steps, ∀ s s' l l', Sim s s' → l.was = l'.was →
    Sim (g s l).1 (g s' l').1 ∧ (g s l).2.was = (g s' l').2.was := by
  intro g hg s s' l l' hs hl
  by_cases ho : o.isRender = false
  · have h1 := steps_quiet o ho g hg s l
    have h2 := steps_quiet o ho g hg s' l'
    refine ⟨⟨fun f => ?_, ?_⟩, ?_⟩
    · rw [h1.1, h2.1, hs.1]
    · rw [h1.2, h2.2, hs.2]
    · rw [steps_was o ho g hg, steps_was o ho g hg, hl]
  · cases o with
    | render d b =>
      have e1 : s.callbacks = s'.callbacks := hs.1 .callbacks
      have e2 : s.render = s'.render := hs.1 .render
      have e3 : s.budget = s'.budget := hs.1 .budget
      have e4 : s.underruns = s'.underruns := hs.1 .underruns
      have e5 : s.under = s'.under := hs.1 .under
      have e6 : s.events = s'.events := hs.1 .events
      have e7 := hs.2
      rcases mem_renderSteps hg with rfl | rfl | rfl | rfl | rfl | rfl | rfl | rfl | rfl
      all_goals
        refine ⟨⟨fun f => ?_, ?_⟩, ?_⟩
        · cases f <;> simp only [St.get, e1, e2, e3, e4, e5, e6, hl] <;> split <;> simp [e1, e2, e3, e4, e5, e6]
        · first | exact e7 | rfl | (simp only [hl]; split <;> exact e7)
        · first | exact hl | exact e7
    | _ => exact absurd rfl ho

/-- the rendering thread after `n` of its steps, without the other threads -/
def alone (prog : List Op) (n : Nat) : St × Loc := runSteps St.new Loc.new ((prog.flatMap Op.steps).take n)

/-- invariant: the rendering thread has made `n` steps, and the counters are what it alone would have produced -/
structure Inv (prog : Nat → List Op) (m : Machine) (n : Nat) : Prop where
  todo : (m.threads 0).todo = ((prog 0).flatMap Op.steps).drop n
  sim : Sim m.st (alone (prog 0) n).1
  was : (m.threads 0).loc.was = (alone (prog 0) n).2.was
  others : ∀ i, i ≠ 0 → ∀ g ∈ (m.threads i).todo, ∃ o ∈ prog i, g ∈ o.steps

theorem runSteps_take_succ (s : St) (l : Loc) (gs : List Step) (n : Nat) (g : Step) (h : gs[n]? = some g) :
    runSteps s l (gs.take (n + 1)) =
      g (runSteps s l (gs.take n)).1 (runSteps s l (gs.take n)).2 := by
  rw [List.take_add_one, h, runSteps_append]
  rfl

theorem inv_step {prog : Nat → List Op} (hp : ∀ i, i ≠ 0 → ∀ o ∈ prog i, o.isRender = false) {m : Machine} {n : Nat}
    (h : Inv prog m n) (i : Nat) : ∃ n', n ≤ n' ∧ n' ≤ n + 1 ∧ Inv prog (m.step i) n' := by
  unfold Machine.step
  split
  · exact ⟨n, Nat.le_refl n, by omega, h⟩
  · rename_i g gs htodo
    by_cases hi : i = 0
    · subst hi
      rw [h.todo] at htodo
      have hg : ((prog 0).flatMap Op.steps)[n]? = some g := by
        have := congrArg (fun x => x[0]?) htodo
        simpa using this
      have hmem : g ∈ (prog 0).flatMap Op.steps := List.mem_of_getElem? hg
      obtain ⟨o, _, ho⟩ := List.mem_flatMap.1 hmem
      have hc := steps_congr o g ho _ _ _ _ h.sim h.was
      refine ⟨n + 1, by omega, Nat.le_refl _, ?_, ?_, ?_, ?_⟩
      · simp only [if_true]
        rw [← List.tail_drop, htodo, List.tail_cons]
      · unfold alone
        rw [runSteps_take_succ _ _ _ _ _ hg]
        exact hc.1
      · unfold alone
        rw [runSteps_take_succ _ _ _ _ _ hg]
        simp only [if_true]
        exact hc.2
      · intro j hj
        simp only [if_neg hj]
        exact h.others j hj
    · obtain ⟨o, ho, hg⟩ := h.others i hi g (by rw [htodo]; exact List.mem_cons_self ..)
      have hq := steps_quiet o (hp i hi o ho) g hg m.st (m.threads i).loc
      refine ⟨n, Nat.le_refl n, by omega, ?_, ?_, ?_, ?_⟩
      · simp only [if_neg (Ne.symm hi)]
        exact h.todo
      · exact ⟨fun f => (hq.1 f).trans (h.sim.1 f), hq.2.trans h.sim.2⟩
      · simp only [if_neg (Ne.symm hi)]
        exact h.was
      · intro j hj
        by_cases hji : j = i
        · subst hji
          simp only [if_true]
          exact fun g' hg' => h.others j hj g' (by rw [htodo]; exact List.mem_cons_of_mem _ hg')
        · simp only [if_neg hji]
          exact h.others j hj

theorem inv_start (prog : Nat → List Op) : Inv prog (Machine.start St.new prog) 0 := by
  refine ⟨rfl, ⟨fun _ => rfl, rfl⟩, rfl, fun i _ g hg => ?_⟩
  obtain ⟨o, ho, h⟩ := List.mem_flatMap.1 hg
  exact ⟨o, ho, h⟩

/-! ## Inside one callback -/

theorem spec_snoc_le (l : List (Nat × Nat)) (x : Nat × Nat) (f : Fld) : spec l f ≤ spec (l ++ [x]) f := by
  cases f <;> simp [spec, runs_snoc]

theorem spec_mono (l : List (Nat × Nat)) (f : Fld) (j k : Nat) (h : j ≤ k) : spec (l.take j) f ≤ spec (l.take k) f := by
  induction k with
  | zero => rw [Nat.le_zero.1 h]
  | succ k ih =>
    rcases Nat.lt_or_ge j (k + 1) with hj | hj
    · refine le_trans (ih (by omega)) ?_
      rw [List.take_add_one]
      cases hk : l[k]? with
      | none => simp
      | some x => simpa using spec_snoc_le (l.take k) x f
    · rw [Nat.le_antisymm h hj]

/-- after `n` steps of a callback each counter has its old or its new value -/
theorem render_partial {s : St} {l : List (Nat × Nat)} (hs : Counts s l) (loc : Loc) (d b n : Nat) (f : Fld) :
    (runSteps s loc ((renderSteps d b).take n)).1.get f = spec l f ∨
    (runSteps s loc ((renderSteps d b).take n)).1.get f = spec (l ++ [(d, b)]) f := by
  have h2 := counts_get (counts_render hs loc d b) f
  have h1 := counts_get hs f
  rw [← h1, ← h2]
  by_cases hu : 0 < d - b
  · rw [renderSteps, if_pos hu]
    rcases n with _ | _ | _ | _ | _ | _ | _ | _ | n
    all_goals
      cases hp : s.prev <;> cases f <;> simp [runSteps, St.get, hp]
  · rw [renderSteps, if_neg hu]
    rcases n with _ | _ | _ | _ | _ | n
    all_goals
      cases f <;> simp [runSteps, St.get]

/-- after `n` steps of the rendering thread every counter is exact for the callbacks finished, or for these and the
current one -/
theorem alone_get (ops : List Op) (n : Nat) : ∃ k, k ≤ (cbs ops).length ∧ ∀ f,
    (alone ops n).1.get f = spec ((cbs ops).take k) f ∨ (alone ops n).1.get f = spec ((cbs ops).take (k + 1)) f := by
  suffices H : ∀ (ops : List Op) (pre : List Op) (n : Nat), ∃ k, (cbs pre).length ≤ k ∧
      k ≤ (cbs (pre ++ ops)).length ∧ ∀ f,
      (runSteps (exec St.new Loc.new pre).1 (exec St.new Loc.new pre).2 ((ops.flatMap Op.steps).take n)).1.get f =
        spec ((cbs (pre ++ ops)).take k) f ∨
      (runSteps (exec St.new Loc.new pre).1 (exec St.new Loc.new pre).2 ((ops.flatMap Op.steps).take n)).1.get f =
        spec ((cbs (pre ++ ops)).take (k + 1)) f by
    obtain ⟨k, _, hk, h⟩ := H ops [] n
    exact ⟨k, hk, h⟩
  intro ops
  induction ops with
  | nil =>
    intro pre n
    refine ⟨(cbs pre).length, Nat.le_refl _, by simp, fun f => .inl ?_⟩
    simp only [List.flatMap_nil, List.take_nil, runSteps, List.append_nil, List.take_length]
    exact counts_get (C47_exact pre Loc.new) f
  | cons o ops ih =>
    intro pre n
    rcases Nat.lt_or_ge n o.steps.length with hn | hn
    · refine ⟨(cbs pre).length, Nat.le_refl _, by rw [cbs_append]; simp, fun f => ?_⟩
      rw [List.flatMap_cons, List.take_append_of_le_length (Nat.le_of_lt hn)]
      have e1 : (cbs (pre ++ o :: ops)).take (cbs pre).length = cbs pre := by rw [cbs_append]; simp
      rw [e1]
      cases ho : o.isRender with
      | false =>
        left
        rw [← counts_get (C47_exact pre Loc.new) f]
        have : ∀ (gs : List Step) (s : St) (l : Loc), (∀ g ∈ gs, ∀ s l, Sim (g s l).1 s) →
            (runSteps s l gs).1.get f = s.get f := by
          intro gs
          induction gs with
          | nil => intros; rfl
          | cons g gs ih2 =>
            intro s l hq
            unfold runSteps
            rw [ih2 _ _ (fun g' hg' => hq g' (List.mem_cons_of_mem _ hg'))]
            exact (hq g (List.mem_cons_self ..) s l).1 f
        exact this _ _ _ fun g hg => steps_quiet o ho g (List.mem_of_mem_take hg)
      | true =>
        cases o with
        | render d b =>
          have e2 : (cbs (pre ++ Op.render d b :: ops)).take ((cbs pre).length + 1) = cbs pre ++ [(d, b)] := by
            rw [cbs_append, show cbs (Op.render d b :: ops) = (d, b) :: cbs ops from rfl]
            rw [List.take_append]
            simp
          rw [e2]
          exact render_partial (C47_exact pre Loc.new) _ d b n f
        | _ => cases ho
    · obtain ⟨k, hk1, hk2, h⟩ := ih (pre ++ [o]) (n - o.steps.length)
      have e : pre ++ [o] ++ ops = pre ++ o :: ops := by simp
      rw [e] at hk2 h
      refine ⟨k, le_trans ?_ hk1, hk2, fun f => ?_⟩
      · rw [cbs_append]
        simp
      · have h := h f
        rw [exec_snoc] at h
        have e3 : ((o :: ops).flatMap Op.steps).take n =
            o.steps ++ (ops.flatMap Op.steps).take (n - o.steps.length) := by
          rw [List.flatMap_cons, List.take_append, List.take_of_length_le hn]
        rw [e3, runSteps_append]
        exact h

/-! ## Snapshots -/

/-- what every step does with the snapshot of its thread -/
theorem steps_snap (o : Op) : ∀ g ∈ o.steps, ∀ s l,
    (∀ f, (g s l).2.snap.get f = l.snap.get f ∨ (g s l).2.snap.get f = s.get f) ∧
    ((g s l).2.log = l.log ∨ (g s l).2.log = l.log ++ [(g s l).2.snap]) ∧
    ∀ f, s.get f ≤ (g s l).1.get f := by
  intro g hg s l
  cases o with
  | render d b =>
    rcases mem_renderSteps hg with rfl | rfl | rfl | rfl | rfl | rfl | rfl | rfl | rfl
    all_goals
      refine ⟨fun f => .inl rfl, .inl rfl, fun f => ?_⟩
      cases f <;> simp only [St.get] <;> first | omega | (split <;> simp)
  | latency x =>
    simp only [Op.steps, latencySteps, List.mem_cons, List.not_mem_nil, or_false] at hg
    rcases hg with rfl | rfl | rfl | rfl | rfl <;>
      exact ⟨fun f => .inl rfl, .inl rfl, fun f => by cases f <;> exact Nat.le_refl _⟩
  | reset =>
    simp only [Op.steps, resetSteps, List.mem_cons, List.not_mem_nil, or_false] at hg
    rcases hg with rfl | rfl | rfl | rfl | rfl <;>
      exact ⟨fun f => .inl rfl, .inl rfl, fun f => by cases f <;> exact Nat.le_refl _⟩
  | snapshot =>
    simp only [Op.steps, snapSteps, List.mem_cons, List.not_mem_nil, or_false] at hg
    rcases hg with rfl | rfl | rfl | rfl | rfl | rfl | rfl | rfl | rfl | rfl
    all_goals
      refine ⟨fun f => ?_, ?_, fun f => Nat.le_refl _⟩
      · cases f <;> first | exact .inl rfl | exact .inr rfl
      · first | exact .inl rfl | exact .inr rfl
  | peak =>
    simp only [Op.steps, peakSteps, List.mem_cons, List.not_mem_nil, or_false] at hg
    subst hg
    exact ⟨fun f => .inl rfl, .inl rfl, fun f => by cases f <;> exact Nat.le_refl _⟩

/-- snapshots are exact for a prefix, counter by counter, and only grow -/
structure LogOk (ops : List Op) (st : St) (l : Loc) : Prop where
  snap : ∀ f, ∃ k, k ≤ (cbs ops).length ∧ l.snap.get f = spec ((cbs ops).take k) f
  log : ∀ x ∈ l.log, ∀ f, ∃ k, k ≤ (cbs ops).length ∧ x.get f = spec ((cbs ops).take k) f
  now : ∀ f, l.snap.get f ≤ st.get f
  older : ∀ x ∈ l.log, ∀ f, x.get f ≤ l.snap.get f
  sorted : l.log.Pairwise fun x y => ∀ f, x.get f ≤ y.get f

theorem logOk_new (ops : List Op) (s : St) : LogOk ops s Loc.new := by
  refine ⟨fun f => ⟨0, Nat.zero_le _, ?_⟩, by simp [Loc.new], fun f => ?_, by simp [Loc.new], by simp [Loc.new]⟩
  · cases f <;> rfl
  · cases f <;> exact Nat.zero_le _

theorem logOk_st {ops : List Op} {s s' : St} {l : Loc} (h : LogOk ops s l) (hs : ∀ f, s.get f ≤ s'.get f) :
    LogOk ops s' l := ⟨h.snap, h.log, fun f => le_trans (h.now f) (hs f), h.older, h.sorted⟩

theorem logOk_step {ops : List Op} {s : St} {l : Loc} (h : LogOk ops s l)
    (hst : ∀ f, ∃ k, k ≤ (cbs ops).length ∧ s.get f = spec ((cbs ops).take k) f) (o : Op) (g : Step)
    (hg : g ∈ o.steps) : LogOk ops (g s l).1 (g s l).2 := by
  obtain ⟨h1, h2, h3⟩ := steps_snap o g hg s l
  have hsnap : ∀ f, ∃ k, k ≤ (cbs ops).length ∧ (g s l).2.snap.get f = spec ((cbs ops).take k) f := by
    intro f
    rcases h1 f with e | e
    · rw [e]; exact h.snap f
    · rw [e]; exact hst f
  have hgrow : ∀ f, l.snap.get f ≤ (g s l).2.snap.get f := by
    intro f
    rcases h1 f with e | e
    · rw [e]
    · rw [e]; exact h.now f
  refine ⟨hsnap, ?_, fun f => ?_, ?_, ?_⟩
  · intro x hx
    rcases h2 with e | e
    · rw [e] at hx; exact h.log x hx
    · rw [e] at hx
      rcases List.mem_append.1 hx with hx | hx
      · exact h.log x hx
      · rw [List.mem_singleton.1 hx]; exact hsnap
  · rcases h1 f with e | e
    · rw [e]; exact le_trans (h.now f) (h3 f)
    · rw [e]; exact h3 f
  · intro x hx f
    rcases h2 with e | e
    · rw [e] at hx; exact le_trans (h.older x hx f) (hgrow f)
    · rw [e] at hx
      rcases List.mem_append.1 hx with hx | hx
      · exact le_trans (h.older x hx f) (hgrow f)
      · rw [List.mem_singleton.1 hx]
  · rcases h2 with e | e
    · rw [e]; exact h.sorted
    · rw [e, List.pairwise_append]
      refine ⟨h.sorted, List.pairwise_singleton _ _, fun x hx y hy f => ?_⟩
      rw [List.mem_singleton.1 hy]
      exact le_trans (h.older x hx f) (hgrow f)

/-- all steps of thread `i` belong to calls -/
theorem todo_mem {prog : Nat → List Op} {m : Machine} {n : Nat} (h : Inv prog m n) (i : Nat) (g : Step)
    (hg : g ∈ (m.threads i).todo) : ∃ o : Op, g ∈ o.steps := by
  by_cases hi : i = 0
  · subst hi
    rw [h.todo] at hg
    obtain ⟨o, _, ho⟩ := List.mem_flatMap.1 (List.mem_of_mem_drop hg)
    exact ⟨o, ho⟩
  · obtain ⟨o, _, ho⟩ := h.others i hi g hg
    exact ⟨o, ho⟩

theorem st_get {prog : Nat → List Op} {m : Machine} {n : Nat} (h : Inv prog m n) (f : Fld) :
    ∃ k, k ≤ (cbs (prog 0)).length ∧ m.st.get f = spec ((cbs (prog 0)).take k) f := by
  obtain ⟨k, hk, hf⟩ := alone_get (prog 0) n
  rw [h.sim.1 f]
  rcases hf f with e | e
  · exact ⟨k, hk, e⟩
  · rcases Nat.lt_or_ge k (cbs (prog 0)).length with hlt | hge
    · exact ⟨k + 1, hlt, e⟩
    · refine ⟨k, hk, ?_⟩
      rw [e, List.take_of_length_le hge, List.take_of_length_le (by omega)]

theorem run_ok {prog : Nat → List Op} (hp : ∀ i, i ≠ 0 → ∀ o ∈ prog i, o.isRender = false) (sched : List Nat) :
    ∀ {m : Machine} {n : Nat}, Inv prog m n → (∀ i, LogOk (prog 0) m.st (m.threads i).loc) →
      ∃ n', n ≤ n' ∧ Inv prog (m.run sched) n' ∧ ∀ i, LogOk (prog 0) (m.run sched).st ((m.run sched).threads i).loc := by
  induction sched with
  | nil => exact fun {m n} h hl => ⟨n, Nat.le_refl n, h, hl⟩
  | cons i is ih =>
    intro m n h hl
    obtain ⟨n1, h1, _, hi⟩ := inv_step hp h i
    have hlog : ∀ j, LogOk (prog 0) (m.step i).st ((m.step i).threads j).loc := by
      intro j
      unfold Machine.step
      split
      · exact hl j
      · rename_i g gs htodo
        obtain ⟨o, ho⟩ := todo_mem h i g (by rw [htodo]; exact List.mem_cons_self ..)
        have hst := fun f => st_get h f
        by_cases hj : j = i
        · subst hj
          simp only [if_true]
          exact logOk_step (hl j) hst o g ho
        · simp only [if_neg hj]
          exact logOk_st (hl j) (steps_snap o g ho m.st (m.threads i).loc).2.2
    obtain ⟨n2, h2, h3⟩ := ih (m := m.step i) (n := n1) hi hlog
    exact ⟨n2, le_trans h1 h2, h3⟩

/-- C47, interleavings, partial: in every interleaving with any number of threads taking snapshots, peaks and resets,
* every counter of every snapshot is exact for the first `k` callbacks, for some `k` (which can differ between the
  counters of one snapshot, see `C47_negated_ratio`),
* later snapshots of a thread are not smaller in any counter, so that the differences of `render_capacity_event` are
  exact,
* when the rendering thread has finished, the counters are exact, nothing is lost.
Missing: the counters of one snapshot belong together. -/
theorem C47_concurrent_partial (prog : Nat → List Op) (hp : ∀ i, i ≠ 0 → ∀ o ∈ prog i, o.isRender = false)
    (sched : List Nat) :
    (∀ i, ∀ x ∈ (((Machine.start St.new prog).run sched).threads i).loc.log, ∀ f,
      ∃ k, k ≤ (cbs (prog 0)).length ∧ x.get f = spec ((cbs (prog 0)).take k) f) ∧
    (∀ i, ((((Machine.start St.new prog).run sched).threads i).loc.log).Pairwise fun x y => ∀ f, x.get f ≤ y.get f) ∧
    ((((Machine.start St.new prog).run sched).threads 0).todo = [] →
      ∀ f, ((Machine.start St.new prog).run sched).st.get f = spec (cbs (prog 0)) f) := by
  obtain ⟨n, _, hi, hl⟩ := run_ok hp sched (inv_start prog) fun i => logOk_new _ _
  refine ⟨fun i => (hl i).log, fun i => (hl i).sorted, fun htodo f => ?_⟩
  rw [hi.todo, List.drop_eq_nil_iff] at htodo
  rw [hi.sim.1 f]
  unfold alone
  rw [List.take_of_length_le htodo]
  exact counts_get (C47_exact (prog 0) Loc.new) f

/-- one rendering thread with a reset, two others; the threads take turns -/
example : ((((Machine.start St.new fun i =>
    if i = 0 then [.render 3 2, .render 1 2, .render 9 2] else if i = 1 then [.snapshot, .snapshot] else [.reset]).run
    ((List.range 40).flatMap fun _ => [0, 1, 2])).threads 1).loc.log.map fun x => (x.callbacks, x.under)) =
      [(1, 1), (2, 1)] := by decide +kernel

/-- C47 is false for snapshots taken while a callback is recorded: the number of callbacks is read first, the number of
late ones later. The difference of two snapshots shows one callback and three late ones: a ratio of 3. -/
theorem C47_negated_ratio :
    ∃ p n, ((((Machine.start St.new fun i =>
      if i = 0 then [.render 3 2, .render 3 2, .render 3 2] else if i = 1 then [.snapshot, .snapshot] else []).run
      (List.replicate 10 1 ++ List.replicate 8 0 ++ [1, 1] ++ List.replicate 16 0 ++ List.replicate 8 1)).threads
        1).loc.log) = [p, n] ∧ n.callbacks ≠ p.callbacks ∧ ratio (K := ℚ) id p n = 3 := by
  refine ⟨⟨0, 0, 0, 0, 0, 0, 0, 0, 0, 0⟩, ⟨1, 9, 6, 3, 3, 1, 0, 0, 0, 0⟩, by decide +kernel, by decide, ?_⟩
  norm_num [ratio]

/-- the state after one latency of 100 and a reset -/
def oneLatency : St := (exec St.new Loc.new [.latency 100, .reset]).1

/-- C47 is false for a snapshot during `record_latency_ns`: all latencies are 100, the average is 33 or 200. -/
theorem C47_negated_snapshot :
    ((((Machine.start oneLatency fun i =>
      if i = 0 then [.latency 100, .latency 100] else if i = 1 then [.snapshot] else []).run
      (List.replicate 8 1 ++ List.replicate 10 0 ++ List.replicate 2 1)).threads 1).loc.log.map
        fun s => (s.min, average s, s.max)) = [(100, 33, 100)] ∧
    ((((Machine.start oneLatency fun i =>
      if i = 0 then [.latency 100, .latency 100] else if i = 1 then [.snapshot] else []).run
      (List.replicate 2 0 ++ List.replicate 10 1)).threads 1).loc.log.map
        fun s => (s.min, average s, s.max)) = [(100, 200, 100)] := by decide +kernel

/-- C47 is false after a reset that overlaps `record_latency_ns`: the damage stays. Both calls are complete when the
snapshot is taken; the average, 200, is above the maximum. -/
theorem C47_negated_reset :
    ((((Machine.start oneLatency fun i =>
      if i = 0 then [.latency 100] else if i = 1 then [.reset, .snapshot] else []).run
      ([1, 1] ++ List.replicate 5 0 ++ List.replicate 13 1)).threads 1).loc.log.map
        fun s => (s.min, average s, s.max)) = [(100, 200, 100)] := by decide +kernel

/-- A reset that overlaps `record_latency_ns` and a snapshot: the minimum, 150, is above the maximum. -/
theorem C47_negated_reset_order :
    ((((Machine.start oneLatency fun i =>
      if i = 0 then [.latency 150] else if i = 1 then [.reset] else [.snapshot]).run
      ([0] ++ List.replicate 4 1 ++ List.replicate 10 2)).threads 2).loc.log.map
        fun s => (s.min, s.max)) = [(150, 100)] := by decide +kernel

/-! ## Minimum and maximum -/

/-- without resets, what a step does to minimum and maximum -/
theorem steps_min_max (o : Op) (ho : o.isReset = false) : ∀ g ∈ o.steps, ∀ s l, s.min ≤ s.max → l.snap.min ≤ s.max →
    (g s l).1.min ≤ (g s l).1.max ∧ s.max ≤ (g s l).1.max ∧ (g s l).2.snap.min ≤ (g s l).1.max ∧
    ((g s l).2.log = l.log ∨ ∃ x, (g s l).2.log = l.log ++ [x] ∧ x.min ≤ x.max) := by
  intro g hg s l h1 h2
  cases o with
  | render d b =>
    rcases mem_renderSteps hg with rfl | rfl | rfl | rfl | rfl | rfl | rfl | rfl | rfl
    all_goals
      refine ⟨?_, ?_, ?_, .inl rfl⟩ <;> simp only <;> first | assumption | exact Nat.le_refl _ | (split <;> simp_all)
  | latency x =>
    simp only [Op.steps, latencySteps, List.mem_cons, List.not_mem_nil, or_false] at hg
    rcases hg with rfl | rfl | rfl | rfl | rfl
    · exact ⟨h1, Nat.le_refl _, h2, .inl rfl⟩
    · exact ⟨h1, Nat.le_refl _, h2, .inl rfl⟩
    · exact ⟨h1, Nat.le_refl _, h2, .inl rfl⟩
    · exact ⟨le_trans (Nat.min_le_left _ _) h1, Nat.le_refl _, h2, .inl rfl⟩
    · exact ⟨le_trans h1 (Nat.le_max_left _ _), Nat.le_max_left _ _, le_trans h2 (Nat.le_max_left _ _), .inl rfl⟩
  | reset => cases ho
  | snapshot =>
    simp only [Op.steps, snapSteps, List.mem_cons, List.not_mem_nil, or_false] at hg
    rcases hg with rfl | rfl | rfl | rfl | rfl | rfl | rfl | rfl | rfl | rfl
    · refine ⟨h1, Nat.le_refl _, ?_, .inl rfl⟩
      simp only
      split
      · exact Nat.zero_le _
      · exact h1
    all_goals first
      | exact ⟨h1, Nat.le_refl _, h2, .inl rfl⟩
      | exact ⟨h1, Nat.le_refl _, h2, .inr ⟨_, rfl, h2⟩⟩
  | peak =>
    simp only [Op.steps, peakSteps, List.mem_cons, List.not_mem_nil, or_false] at hg
    subst hg
    exact ⟨h1, Nat.le_refl _, h2, .inl rfl⟩

/-- C47, interleavings: as long as nobody resets (after the constructor), the minimum is at most the maximum in every
snapshot of every thread, in every interleaving. Missing: the average (`C47_negated_snapshot`), and resets
(`C47_negated_reset_order`). -/
theorem C47_min_max_partial (s : St) (hs : s.min ≤ s.max) (prog : Nat → List Op)
    (hp : ∀ i, ∀ o ∈ prog i, o.isReset = false) (sched : List Nat) (i : Nat) :
    ∀ x ∈ (((Machine.start s prog).run sched).threads i).loc.log, x.min ≤ x.max := by
  suffices H : ∀ (sched : List Nat) (m : Machine), m.st.min ≤ m.st.max →
      (∀ i, (m.threads i).loc.snap.min ≤ m.st.max) → (∀ i, ∀ x ∈ (m.threads i).loc.log, x.min ≤ x.max) →
      (∀ i, ∀ g ∈ (m.threads i).todo, ∃ o : Op, o.isReset = false ∧ g ∈ o.steps) →
      ∀ i, ∀ x ∈ ((m.run sched).threads i).loc.log, x.min ≤ x.max by
    refine H sched (Machine.start s prog) hs (fun i => Nat.zero_le _) (fun i x hx => (List.not_mem_nil hx).elim) ?_ i
    intro j g hg
    obtain ⟨o, ho, h⟩ := List.mem_flatMap.1 hg
    exact ⟨o, hp j o ho, h⟩
  intro sched
  induction sched with
  | nil => exact fun m _ _ h _ => h
  | cons i is ih =>
    intro m h1 h2 h3 h4
    show ∀ j, ∀ x ∈ (((m.step i).run is).threads j).loc.log, _
    unfold Machine.step
    split
    · exact ih m h1 h2 h3 h4
    · rename_i g gs htodo
      obtain ⟨o, ho, hg⟩ := h4 i g (by rw [htodo]; exact List.mem_cons_self ..)
      obtain ⟨a, b, c, d⟩ := steps_min_max o ho g hg m.st (m.threads i).loc h1 (h2 i)
      refine ih _ a (fun j => ?_) (fun j => ?_) (fun j => ?_)
      · by_cases hj : j = i
        · subst hj; simp only [if_true]; exact c
        · simp only [if_neg hj]; exact le_trans (h2 j) b
      · by_cases hj : j = i
        · subst hj
          simp only [if_true]
          rcases d with e | ⟨x, e, hx⟩
          · rw [e]; exact h3 j
          · rw [e]
            intro y hy
            rcases List.mem_append.1 hy with hy | hy
            · exact h3 j y hy
            · rw [List.mem_singleton.1 hy]; exact hx
        · simp only [if_neg hj]; exact h3 j
      · by_cases hj : j = i
        · subst hj
          simp only [if_true]
          exact fun g' hg' => h4 j g' (by rw [htodo]; exact List.mem_cons_of_mem _ hg')
        · simp only [if_neg hj]; exact h4 j

example : oneLatency.min ≤ oneLatency.max := by decide

/-! ## Exposed values -/

/-- what can happen to the exposed values: a query, or a refresh by `reset_latency` -/
inductive Ev (V : Type) where
  | query (running : Bool) (now : Nat) (fresh : V)
  | refresh (now : Nat) (fresh : V)

def Ev.now {V : Type} : Ev V → Nat
  | query _ n _ => n
  | refresh n _ => n

def Exposed.on {V : Type} (e : Exposed V) : Ev V → Exposed V
  | .query r n v => e.current r n v
  | .refresh n v => e.refresh n v

def Exposed.runEv {V : Type} (e : Exposed V) (l : List (Ev V)) : Exposed V := l.foldl Exposed.on e

/-- C47: what a user sees. While the context runs, the values shown by a query at time `now` were read at a time `t` less
than a second before (or right now), whatever happened before; while it does not run, they do not change. -/
theorem C47_exposed {V : Type} (v0 : V) (l : List (Ev V)) (now : Nat) (fresh : V)
    (htime : (l.map Ev.now ++ [now]).Pairwise (· ≤ ·)) :
    (((⟨v0, none⟩ : Exposed V).runEv l).on (.query false now fresh)) = (⟨v0, none⟩ : Exposed V).runEv l ∧
    ∃ t v, (((⟨v0, none⟩ : Exposed V).runEv l).on (.query true now fresh)) = ⟨v, some t⟩ ∧ t ≤ now ∧
      now < t + 1000000000 ∧
      ((t = now ∧ v = fresh) ∨ ∃ x ∈ l, x.now = t ∧ (x = .refresh t v ∨ x = .query true t v)) := by
  refine ⟨by simp [Exposed.on, Exposed.current], ?_⟩
  have key : ∀ l : List (Ev V), (⟨v0, none⟩ : Exposed V).runEv l = ⟨v0, none⟩ ∨
      ∃ t v, (⟨v0, none⟩ : Exposed V).runEv l = ⟨v, some t⟩ ∧
        ∃ x ∈ l, x.now = t ∧ (x = .refresh t v ∨ x = .query true t v) := by
    intro l
    induction l using List.reverseRecOn with
    | nil => exact .inl rfl
    | append_singleton l x ih =>
      have e : (⟨v0, none⟩ : Exposed V).runEv (l ++ [x]) = ((⟨v0, none⟩ : Exposed V).runEv l).on x := by
        simp [Exposed.runEv]
      rw [e]
      cases x with
      | refresh n v => exact .inr ⟨n, v, rfl, .refresh n v, by simp, rfl, .inl rfl⟩
      | query r n v =>
        simp only [Exposed.on, Exposed.current]
        split
        · rename_i hr
          refine .inr ⟨n, v, rfl, .query r n v, by simp, rfl, .inr ?_⟩
          rw [Bool.and_eq_true] at hr
          rw [hr.1]
        · rcases ih with h | ⟨t, w, h, y, hy, hy2⟩
          · exact .inl h
          · exact .inr ⟨t, w, h, y, List.mem_append_left _ hy, hy2⟩
  rcases key l with h | ⟨t, v, h, x, hx, hxt, hx2⟩
  · rw [h]
    exact ⟨now, fresh, rfl, Nat.le_refl _, by omega, .inl ⟨rfl, rfl⟩⟩
  · rw [h]
    simp only [Exposed.on, Exposed.current]
    have hle : t ≤ now := by
      rw [← hxt]
      exact (List.pairwise_append.1 htime).2.2 _ (List.mem_map_of_mem hx) _ (List.mem_singleton_self _)
    split
    · exact ⟨now, fresh, rfl, Nat.le_refl _, by omega, .inl ⟨rfl, rfl⟩⟩
    · rename_i hr
      simp only [due, Bool.true_and, decide_eq_true_eq] at hr
      exact ⟨t, v, rfl, hle, by omega, .inr ⟨x, hx, hxt, hx2⟩⟩

end Verif.Stats
