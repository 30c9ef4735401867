import Verif.Stats.Model
import Verif.Float.Mono
import Mathlib.Tactic.Linarith
import Mathlib.Tactic.NormNum
import Mathlib.Algebra.BigOperators.Group.List.Basic
import Mathlib.Order.Bounds.Basic

/-!
# C47: histories of complete calls
-/

namespace Verif.Stats

/-! ## Specification -/

/-- the callbacks of a history: time needed and time available -/
def cbs (h : List Op) : List (Nat × Nat) := h.filterMap fun
  | .render d b => some (d, b)
  | _ => none

/-- the latencies of a history -/
def lats (h : List Op) : List Nat := h.filterMap fun
  | .latency x => some x
  | _ => none

/-- Number of maximal runs of callbacks over their budget: the callbacks with which a run begins. -/
def runs (l : List (Nat × Nat)) : Nat :=
  ((List.range l.length).filter fun i =>
    decide ((l.getD i (0, 0)).2 < (l.getD i (0, 0)).1) &&
      (i == 0 || decide ((l.getD (i - 1) (0, 0)).1 ≤ (l.getD (i - 1) (0, 0)).2))).length

/-- the last callback is over its budget -/
def lastOver (l : List (Nat × Nat)) : Bool :=
  match l.getLast? with
  | some x => decide (x.2 < x.1)
  | none => false

/-! ## Proofs -/

theorem runSteps_append (s : St) (l : Loc) (a b : List Step) :
    runSteps s l (a ++ b) = runSteps (runSteps s l a).1 (runSteps s l a).2 b := by
  induction a generalizing s l with
  | nil => rfl
  | cons f fs ih => simp only [List.cons_append, runSteps, ih]

theorem exec_snoc (s : St) (l : Loc) (h : List Op) (o : Op) :
    exec s l (h ++ [o]) = runSteps (exec s l h).1 (exec s l h).2 o.steps := by
  unfold exec
  rw [List.flatMap_append, runSteps_append]
  simp

theorem exec_append (s : St) (l : Loc) (h h' : List Op) :
    exec s l (h ++ h') = exec (exec s l h).1 (exec s l h).2 h' := by
  unfold exec
  rw [List.flatMap_append, runSteps_append]

theorem cbs_append (a b : List Op) : cbs (a ++ b) = cbs a ++ cbs b := List.filterMap_append

theorem runs_snoc (l : List (Nat × Nat)) (x : Nat × Nat) :
    runs (l ++ [x]) = runs l + if decide (x.2 < x.1) && !lastOver l then 1 else 0 := by
  unfold runs
  rw [List.length_append, List.length_singleton, List.range_succ, List.filter_append, List.length_append]
  congr 1
  · congr 1
    refine List.filter_congr fun i hi => ?_
    have hi' : i < l.length := List.mem_range.1 hi
    have e1 : (l ++ [x]).getD i (0, 0) = l.getD i (0, 0) := by
      simp [List.getD_eq_getElem?_getD, List.getElem?_append_left hi']
    have e2 : (l ++ [x]).getD (i - 1) (0, 0) = l.getD (i - 1) (0, 0) := by
      simp [List.getD_eq_getElem?_getD, List.getElem?_append_left (show i - 1 < l.length by omega)]
    rw [e1, e2]
  · have e1 : (l ++ [x]).getD l.length (0, 0) = x := by simp [List.getD_eq_getElem?_getD]
    rw [List.filter_singleton, e1]
    have e2 : (l.length == 0 || decide (((l ++ [x]).getD (l.length - 1) (0, 0)).1 ≤
        ((l ++ [x]).getD (l.length - 1) (0, 0)).2)) = !lastOver l := by
      rcases List.eq_nil_or_concat l with rfl | ⟨a, y, rfl⟩
      · rfl
      · have : ((a.concat y) ++ [x]).getD ((a.concat y).length - 1) (0, 0) = y := by
          simp [List.getD_eq_getElem?_getD]
        rw [this]
        unfold lastOver
        simp only [List.concat_eq_append, List.length_append, List.length_singleton, List.getLast?_append,
          List.getLast?_singleton]
        rw [Bool.eq_iff_iff]
        simp
    rw [e2]
    generalize (decide (x.2 < x.1) && !lastOver l) = c
    cases c <;> rfl

/-- the callback counters after a history -/
structure Counts (s : St) (l : List (Nat × Nat)) : Prop where
  callbacks : s.callbacks = l.length
  render : s.render = (l.map (·.1)).sum
  budget : s.budget = (l.map (·.2)).sum
  underruns : s.underruns = (l.filter fun x => decide (x.2 < x.1)).length
  under : s.under = (l.map fun x => x.1 - x.2).sum
  events : s.events = runs l
  prev : s.prev = lastOver l

theorem lastOver_snoc (l : List (Nat × Nat)) (x : Nat × Nat) : lastOver (l ++ [x]) = decide (x.2 < x.1) := by
  simp [lastOver]

theorem counts_render {s : St} {l : List (Nat × Nat)} (hs : Counts s l) (loc : Loc) (d b : Nat) :
    Counts (runSteps s loc (renderSteps d b)).1 (l ++ [(d, b)]) := by
  obtain ⟨h1, h2, h3, h4, h5, h6, h7⟩ := hs
  by_cases hu : 0 < d - b
  · have hlt : b < d := by omega
    rw [renderSteps, if_pos hu]
    cases hp : s.prev with
    | true =>
      constructor <;> simp [runSteps, hp, h1, h2, h3, h4, h5, h6, runs_snoc, hlt, lastOver_snoc, ← h7]
    | false =>
      constructor <;> simp [runSteps, hp, h1, h2, h3, h4, h5, h6, runs_snoc, hlt, lastOver_snoc, ← h7]
  · have hlt : ¬ b < d := by omega
    have h0 : d - b = 0 := by omega
    rw [renderSteps, if_neg hu]
    constructor <;> simp [runSteps, h1, h2, h3, h4, h5, h6, runs_snoc, hlt, h0, lastOver_snoc]

/-- C47: after every history of calls the counters are exact: number of callbacks, times, number of callbacks over their
budget, time over budget, and number of maximal runs of such callbacks. Snapshots, resets and peaks between
do not change them. -/
theorem C47_exact (h : List Op) (loc : Loc) : Counts (exec St.new loc h).1 (cbs h) := by
  induction h using List.reverseRecOn with
  | nil => exact ⟨rfl, rfl, rfl, rfl, rfl, rfl, rfl⟩
  | append_singleton h o ih =>
    rw [exec_snoc, cbs_append]
    cases o with
    | render d b => exact counts_render ih _ d b
    | latency x =>
      obtain ⟨h1, h2, h3, h4, h5, h6, h7⟩ := ih
      simp only [cbs, List.filterMap_cons, List.filterMap_nil, List.append_nil]
      exact ⟨h1, h2, h3, h4, h5, h6, h7⟩
    | reset =>
      obtain ⟨h1, h2, h3, h4, h5, h6, h7⟩ := ih
      simp only [cbs, List.filterMap_cons, List.filterMap_nil, List.append_nil]
      exact ⟨h1, h2, h3, h4, h5, h6, h7⟩
    | snapshot =>
      obtain ⟨h1, h2, h3, h4, h5, h6, h7⟩ := ih
      simp only [cbs, List.filterMap_cons, List.filterMap_nil, List.append_nil]
      exact ⟨h1, h2, h3, h4, h5, h6, h7⟩
    | peak =>
      obtain ⟨h1, h2, h3, h4, h5, h6, h7⟩ := ih
      simp only [cbs, List.filterMap_cons, List.filterMap_nil, List.append_nil]
      exact ⟨h1, h2, h3, h4, h5, h6, h7⟩

/-- two runs, three late callbacks -/
example : runs [(3, 2), (5, 2), (1, 2), (3, 2)] = 2 ∧
    (exec St.new Loc.new [.render 3 2, .reset, .render 5 2, .render 1 2, .latency 7, .render 3 2]).1.events = 2 ∧
    (exec St.new Loc.new [.render 3 2, .reset, .render 5 2, .render 1 2, .latency 7, .render 3 2]).1.under = 5 := by
  decide

/-- A snapshot, when nothing else runs, is the state. -/
theorem snapshot_eq (s : St) (l : Loc) :
    (runSteps s l snapSteps).1 = s ∧ (runSteps s l snapSteps).2.log = l.log ++
      [⟨s.callbacks, s.render, s.budget, s.underruns, s.under, s.events, s.sum, s.count,
        if s.min = u64Max then 0 else s.min, s.max⟩] := ⟨rfl, rfl⟩

/-! ## Latency -/

/-- the last latency of a history, zero if none -/
def lastLat (h : List Op) : Nat := (lats h).getLast?.getD 0

theorem render_fixed (s : St) (l : Loc) (d b : Nat) :
    (runSteps s l (renderSteps d b)).1.latest = s.latest ∧ (runSteps s l (renderSteps d b)).1.sum = s.sum ∧
    (runSteps s l (renderSteps d b)).1.count = s.count ∧ (runSteps s l (renderSteps d b)).1.min = s.min ∧
    (runSteps s l (renderSteps d b)).1.max = s.max := by
  by_cases hu : 0 < d - b
  · rw [renderSteps, if_pos hu]
    cases hq : s.prev <;> simp [runSteps, hq]
  · rw [renderSteps, if_neg hu]
    simp [runSteps]

theorem latest_eq (h : List Op) (l : Loc) : (exec St.new l h).1.latest = lastLat h := by
  induction h using List.reverseRecOn with
  | nil => rfl
  | append_singleton h o ih =>
    rw [exec_snoc]
    have hl : lats (h ++ [o]) = lats h ++ lats [o] := List.filterMap_append
    unfold lastLat at ih ⊢
    rw [hl]
    cases o with
    | render d b =>
      rw [show lats [Op.render d b] = [] from rfl, List.append_nil, ← ih]
      exact (render_fixed _ _ d b).1
    | latency x =>
      rw [show lats [Op.latency x] = [x] from rfl]
      simp [Op.steps, latencySteps, runSteps]
    | reset =>
      rw [show lats [Op.reset] = [] from rfl, List.append_nil]
      exact ih
    | snapshot =>
      rw [show lats [Op.snapshot] = [] from rfl, List.append_nil]
      exact ih
    | peak =>
      rw [show lats [Op.peak] = [] from rfl, List.append_nil]
      exact ih

/-- the latency fields hold the values `w` -/
structure Window (s : St) (w : List Nat) : Prop where
  sum : s.sum = w.sum
  count : s.count = w.length
  min : IsLeast {x | x ∈ w} s.min
  max : IsGreatest {x | x ∈ w} s.max

theorem window_latency {s : St} {w : List Nat} (hs : Window s w) (l : Loc) (x : Nat) :
    Window (runSteps s l (latencySteps x)).1 (w ++ [x]) := by
  obtain ⟨h1, h2, ⟨h3, h4⟩, ⟨h5, h6⟩⟩ := hs
  refine ⟨by simp [latencySteps, runSteps, h1], by simp [latencySteps, runSteps, h2], ?_, ?_⟩
  · simp only [latencySteps, runSteps]
    constructor
    · rcases Nat.le_total s.min x with h | h
      · rw [show Nat.min s.min x = s.min from Nat.min_eq_left h]
        exact List.mem_append_left _ h3
      · rw [show Nat.min s.min x = x from Nat.min_eq_right h]
        exact List.mem_append_right _ (List.mem_singleton_self x)
    · intro y hy
      rcases List.mem_append.1 hy with hy | hy
      · exact le_trans (Nat.min_le_left _ _) (h4 hy)
      · rw [List.mem_singleton.1 hy]
        exact Nat.min_le_right _ _
  · simp only [latencySteps, runSteps]
    constructor
    · rcases Nat.le_total s.max x with h | h
      · rw [show Nat.max s.max x = x from Nat.max_eq_right h]
        exact List.mem_append_right _ (List.mem_singleton_self x)
      · rw [show Nat.max s.max x = s.max from Nat.max_eq_left h]
        exact List.mem_append_left _ h5
    · intro y hy
      rcases List.mem_append.1 hy with hy | hy
      · exact le_trans (h6 hy) (Nat.le_max_left _ _)
      · rw [List.mem_singleton.1 hy]
        exact Nat.le_max_right _ _

/-- C47: latency since the last reset. The sum, the number, the smallest and the largest are those of the latency
known at the reset (zero if none) and the latencies recorded since. Every history of an `AudioPlaybackStats` has a reset,
the constructor makes one. -/
theorem C47_latency (pre post : List Op) (hpost : Op.reset ∉ post) (loc : Loc) :
    Window (exec St.new loc (pre ++ .reset :: post)).1 (lastLat pre :: lats post) := by
  induction post using List.reverseRecOn with
  | nil =>
    rw [show pre ++ [Op.reset] = pre ++ [Op.reset] from rfl, exec_snoc]
    have := latest_eq pre loc
    refine ⟨?_, rfl, ?_, ?_⟩
    · simp [Op.steps, resetSteps, runSteps, this, lats]
    · simp [Op.steps, resetSteps, runSteps, this, lats, IsLeast, lowerBounds]
    · simp [Op.steps, resetSteps, runSteps, this, lats, IsGreatest, upperBounds]
  | append_singleton post o ih =>
    rw [List.mem_append, not_or] at hpost
    have ih := ih hpost.1
    rw [← List.cons_append, ← List.append_assoc, exec_snoc]
    have hl : lats (post ++ [o]) = lats post ++ lats [o] := List.filterMap_append
    rw [hl]
    cases o with
    | latency x =>
      rw [show lats [Op.latency x] = [x] from rfl, ← List.cons_append]
      exact window_latency ih _ x
    | reset => exact absurd (List.mem_singleton_self _) hpost.2
    | render d b =>
      rw [show lats [Op.render d b] = [] from rfl, List.append_nil]
      obtain ⟨h1, h2, h3, h4⟩ := ih
      obtain ⟨-, e1, e2, e3, e4⟩ := render_fixed (exec St.new loc (pre ++ Op.reset :: post)).1
        (exec St.new loc (pre ++ Op.reset :: post)).2 d b
      exact ⟨e1.trans h1, e2.trans h2, by rw [show (runSteps _ _ (Op.render d b).steps).1.min = _ from e3]; exact h3,
        by rw [show (runSteps _ _ (Op.render d b).steps).1.max = _ from e4]; exact h4⟩
    | snapshot =>
      rw [show lats [Op.snapshot] = [] from rfl, List.append_nil]
      exact ⟨ih.1, ih.2, ih.3, ih.4⟩
    | peak =>
      rw [show lats [Op.peak] = [] from rfl, List.append_nil]
      exact ⟨ih.1, ih.2, ih.3, ih.4⟩

theorem sum_bounds (w : List Nat) (lo hi : Nat) (h1 : ∀ x ∈ w, lo ≤ x) (h2 : ∀ x ∈ w, x ≤ hi) :
    w.length * lo ≤ w.sum ∧ w.sum ≤ w.length * hi := by
  induction w with
  | nil => simp
  | cons a w ih =>
    obtain ⟨i1, i2⟩ := ih (fun x hx => h1 x (List.mem_cons_of_mem _ hx)) (fun x hx => h2 x (List.mem_cons_of_mem _ hx))
    have a1 := h1 a (List.mem_cons_self ..)
    have a2 := h2 a (List.mem_cons_self ..)
    simp only [List.length_cons, List.sum_cons, Nat.add_mul, Nat.one_mul]
    omega

/-- C47: when the snapshot does not overlap a reset or a record, the smallest latency is at most the average and the
average at most the largest, also in seconds, whatever monotone rounding the floats have. -/
theorem C47_ordered_partial {K : Type} [Field K] [LinearOrder K] [IsStrictOrderedRing K] (r : K → K)
    (hr : Monotone r) (pre post : List Op) (hpost : Op.reset ∉ post) (loc : Loc)
    (hmax : ∀ x ∈ lastLat pre :: lats post, x < u64Max) :
    ∃ s : Snap, (exec St.new loc (pre ++ .reset :: post ++ [.snapshot])).2.log =
        (exec St.new loc (pre ++ .reset :: post)).2.log ++ [s] ∧
      s.min ≤ average s ∧ average s ≤ s.max ∧
      IsLeast {x | x ∈ lastLat pre :: lats post} s.min ∧ IsGreatest {x | x ∈ lastLat pre :: lats post} s.max ∧
      average s = (lastLat pre :: lats post).sum / (lastLat pre :: lats post).length ∧
      seconds r s.min ≤ seconds r (average s) ∧ seconds r (average s) ≤ seconds r s.max := by
  obtain ⟨h1, h2, h3, h4⟩ := C47_latency pre post hpost loc
  rw [exec_snoc]
  refine ⟨_, (snapshot_eq _ _).2, ?_⟩
  have hm : (exec St.new loc (pre ++ Op.reset :: post)).1.min ≠ u64Max := (hmax _ h3.1).ne
  rw [if_neg hm]
  have hb := sum_bounds _ _ _ (fun x hx => h3.2 hx) (fun x hx => h4.2 hx)
  rw [← h1, ← h2] at hb
  have hc : 0 < (exec St.new loc (pre ++ Op.reset :: post)).1.count := by rw [h2]; simp
  have mono : ∀ a b : Nat, a ≤ b → seconds r a ≤ seconds r b := by
    intro a b hab
    apply hr
    apply div_le_div_of_nonneg_right (hr (Nat.cast_le.2 hab))
    norm_num
  have b1 : (exec St.new loc (pre ++ Op.reset :: post)).1.min ≤
      (exec St.new loc (pre ++ Op.reset :: post)).1.sum / (exec St.new loc (pre ++ Op.reset :: post)).1.count := by
    rw [Nat.le_div_iff_mul_le hc, Nat.mul_comm]
    exact hb.1
  have b2 : (exec St.new loc (pre ++ Op.reset :: post)).1.sum / (exec St.new loc (pre ++ Op.reset :: post)).1.count ≤
      (exec St.new loc (pre ++ Op.reset :: post)).1.max := by
    rw [Nat.div_le_iff_le_mul_add_pred hc]
    omega
  refine ⟨b1, b2, h3, h4, ?_, mono _ _ b1, mono _ _ b2⟩
  unfold average
  simp only
  rw [h1, h2]

example : (exec St.new Loc.new [.reset, .latency 30, .reset, .latency 10, .latency 21, .snapshot]).2.log.map
    (fun s => (s.min, average s, s.max)) = [(10, 20, 30)] := by decide

/-- C47 in its intended meaning fails at the start: the constructor resets before a latency is known, so that zero counts
as a recorded latency. With latencies 10 and 20 the minimum is 0 and the average is 10. -/
theorem C47_negated_phantom_zero :
    (exec St.new Loc.new [.reset, .latency 10, .latency 20, .snapshot]).2.log.map
      (fun s => (s.min, average s, s.max)) = [(0, 10, 20)] := by decide

/-! ## Load -/

/-- C47: two snapshots at quiet times: the ratio of late callbacks is the exact one of the callbacks between, and lies in
[0, 1], also after rounding and in the event, where it is zero only without late callbacks. -/
theorem C47_ratio_partial {K : Type} [Field K] [LinearOrder K] [IsStrictOrderedRing K] [FloorRing K] (r : K → K)
    {N : Nat} (hr : Float.Rounding r N) (hN : 100 ≤ N) (h1 h2 : List Op) (loc : Loc) (p n : Snap)
    (hp : (exec St.new loc (h1 ++ [.snapshot])).2.log.getLast? = some p)
    (hn : (exec St.new loc (h1 ++ h2 ++ [.snapshot])).2.log.getLast? = some n) (hne : cbs h2 ≠ [])
    (hlen : (cbs h2).length ≤ N) :
    ratio r p n = r ((((cbs h2).filter fun x => decide (x.2 < x.1)).length : K) / ((cbs h2).length : K)) ∧
    0 ≤ ratio r p n ∧ ratio r p n ≤ 1 ∧ 0 ≤ ratioEvent r (ratio r p n) ∧ ratioEvent r (ratio r p n) ≤ 1 := by
  rw [exec_snoc, show Op.snapshot.steps = snapSteps from rfl, (snapshot_eq _ _).2, List.getLast?_append] at hp hn
  simp only [List.getLast?_singleton, Option.some.injEq, Option.some_or] at hp hn
  have c1 := C47_exact h1 loc
  have c2 := C47_exact (h1 ++ h2) loc
  have hu : n.underruns - p.underruns = ((cbs h2).filter fun x => decide (x.2 < x.1)).length := by
    rw [← hp, ← hn]
    simp only [c1.underruns, c2.underruns, cbs_append, List.filter_append, List.length_append]
    omega
  have hc : Nat.max (n.callbacks - p.callbacks) 1 = (cbs h2).length := by
    have h0 : 0 < (cbs h2).length := List.length_pos_of_ne_nil hne
    have : n.callbacks - p.callbacks = (cbs h2).length := by
      rw [← hp, ← hn]
      simp only [c1.callbacks, c2.callbacks, cbs_append, List.length_append]
      omega
    rw [this]
    exact Nat.max_eq_left h0
  have hle : ((cbs h2).filter fun x => decide (x.2 < x.1)).length ≤ (cbs h2).length := List.length_filter_le ..
  have h0 : 0 < (cbs h2).length := List.length_pos_of_ne_nil hne
  have e : ratio r p n = r ((((cbs h2).filter fun x => decide (x.2 < x.1)).length : K) / ((cbs h2).length : K)) := by
    unfold ratio
    rw [hu, hc, hr.nat _ (le_trans hle hlen), hr.nat _ hlen]
  have hk : (0 : K) < ((cbs h2).length : K) := Nat.cast_pos.2 h0
  have r0 : r 0 = 0 := by simpa using hr.nat 0 (Nat.zero_le _)
  have r1 : r 1 = 1 := by simpa using hr.nat 1 (by omega)
  have r100 : r 100 = 100 := by simpa using hr.nat 100 hN
  have hge : 0 ≤ ratio r p n := by
    rw [e, ← r0]
    exact hr.mono (by positivity)
  have hle1 : ratio r p n ≤ 1 := by
    rw [e, ← r1]
    apply hr.mono
    rw [div_le_one hk]
    exact Nat.cast_le.2 hle
  have m0 : 0 ≤ r (ratio r p n * 100) := by
    conv_lhs => rw [← r0]
    exact hr.mono (by positivity)
  have m1 : r (ratio r p n * 100) ≤ 100 := by
    conv_rhs => rw [← r100]
    exact hr.mono (by linarith)
  have k0 : (0 : ℤ) ≤ ⌈r (ratio r p n * 100)⌉ := Int.ceil_nonneg m0
  have k1 : ⌈r (ratio r p n * 100)⌉ ≤ (100 : ℤ) := Int.ceil_le.2 (by simpa using m1)
  have k0' : (0 : K) ≤ (⌈r (ratio r p n * 100)⌉ : K) := by exact_mod_cast k0
  have k1' : (⌈r (ratio r p n * 100)⌉ : K) ≤ 100 := by exact_mod_cast k1
  refine ⟨e, hge, hle1, ?_, ?_⟩
  · unfold ratioEvent
    conv_lhs => rw [← r0]
    exact hr.mono (by positivity)
  · unfold ratioEvent
    conv_rhs => rw [← r1]
    exact hr.mono (by rw [div_le_one (by norm_num)]; exact k1')

/-- C47: the average load between two snapshots at quiet times is exact: time needed by the callbacks between divided
by their time available. -/
theorem C47_load {K : Type} [Field K] (h1 h2 : List Op) (loc : Loc) (p n : Snap)
    (hp : (exec St.new loc (h1 ++ [.snapshot])).2.log.getLast? = some p)
    (hn : (exec St.new loc (h1 ++ h2 ++ [.snapshot])).2.log.getLast? = some n) (hb : ∃ x ∈ cbs h2, 0 < x.2) :
    (load p n : K) = (((cbs h2).map (·.1)).sum : Nat) / (((cbs h2).map (·.2)).sum : Nat) := by
  rw [exec_snoc, show Op.snapshot.steps = snapSteps from rfl, (snapshot_eq _ _).2, List.getLast?_append] at hp hn
  simp only [List.getLast?_singleton, Option.some.injEq, Option.some_or] at hp hn
  have c1 := C47_exact h1 loc
  have c2 := C47_exact (h1 ++ h2) loc
  have e1 : n.budget - p.budget = ((cbs h2).map (·.2)).sum := by
    rw [← hp, ← hn]
    simp only [c1.budget, c2.budget, cbs_append, List.map_append, List.sum_append]
    omega
  have e2 : n.render - p.render = ((cbs h2).map (·.1)).sum := by
    rw [← hp, ← hn]
    simp only [c1.render, c2.render, cbs_append, List.map_append, List.sum_append]
    omega
  have hne : ((cbs h2).map (·.2)).sum ≠ 0 := by
    obtain ⟨x, hx, h0⟩ := hb
    intro hs
    have := List.sum_eq_zero_iff.1 hs x.2 (List.mem_map_of_mem hx)
    omega
  unfold load
  rw [e1, e2, if_neg hne]

/-- the loads of the callbacks, in millionths -/
def loads (h : List Op) : List Nat := (cbs h).map fun x => loadPpm x.1 x.2

theorem peak_loads (pre seg : List Op) (hseg : Op.peak ∉ seg) (loc : Loc) :
    ∃ v, (exec St.new loc (pre ++ .peak :: seg ++ [.peak])).2.peaks.getLast? = some v ∧
      (∀ x ∈ loads seg, x ≤ v) ∧ (v = 0 ∨ v ∈ loads seg) := by
  have key : (∀ x ∈ loads seg, x ≤ (exec St.new loc (pre ++ .peak :: seg)).1.peak) ∧
      ((exec St.new loc (pre ++ .peak :: seg)).1.peak = 0 ∨
        (exec St.new loc (pre ++ .peak :: seg)).1.peak ∈ loads seg) := by
    induction seg using List.reverseRecOn with
    | nil =>
      rw [exec_snoc]
      exact ⟨fun x hx => (List.not_mem_nil hx).elim, .inl rfl⟩
    | append_singleton seg o ih =>
      rw [List.mem_append, not_or] at hseg
      have ih := ih hseg.1
      rw [← List.cons_append, ← List.append_assoc, exec_snoc]
      have hl : loads (seg ++ [o]) = loads seg ++ loads [o] := by
        unfold loads
        rw [cbs_append, List.map_append]
      rw [hl]
      generalize (exec St.new loc (pre ++ Op.peak :: seg)).1 = s at ih
      generalize (exec St.new loc (pre ++ Op.peak :: seg)).2 = l
      cases o with
      | render d b =>
        have hpk : (runSteps s l (Op.render d b).steps).1.peak = Nat.max s.peak (loadPpm d b) := by
          show (runSteps s l (renderSteps d b)).1.peak = _
          by_cases hu : 0 < d - b
          · rw [renderSteps, if_pos hu]
            cases hq : s.prev <;> simp [runSteps, hq]
          · rw [renderSteps, if_neg hu]
            simp [runSteps]
        rw [hpk, show loads [Op.render d b] = [loadPpm d b] from rfl]
        refine ⟨fun x hx => ?_, ?_⟩
        · rcases List.mem_append.1 hx with hx | hx
          · exact le_trans (ih.1 x hx) (Nat.le_max_left _ _)
          · rw [List.mem_singleton.1 hx]
            exact Nat.le_max_right _ _
        · rcases Nat.le_total s.peak (loadPpm d b) with h | h
          · rw [show Nat.max s.peak (loadPpm d b) = _ from Nat.max_eq_right h]
            exact .inr (List.mem_append_right _ (List.mem_singleton_self _))
          · rw [show Nat.max s.peak (loadPpm d b) = _ from Nat.max_eq_left h]
            exact ih.2.imp id (List.mem_append_left _)
      | latency x =>
        rw [show loads [Op.latency x] = [] from rfl, List.append_nil]
        exact ih
      | reset =>
        rw [show loads [Op.reset] = [] from rfl, List.append_nil]
        exact ih
      | snapshot =>
        rw [show loads [Op.snapshot] = [] from rfl, List.append_nil]
        exact ih
      | peak => exact absurd (List.mem_singleton_self _) hseg.2
  rw [exec_snoc]
  refine ⟨(exec St.new loc (pre ++ Op.peak :: seg)).1.peak, ?_, key.1, key.2⟩
  simp [Op.steps, peakSteps, runSteps]

/-- C47: the peak load of an interval: two calls of `take_peak_load` and nothing of the kind between. The second obtains
the largest load (duration divided by budget, in millionths, rounded down) of the callbacks between; every load is counted in
exactly one interval. The peak is one memory location, so this covers all interleavings. -/
theorem C47_peak (pre seg : List Op) (hseg : Op.peak ∉ seg) (loc : Loc) :
    ∃ v, (exec St.new loc (pre ++ .peak :: seg ++ [.peak])).2.peaks.getLast? = some v ∧
      (∀ x ∈ cbs seg, 0 < x.2 → x.1 * 1000000 ≤ u64Max → x.1 * 1000000 < (v + 1) * x.2) ∧
      (v = 0 ∨ ∃ x ∈ cbs seg, 0 < x.2 ∧ v * x.2 ≤ x.1 * 1000000) := by
  obtain ⟨v, h1, h2, h3⟩ := peak_loads pre seg hseg loc
  refine ⟨v, h1, fun x hx h0 hm => ?_, ?_⟩
  · have := h2 _ (List.mem_map_of_mem hx)
    rw [loadPpm, if_neg (by omega), show Nat.min (x.1 * 1000000) u64Max = x.1 * 1000000 from Nat.min_eq_left hm] at this
    exact (Nat.div_lt_iff_lt_mul h0).1 (by omega)
  · rcases h3 with h3 | h3
    · exact .inl h3
    · obtain ⟨x, hx, hv⟩ := List.mem_map.1 h3
      by_cases h0 : x.2 = 0
      · left
        rw [← hv]
        simp [loadPpm, h0]
      · right
        refine ⟨x, hx, by omega, ?_⟩
        rw [← hv, loadPpm, if_neg h0]
        exact (Nat.div_mul_le_self _ _).trans (Nat.min_le_left _ _)

example : (exec St.new Loc.new [.render 9 2, .peak, .render 1 2, .render 3 4, .render 1 4, .peak]).2.peaks =
    [4500000, 750000] := by decide

end Verif.Stats
