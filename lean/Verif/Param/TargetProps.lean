import Verif.Param.StartProps

/-!
# C87: `set_target_at_time` approaches its target exponentially

Specification: from the start time `T` on, `v1 + (v0 - v1) exp (-(t - T) / tau)`, where `v0` is the value
at the start; times in the past are replaced by the time at which the event is handled, so that the value
never jumps.
-/

namespace Verif.Param

section
variable {K : Type} [Field K] [LinearOrder K] [IsStrictOrderedRing K] [FloorRing K] [FloorSemiring K]

/-- The approach to `v1` that starts with `v0` at time `T`. -/
def approach (ex : K → K) (v0 v1 T tau t : K) : K := v1 + (v0 - v1) * ex (-(t - T) / tau)

/-- "Close enough": the tolerance `SNAP_TO_TARGET` documented in param.rs l.22. -/
def Near (x y : K) : Prop := |x - y| < 1 / 10 ^ 10

/-- `x` is `y`, or it is the target and `y` is so close to it that this makes no difference. -/
def Hits (v1 y x : K) : Prop := x = y ∨ x = v1 ∧ Near v1 y

theorem tgt_eq {ex : K → K} {pw : K → K → K} {mn mx T tau v0 v1 t : K} :
    (exact ex pw mn mx).tgt T tau v0 v1 t = approach ex v0 v1 T tau t := by
  simp only [exact, approach]
  rw [neg_div]
  ring

/-- The distance to the target decreases. -/
theorem near_later {ex : K → K} (hm : Monotone ex) (hp : ∀ x, 0 < ex x) {v0 v1 T tau t u : K}
    (htau : 0 < tau) (htu : t ≤ u) (h : Near v1 (approach ex v0 v1 T tau t)) :
    Near v1 (approach ex v0 v1 T tau u) := by
  unfold Near approach at *
  rw [show v1 - (v1 + (v0 - v1) * ex (-(t - T) / tau)) = -((v0 - v1) * ex (-(t - T) / tau)) by ring,
    abs_neg, abs_mul, abs_of_pos (hp _)] at h
  rw [show v1 - (v1 + (v0 - v1) * ex (-(u - T) / tau)) = -((v0 - v1) * ex (-(u - T) / tau)) by ring,
    abs_neg, abs_mul, abs_of_pos (hp _)]
  refine lt_of_le_of_lt (mul_le_mul_of_nonneg_left (hm ?_) (abs_nonneg _)) h
  apply div_le_div_of_nonneg_right _ htau.le
  linarith

/-- The next event, if any, is a `set_value_at_time` after `t`. -/
def Until (t : K) (rest : List (Ev K K)) : Prop :=
  ∀ n more, rest = n :: more → n.kind = .setValueAtTime ∧ t < n.time

theorem Until.mono {t u : K} {rest : List (Ev K K)} (h : Until u rest) (htu : t ≤ u) : Until t rest :=
  fun n more hr => ⟨(h n more hr).1, lt_of_le_of_lt htu (h n more hr).2⟩

/-- Where a target event can be between two quanta: about to be processed together with the implicit
`SetValue`, active, replaced by a `SetValueAtTime` because close to the target, or finished. -/
inductive Stage (ex : K → K) (v0 v1 T tau now : K) (rest : List (Ev K K)) (p : Proc K K) : Prop
  | pre (htl : p.timeline = { kind := .setValue, value := v0, time := 0 } ::
      { kind := .target tau, value := v1, time := T } :: rest) (hv : p.intrinsic = v0)
  | active (l : Ev K K) (htl : p.timeline = { kind := .target tau, value := v1, time := T } :: rest)
      (hl : p.last = some l) (hv : l.value = v0)
  | snapped (htl : p.timeline = { kind := .setValueAtTime, value := v1, time := now } :: rest)
      (hv : p.intrinsic = v1) (hn : Near v1 (approach ex v0 v1 T tau now))
  | done (htl : p.timeline = rest) (hv : p.intrinsic = v1) (hn : Near v1 (approach ex v0 v1 T tau now))

/-- Between two quanta: the stage, and the value once the event has started. -/
structure Following (ex : K → K) (v0 v1 T tau now : K) (rest : List (Ev K K)) (p : Proc K K) : Prop where
  stage : Stage ex v0 v1 T tau now rest p
  value : p.aRate = false → T < now → Hits v1 (approach ex v0 v1 T tau now) p.intrinsic

/-- `compute_buffer` for a block that is not constant. -/
theorem computeBuffer_loop {V : Type} {A : Arith K V} {p : Proc K V} {b : Block K}
    (h : isConstant p b = false) :
    computeBuffer A p b = loop A b (2 * p.timeline.length + 1)
      { p with current := A.clamp p.intrinsic, buffer := if p.aRate then [] else [p.intrinsic] } := by
  unfold computeBuffer
  dsimp only
  have hc' : ∀ (c : V) (buf : List V), isConstant { p with current := c, buffer := buf } b =
      isConstant p b := fun _ _ => rfl
  rw [hc', hc', h]
  cases p.aRate <;> rfl

theorem computeBuffer_const {V : Type} {A : Arith K V} {p : Proc K V} {b : Block K}
    (h : isConstant p b = true) :
    computeBuffer A p b = .ok { p with current := A.clamp p.intrinsic, buffer := [p.intrinsic] } := by
  unfold computeBuffer
  dsimp only
  have hc' : ∀ (c : V) (buf : List V), isConstant { p with current := c, buffer := buf } b =
      isConstant p b := fun _ _ => rfl
  rw [hc', hc', h]
  simp

theorem Block.index_start (b : Block K) : b.index b.time = 0 := by
  unfold Block.index
  rw [Nat.floor_eq_zero, sub_self, max_self, zero_div]
  norm_num

/-- A set value event at the beginning of the block. -/
theorem event_set_start {A : Arith K K} {b : Block K} (hdt : 0 < b.dt) {p : Proc K K} {e : Ev K K}
    {rest : List (Ev K K)} (hp : p.timeline = e :: rest)
    (hk : e.kind = .setValue ∨ e.kind = .setValueAtTime) (hat : e.at b = b.time) :
    computeEvent A p b = .ok (false, { p with intrinsic := e.value, timeline := rest
                                              last := some { e with time := b.time } }) := by
  have hn : ¬ b.next < b.time := by
    unfold Block.next
    have : (0 : K) ≤ b.dt * b.count := by positivity
    linarith
  have hs : computeSetValue p b =
      .ok (false, { p with intrinsic := e.value, timeline := rest, last := some { e with time := b.time } }) := by
    unfold computeSetValue
    rw [hp]
    dsimp only
    rw [hat, if_neg hn, b.index_start, Nat.zero_min, extend_of_le _ (Nat.zero_le _)]
    simp
  unfold computeEvent
  rw [hp]
  dsimp only
  rw [← hs]
  rcases hk with hk | hk <;> rw [hk]

/-- The end of the block with the remaining events: the value is held up to the next event. -/
theorem event_hold {A : Arith K K} {b : Block K} (hdt : 0 < b.dt) {p : Proc K K} (ht : 0 ≤ b.time)
    (hu : Until b.next p.timeline) :
    ∃ buf, computeEvent A p b = .ok (true, { p with buffer := buf }) := by
  unfold computeEvent
  cases hp : p.timeline with
  | nil => exact ⟨_, rfl⟩
  | cons n more =>
    obtain ⟨hk, hlt⟩ := hu n more hp
    have hnx : 0 ≤ b.next := by
      unfold Block.next
      have : (0 : K) ≤ b.dt * b.count := by positivity
      linarith
    dsimp only
    rw [hk]
    dsimp only
    unfold computeSetValue
    rw [hp]
    dsimp only
    have hat : n.at b = n.time := by
      unfold Ev.at
      rw [if_neg (by linarith)]
    rw [hat, if_pos hlt]
    exact ⟨_, rfl⟩

/-- What a target event alone does in a block, unless another event stops it. -/
theorem event_target {ex : K → K} {pw : K → K → K} {mn mx : K} {b : Block K} {p : Proc K K} {v0 v1 T tau : K}
    {rest : List (Ev K K)} {l : Ev K K}
    (hp : p.timeline = { kind := .target tau, value := v1, time := T } :: rest) (hl : p.last = some l)
    (hv : l.value = v0) (hu : Until b.next rest) :
    ∃ q, computeEvent (exact ex pw mn mx) p b = .ok (true, q) ∧ q.aRate = p.aRate ∧
      q.buffer = (if p.aRate then extend p.buffer (min (b.index b.next) b.count)
        (fun i => if b.frame i - T < 0 then p.intrinsic else approach ex v0 v1 T tau (b.frame i))
        else p.buffer) ∧
      ((q.intrinsic = approach ex v0 v1 T tau b.next ∧ q.timeline = p.timeline ∧ q.last = some l) ∨
       (q.intrinsic = v1 ∧ q.timeline = { kind := .setValueAtTime, value := v1, time := b.next } :: rest ∧
          Near v1 (approach ex v0 v1 T tau b.next))) := by
  have hend : targetEnd b ({ kind := .target tau, value := v1, time := T } : Ev K K) rest = none := by
    unfold targetEnd
    dsimp only
    unfold targetNext
    cases rest with
    | nil => rfl
    | cons n more =>
      obtain ⟨hk, hlt⟩ := hu n more rfl
      dsimp only
      rw [if_neg (by simp [Ev.isRamp, hk]), if_neg (not_lt.2 hlt.le)]
  unfold computeEvent
  rw [hp]
  dsimp only
  unfold computeTarget
  rw [hp, hl]
  dsimp only
  rw [hend]
  simp only [Option.getD_none, tgt_eq, hv]
  by_cases hs : (exact ex pw mn mx).snap v1 (approach ex v0 v1 T tau b.next) = true
  · rw [if_pos hs]
    refine ⟨_, rfl, rfl, ?_, .inr ⟨rfl, rfl, by simpa [exact, Near] using hs⟩⟩
    dsimp only
    have hfl : (exact ex pw mn mx).flush = id := rfl
    rw [hfl, List.map_id, ite_self]
  · rw [if_neg hs]
    exact ⟨_, rfl, rfl, rfl, .inl ⟨rfl, rfl, rfl⟩⟩

theorem Block.time_le_next {b : Block K} (hdt : 0 < b.dt) : b.time ≤ b.next := by
  unfold Block.next
  have : (0 : K) ≤ b.dt * b.count := by positivity
  linarith

theorem Block.time_lt_next {b : Block K} (hdt : 0 < b.dt) (hc : 0 < b.count) : b.time < b.next := by
  unfold Block.next
  have : (0 : K) < b.count := by exact_mod_cast hc
  have : (0 : K) < b.dt * b.count := by positivity
  linarith

/-- A quantum before the next event keeps the invariant. -/
theorem Following.block {ex : K → K} (hm : Monotone ex) (hpos : ∀ x, 0 < ex x) {pw : K → K → K}
    {mn mx : K} {b : Block K} (hdt : 0 < b.dt) (hc : 0 < b.count) (ht : 0 ≤ b.time) {v0 v1 T tau : K}
    (htau : 0 < tau) {rest : List (Ev K K)} {p : Proc K K} (hf : Following ex v0 v1 T tau b.time rest p)
    (hu : Until b.next rest) :
    ∃ q, computeBuffer (exact ex pw mn mx) p b = .ok q ∧ Following ex v0 v1 T tau b.next rest q ∧
      q.aRate = p.aRate := by
  have hlt := b.time_lt_next hdt hc
  have hnext : 0 < b.next := lt_of_le_of_lt ht hlt
  have hconst : ∀ tl : List (Ev K K), Until b.next tl → p.timeline = tl → isConstant p b = true := by
    intro tl h heq
    unfold isConstant
    rw [heq]
    cases tl with
    | nil => rfl
    | cons n more =>
      obtain ⟨hk, hn⟩ := h n more rfl
      simp [Ev.isRamp, hk, hn.le]
  have htarget : ∀ (p : Proc K K) (l : Ev K K) (m : Nat),
      p.timeline = { kind := .target tau, value := v1, time := T } :: rest → p.last = some l →
      l.value = v0 → ∃ q, loop (exact ex pw mn mx) b (m + 1) p = .ok q ∧
        Following ex v0 v1 T tau b.next rest q ∧ q.aRate = p.aRate := by
    intro p l m htl hl hv
    obtain ⟨q, hq, ha, -, hcase⟩ := event_target (ex := ex) (pw := pw) (mn := mn) (mx := mx) htl hl hv hu
    refine ⟨q, by unfold loop; rw [hq]; rfl, ?_, ha⟩
    rcases hcase with ⟨h1, h2, h3⟩ | ⟨h1, h2, h3⟩
    · exact ⟨.active l (h2.trans htl) h3 hv, fun _ _ => .inl h1⟩
    · exact ⟨.snapped h2 h1 h3, fun _ _ => .inr ⟨h1, h3⟩⟩
  have hhold : ∀ (p : Proc K K) (m : Nat), p.timeline = rest → p.intrinsic = v1 →
      Near v1 (approach ex v0 v1 T tau b.time) → ∃ q, loop (exact ex pw mn mx) b (m + 1) p = .ok q ∧
        Following ex v0 v1 T tau b.next rest q ∧ q.aRate = p.aRate := by
    intro p m htl hv hn
    obtain ⟨buf, hq⟩ := event_hold (A := exact ex pw mn mx) (p := p) hdt ht (by rw [htl]; exact hu)
    have hn' := near_later hm hpos htau hlt.le hn
    exact ⟨{ p with buffer := buf }, by unfold loop; rw [hq]; rfl,
      ⟨.done htl hv hn', fun _ _ => .inr ⟨hv, hn'⟩⟩, rfl⟩
  rcases hf.stage with ⟨htl, hv⟩ | ⟨l, htl, hl, hv⟩ | ⟨htl, hv, hn⟩ | ⟨htl, hv, hn⟩
  · have hnc : isConstant p b = false := by
      unfold isConstant
      rw [htl]
      simp [Ev.isRamp, hnext]
    rw [computeBuffer_loop hnc, htl]
    simp only [List.length_cons, Nat.mul_succ]
    unfold loop
    rw [event_set_start hdt (e := { kind := .setValue, value := v0, time := 0 }) (by rfl) (.inl rfl)
      (by simp [Ev.at])]
    simp only [Res.bind, Bool.false_eq_true, if_false]
    exact htarget _ _ _ rfl rfl rfl
  · by_cases hk : b.next ≤ T
    · have hcon : isConstant p b = true := by
        unfold isConstant
        rw [htl]
        simp [Ev.isRamp, hk]
      rw [computeBuffer_const hcon]
      exact ⟨_, rfl, ⟨.active l htl hl hv, fun _ hT => absurd hk (not_le.2 hT)⟩, rfl⟩
    · have hnc : isConstant p b = false := by
        unfold isConstant
        rw [htl]
        simpa [Ev.isRamp] using hk
      rw [computeBuffer_loop hnc]
      exact htarget _ _ _ htl hl hv
  · have hnc : isConstant p b = false := by
      unfold isConstant
      rw [htl]
      simpa [Ev.isRamp] using hlt
    rw [computeBuffer_loop hnc, htl]
    simp only [List.length_cons, Nat.mul_succ]
    unfold loop
    rw [event_set_start hdt (e := { kind := .setValueAtTime, value := v1, time := b.time }) (by rfl) (.inr rfl)
      (by simp [Ev.at])]
    simp only [Res.bind, Bool.false_eq_true, if_false]
    exact hhold _ _ rfl rfl hn
  · rw [computeBuffer_const (hconst rest hu htl)]
    have hn' := near_later hm hpos htau hlt.le hn
    exact ⟨_, rfl, ⟨.done htl hv hn', fun _ _ => .inr ⟨hv, hn'⟩⟩, rfl⟩

theorem loop_get {A : Arith K K} (hfl : ∀ v, A.flush v = v) {b : Block K} {m : Nat} {p q : Proc K K}
    {r : Bool × Proc K K} (he : computeEvent A p b = .ok r) {i : Nat} {x : K} (hx : r.2.buffer[i]? = some x)
    (h : loop A b (m + 1) p = .ok q) : q.buffer[i]? = some x := by
  unfold loop at h
  rw [he] at h
  simp only [Res.bind] at h
  split at h
  · cases h; exact hx
  · obtain ⟨t, ht⟩ := loop_prefix hfl h
    rw [← ht, List.getElem?_append_left]
    · exact hx
    · exact (List.getElem?_eq_some_iff.1 hx).1

/-- A frame of a running target event, possibly in the quantum in which the next event ends it. -/
theorem event_target_frame {ex : K → K} {pw : K → K → K} {mn mx : K} {b : Block K} (hdt : 0 < b.dt)
    {p : Proc K K} (ha : p.aRate = true) {v0 v1 T tau : K} {rest : List (Ev K K)} {l : Ev K K}
    (hp : p.timeline = { kind := .target tau, value := v1, time := T } :: rest) (hl : p.last = some l)
    (hv : l.value = v0) {i : Nat} (hb : p.buffer.length ≤ i) (hic : i < b.count) (hT : T ≤ b.frame i)
    (hu : Until (b.frame i + b.dt / 2) rest) :
    ∃ r, computeEvent (exact ex pw mn mx) p b = .ok r ∧
      r.2.buffer[i]? = some (approach ex v0 v1 T tau (b.frame i)) := by
  have hend : i < min (b.index ((targetEnd b ({ kind := .target tau, value := v1, time := T } : Ev K K)
      rest).getD b.next)) b.count := by
    rw [lt_min_iff]
    refine ⟨?_, hic⟩
    have hnx : i < b.index b.next := lt_of_lt_of_le hic (b.count_le_index hdt le_rfl)
    unfold targetEnd
    dsimp only
    unfold targetNext
    cases rest with
    | nil => exact hnx
    | cons n more =>
      obtain ⟨hk, hlt⟩ := hu n more rfl
      dsimp only
      rw [if_neg (by simp [Ev.isRamp, hk])]
      split
      · exact Block.lt_index hdt hlt
      · exact hnx
  have hg := getElem?_extend (f := fun i => if b.frame i - T < 0 then p.intrinsic
    else approach ex v0 v1 T tau (b.frame i)) hb hend
  rw [if_neg (by linarith)] at hg
  have hfl : (exact ex pw mn mx).flush = id := rfl
  unfold computeEvent
  rw [hp]
  dsimp only
  unfold computeTarget
  rw [hp, hl]
  dsimp only
  simp only [tgt_eq, hv, ha, if_true, hfl, List.map_id, ite_self]
  split
  · split <;> exact ⟨_, rfl, hg⟩
  · exact ⟨_, rfl, hg⟩

/-- A frame before the next event, with nothing else going on. -/
theorem event_hold_frame {A : Arith K K} {b : Block K} (hdt : 0 < b.dt) (ht : 0 ≤ b.time)
    {p : Proc K K} (ha : p.aRate = true) {i : Nat} (hb : p.buffer.length ≤ i) (hic : i < b.count)
    (hu : Until (b.frame i + b.dt / 2) p.timeline) :
    ∃ r, computeEvent A p b = .ok r ∧ r.2.buffer[i]? = some p.intrinsic := by
  unfold computeEvent
  cases hp : p.timeline with
  | nil =>
    dsimp only
    rw [if_pos ha]
    exact ⟨_, rfl, getElem?_extend hb hic⟩
  | cons n more =>
    obtain ⟨hk, hlt⟩ := hu n more hp
    have hf : 0 ≤ b.frame i := by unfold Block.frame; positivity
    dsimp only
    rw [hk]
    dsimp only
    unfold computeSetValue
    rw [hp]
    dsimp only
    have hat : n.at b = n.time := by
      unfold Ev.at
      rw [if_neg (by linarith)]
    rw [hat, if_pos ha]
    have hg := getElem?_extend (f := fun _ => p.intrinsic) hb
      (lt_min (Block.lt_index hdt hlt) hic)
    split
    · exact ⟨_, rfl, hg⟩
    · exact ⟨_, rfl, hg⟩

theorem valueAt_of_get {p : Proc K K} {i : Nat} {x : K} (h : p.buffer[i]? = some x) :
    p.valueAt i = some x := by
  unfold Proc.valueAt
  split
  · rename_i h1
    have : i < p.buffer.length := (List.getElem?_eq_some_iff.1 h).1
    have : i = 0 := by omega
    subst this
    exact h
  · exact h

/-- Frames of a quantum, at the latest the one in which the next event takes place. -/
theorem Following.frame {ex : K → K} (hm : Monotone ex) (hpos : ∀ x, 0 < ex x) {pw : K → K → K}
    {mn mx : K} {b : Block K} (hdt : 0 < b.dt) (hc : 0 < b.count) (ht : 0 ≤ b.time) {v0 v1 T tau : K}
    (htau : 0 < tau) {rest : List (Ev K K)} {p q : Proc K K} (hf : Following ex v0 v1 T tau b.time rest p)
    (h : computeBuffer (exact ex pw mn mx) p b = .ok q) {i : Nat} (hic : i < b.count)
    (hT : T ≤ b.frame i) (hu : Until (b.frame i + b.dt / 2) rest)
    (hr : p.aRate = true ∨ i = 0 ∧ T < b.time) :
    ∃ x, q.valueAt i = some x ∧ Hits v1 (approach ex v0 v1 T tau (b.frame i)) x := by
  have hlt := b.time_lt_next hdt hc
  have hnext : 0 < b.next := lt_of_le_of_lt ht hlt
  have hfl : ∀ v, (exact ex pw mn mx).flush v = v := fun _ => rfl
  have htf : b.time ≤ b.frame i := by
    unfold Block.frame
    have : (0 : K) ≤ i * b.dt := by positivity
    linarith
  have hfn : b.frame i < b.next := by
    unfold Block.frame Block.next
    have : (i : K) < b.count := by exact_mod_cast hic
    nlinarith
  by_cases hk : isConstant p b = true
  · rw [computeBuffer_const hk] at h
    cases h
    refine ⟨p.intrinsic, by simp [Proc.valueAt], ?_⟩
    rcases hf.stage with ⟨htl, hv⟩ | ⟨l, htl, hl, hv⟩ | ⟨htl, hv, hn⟩ | ⟨htl, hv, hn⟩
    · unfold isConstant at hk
      rw [htl] at hk
      simp [Ev.isRamp] at hk
      exact absurd hk (not_le.2 hnext)
    · unfold isConstant at hk
      rw [htl] at hk
      simp [Ev.isRamp] at hk
      exact absurd (hk.trans hT) (not_le.2 hfn)
    · exact .inr ⟨hv, near_later hm hpos htau htf hn⟩
    · exact .inr ⟨hv, near_later hm hpos htau htf hn⟩
  · rw [computeBuffer_loop (by simpa using hk)] at h
    by_cases ha : p.aRate = true
    · rw [if_pos ha] at h
      rcases hf.stage with ⟨htl, hv⟩ | ⟨l, htl, hl, hv⟩ | ⟨htl, hv, hn⟩ | ⟨htl, hv, hn⟩
      · rw [htl] at h
        simp only [List.length_cons, Nat.mul_succ] at h
        unfold loop at h
        rw [event_set_start hdt (e := { kind := .setValue, value := v0, time := 0 }) (by rfl) (.inl rfl)
          (by simp [Ev.at])] at h
        simp only [Res.bind, Bool.false_eq_true, if_false] at h
        obtain ⟨r, hr', hx⟩ := event_target_frame (ex := ex) (pw := pw) (mn := mn) (mx := mx) hdt
          (p := { p with intrinsic := v0, current := (exact ex pw mn mx).clamp p.intrinsic, buffer := [], timeline := { kind := .target tau, value := v1, time := T } :: rest, last := some { kind := .setValue, value := v0, time := b.time } })
          ha rfl rfl rfl (Nat.zero_le _) hic hT hu
        exact ⟨_, valueAt_of_get (loop_get hfl hr' hx h), .inl rfl⟩
      · obtain ⟨r, hr', hx⟩ := event_target_frame (ex := ex) (pw := pw) (mn := mn) (mx := mx) hdt
          (p := { p with current := (exact ex pw mn mx).clamp p.intrinsic, buffer := [] })
          ha htl hl hv (Nat.zero_le _) hic hT hu
        exact ⟨_, valueAt_of_get (loop_get hfl hr' hx h), .inl rfl⟩
      · rw [htl] at h
        simp only [List.length_cons, Nat.mul_succ] at h
        unfold loop at h
        rw [event_set_start hdt (e := { kind := .setValueAtTime, value := v1, time := b.time }) (by rfl)
          (.inr rfl) (by simp [Ev.at])] at h
        simp only [Res.bind, Bool.false_eq_true, if_false] at h
        obtain ⟨r, hr', hx⟩ := event_hold_frame (A := exact ex pw mn mx) hdt ht
          (p := { p with intrinsic := v1, current := (exact ex pw mn mx).clamp p.intrinsic, buffer := [], timeline := rest, last := some { kind := .setValueAtTime, value := v1, time := b.time } })
          ha (Nat.zero_le _) hic hu
        exact ⟨_, valueAt_of_get (loop_get hfl hr' hx h), .inr ⟨rfl, near_later hm hpos htau htf hn⟩⟩
      · obtain ⟨r, hr', hx⟩ := event_hold_frame (A := exact ex pw mn mx) hdt ht
          (p := { p with current := (exact ex pw mn mx).clamp p.intrinsic, buffer := [] })
          ha (Nat.zero_le _) hic (by rw [show _ = rest from htl]; exact hu)
        exact ⟨_, valueAt_of_get (loop_get hfl hr' hx h), .inr ⟨hv, near_later hm hpos htau htf hn⟩⟩
    · rw [if_neg ha] at h
      rcases hr with hr | ⟨hi, hr⟩
      · exact absurd hr ha
      · subst hi
        obtain ⟨t, ht'⟩ := loop_prefix hfl h
        have hx : q.buffer[0]? = some p.intrinsic := by rw [← ht']; rfl
        have h0 : b.frame 0 = b.time := by simp [Block.frame]
        rw [h0]
        exact ⟨_, valueAt_of_get hx, hf.value (by simpa using ha) hr⟩

/-- Any number of quanta. -/
theorem Following.blocks {ex : K → K} (hm : Monotone ex) (hpos : ∀ x, 0 < ex x) {pw : K → K → K}
    {mn mx dt : K} (hdt : 0 < dt) {count : Nat} (hc : 0 < count) {v0 v1 T tau : K} (htau : 0 < tau)
    {rest : List (Ev K K)} {s : Sys K K} (hf : Following ex v0 v1 T tau (s.frame * dt) rest s.p) {k : Nat}
    (hu : Until ((s.frame + k * count : Nat) * dt) rest) :
    ∃ s', run (exact ex pw mn mx) dt count s (List.replicate k .block) = .ok s' ∧
      s'.frame = s.frame + k * count ∧ s'.p.aRate = s.p.aRate ∧
      Following ex v0 v1 T tau (s'.frame * dt) rest s'.p := by
  induction k generalizing s with
  | zero => exact ⟨s, rfl, by simp, rfl, hf⟩
  | succ k ih =>
    have hnx : (⟨s.frame * dt, dt, count⟩ : Block K).next = ((s.frame + count : Nat) : K) * dt := by
      simp only [Block.next]; push_cast; ring
    obtain ⟨q, hq, hf', ha⟩ := Following.block hm hpos (pw := pw) (mn := mn) (mx := mx)
      (b := ⟨s.frame * dt, dt, count⟩) hdt hc (by positivity) htau hf (hu.mono (by
        rw [hnx]
        apply mul_le_mul_of_nonneg_right _ hdt.le
        exact_mod_cast (by rw [Nat.add_mul]; omega)))
    rw [hnx] at hf'
    obtain ⟨s', h1, h2, h3, h4⟩ := ih (s := ⟨q, s.frame + count⟩) hf' (by
      dsimp only
      rw [show s.frame + count + k * count = s.frame + (k + 1) * count by ring]
      exact hu)
    refine ⟨s', ?_, by rw [h2]; dsimp only; ring, h3.trans ha, h4⟩
    rw [List.replicate_succ]
    simp only [run, step, hq, Res.bind]
    exact h1

/-- The messages of a call of `set_target_at_time` on a parameter with no other automation, and of
later calls of `set_value_at_time`, `sets`. -/
theorem run_target {A : Arith K K} {dt : K} {count : Nat} {s : Sys K K} (hi : s.p.timeline = [])
    {v1 T tau : K} (hT : 0 ≤ T) {sets : List (Ev K K)}
    (hs : (({ kind := .target tau, value := v1, time := T } : Ev K K) :: sets).Pairwise
      fun a b => a.time ≤ b.time)
    (hk : ∀ e ∈ sets, e.kind = .setValueAtTime) :
    run A dt count s (.event { kind := .target tau, value := v1, time := T } :: sets.map .event) =
      .ok { s with p := { s.p with timeline := { kind := .setValue, value := s.p.intrinsic, time := 0 } ::
        { kind := .target tau, value := v1, time := T } :: sets } } := by
  have hh : handle s.p { kind := .target tau, value := v1, time := T } =
      .ok { s.p with timeline := [{ kind := .setValue, value := s.p.intrinsic, time := 0 },
              { kind := .target tau, value := v1, time := T }] } := by
    unfold handle
    simp only [insert, overlaps, implicit, setIntrinsic, hi, List.any_nil, Bool.false_eq_true, if_false,
      if_true, List.nil_append]
    rw [sort_append_singleton (by simp [Sorted])]
    simp [hT, not_lt.2 hT]
  unfold run
  simp only [step, hh, Res.bind]
  have key : ∀ (todo seen : List (Ev K K)) (p : Proc K K),
      p.timeline = { kind := .setValue, value := s.p.intrinsic, time := 0 } ::
        { kind := .target tau, value := v1, time := T } :: seen → seen ++ todo = sets →
      run A dt count { s with p := p } (todo.map .event) = .ok { s with p := { p with timeline :=
        { kind := .setValue, value := s.p.intrinsic, time := 0 } ::
        { kind := .target tau, value := v1, time := T } :: sets } } := by
    intro todo
    induction todo with
    | nil =>
      intro seen p hp hst
      rw [List.append_nil] at hst
      subst hst
      simp only [List.map_nil, run, ← hp]
    | cons e todo ih =>
      intro seen p hp hst
      have hek : e.kind = .setValueAtTime := hk e (by rw [← hst]; simp)
      have hsorted : ∀ x ∈ p.timeline, x.time ≤ e.time := by
        intro x hx
        rw [hp] at hx
        have hTe : T ≤ e.time := (List.pairwise_cons.1 hs).1 e (by rw [← hst]; simp)
        rcases List.mem_cons.1 hx with rfl | hx
        · exact hT.trans hTe
        · rcases List.mem_cons.1 hx with rfl | hx
          · exact hTe
          · have h2 := (List.pairwise_cons.1 hs).2
            rw [← hst] at h2
            exact (List.pairwise_append.1 h2).2.2 x hx e (by simp)
      have hsrt : Sorted (p.timeline ++ [e]) := by
        unfold Sorted
        rw [List.pairwise_append]
        refine ⟨?_, by simp, fun a ha b hb => ?_⟩
        · rw [hp]
          rw [List.pairwise_cons]
          refine ⟨fun a ha => ?_, ?_⟩
          · rcases List.mem_cons.1 ha with rfl | ha
            · exact hT
            · exact hT.trans ((List.pairwise_cons.1 hs).1 a (by rw [← hst]; simp [ha]))
          · refine hs.sublist ?_
            rw [← hst]
            exact List.Sublist.cons_cons _ (List.sublist_append_left _ _)
        · simp at hb
          subst hb
          exact hsorted a ha
      have hov : overlaps p.timeline e = false := by
        unfold overlaps
        rw [hek]
        simp only [List.any_eq_false]
        intro x hx
        rw [hp] at hx
        rcases List.mem_cons.1 hx with rfl | hx
        · simp
        · rcases List.mem_cons.1 hx with rfl | hx
          · simp
          · have := hk x (by rw [← hst]; simp [hx])
            rw [this]
            simp
      have hne : p.timeline ≠ [] := by rw [hp]; simp
      have hh : handle p e = .ok { p with timeline := p.timeline ++ [e] } := by
        unfold handle
        rw [hek]
        dsimp only
        unfold insert
        rw [if_neg (by rw [hov]; simp)]
        simp only [implicit, hne, if_false, List.append_nil, setIntrinsic, hek]
        rw [sort_eq hsrt]
      simp only [List.map_cons, run, step, hh, Res.bind]
      have := ih (seen ++ [e]) { p with timeline := p.timeline ++ [e] } (by
        dsimp only
        rw [hp]
        simp) (by rw [← hst]; simp)
      exact this
  exact key sets [] _ rfl rfl

theorem target_frames {ex : K → K} (hm : Monotone ex) (hpos : ∀ x, 0 < ex x) {pw : K → K → K}
    {mn mx dt : K} (hdt : 0 < dt) {count : Nat} (hc : 0 < count) {s : Sys K K} (hi : s.p.timeline = [])
    {v1 T tau : K} (htau : 0 < tau) (hT : 0 ≤ T) {sets : List (Ev K K)}
    (hs : (({ kind := .target tau, value := v1, time := T } : Ev K K) :: sets).Pairwise
      fun a b => a.time ≤ b.time)
    (hk : ∀ e ∈ sets, e.kind = .setValueAtTime)
    (hnow : s.p.aRate = true ∨ s.frame * dt ≤ T) {k j : Nat} (hj : j < count) {t : K} (ht : t = ((s.frame + k * count + j : Nat) : K) * dt)
    (hstart : T ≤ t) (hstop : ∀ e ∈ sets, t + dt / 2 < e.time)
    (hr : s.p.aRate = true ∨ j = 0 ∧ T < t)
    {s' : Sys K K}
    (h : run (exact ex pw mn mx) dt count s
      ((.event { kind := .target tau, value := v1, time := T } :: sets.map .event) ++
        List.replicate (k + 1) .block) = .ok s') :
    ∃ x, s'.p.valueAt j = some x ∧ Hits v1 (approach ex s.p.intrinsic v1 T tau t) x := by
  rw [run_append, run_target hi hT hs hk] at h
  simp only [Res.bind] at h
  have hf : Following ex s.p.intrinsic v1 T tau (s.frame * dt) sets
      { s.p with timeline := { kind := .setValue, value := s.p.intrinsic, time := 0 } ::
        { kind := .target tau, value := v1, time := T } :: sets } :=
    ⟨.pre rfl rfl, fun ha hlt => by
      rcases hnow with h' | h'
      · rw [show s.p.aRate = false from ha] at h'; cases h'
      · exact absurd h' (not_le.2 hlt)⟩
  have hu : Until (t + dt / 2) sets := fun n more hn => by
    have hmem : n ∈ sets := by rw [hn]; simp
    exact ⟨hk n hmem, hstop n hmem⟩
  obtain ⟨s1, h1, h2, h3, h4⟩ := Following.blocks hm hpos (pw := pw) (mn := mn) (mx := mx) hdt hc htau
    (s := { s with p := { s.p with timeline := { kind := .setValue, value := s.p.intrinsic, time := 0 } ::
      { kind := .target tau, value := v1, time := T } :: sets } }) (k := k) hf (hu.mono (by
        rw [ht]
        push_cast
        have : (0 : K) ≤ j * dt := by positivity
        nlinarith))
  rw [List.replicate_succ', run_append, h1] at h
  simp only [Res.bind, run, step] at h
  have hfr : (⟨s1.frame * dt, dt, count⟩ : Block K).frame j = t := by
    rw [ht, h2]
    simp only [Block.frame]
    push_cast
    ring
  cases hb : computeBuffer (exact ex pw mn mx) s1.p ⟨s1.frame * dt, dt, count⟩ with
  | panic => rw [hb] at h; cases h
  | fuel => rw [hb] at h; cases h
  | ok q =>
    rw [hb] at h
    cases h
    rw [← hfr]
    refine Following.frame hm hpos hdt hc (by positivity) htau h4 hb hj (by rw [hfr]; exact hstart)
      (by rw [hfr]; exact hu) ?_
    rcases hr with hr | ⟨hj0, hr⟩
    · exact .inl (h3.trans hr)
    · refine .inr ⟨hj0, ?_⟩
      rw [← hfr] at hr
      subst hj0
      simpa [Block.frame] using hr


/-- C87: after `set_target_at_time` on a parameter without other pending automation (in any state
otherwise), possibly followed by calls of `set_value_at_time` for later times, every frame from the start
time up to the next event is on the exponential approach from the value the parameter had when the event
was handled, up to the documented tolerance; for a-rate parameters every frame, for k-rate parameters the
first frame of each quantum. Missing: start times in the past (`C87_negated_past`: the
formula is right, but it should start at the current time); a ramp that follows (`C29_negated_ramp`). -/
theorem C87_follows_partial {ex : K → K} (hm : Monotone ex) (hpos : ∀ x, 0 < ex x) {pw : K → K → K}
    {mn mx dt : K} (hdt : 0 < dt) {count : Nat} (hc : 0 < count) {s : Sys K K} (hi : s.p.timeline = [])
    {v1 T tau : K} (htau : 0 < tau) (hT : 0 ≤ T) {sets : List (Ev K K)}
    (hs : (({ kind := .target tau, value := v1, time := T } : Ev K K) :: sets).Pairwise
      fun a b => a.time ≤ b.time)
    (hk : ∀ e ∈ sets, e.kind = .setValueAtTime)
    (hnow : s.frame * dt ≤ T) {k j : Nat} (hj : j < count) {t : K} (ht : t = ((s.frame + k * count + j : Nat) : K) * dt)
    (hstart : T ≤ t) (hstop : ∀ e ∈ sets, t + dt / 2 < e.time)
    (hr : s.p.aRate = true ∨ j = 0 ∧ T < t)
    {s' : Sys K K}
    (h : run (exact ex pw mn mx) dt count s
      ((.event { kind := .target tau, value := v1, time := T } :: sets.map .event) ++
        List.replicate (k + 1) .block) = .ok s') :
    ∃ x, s'.p.valueAt j = some x ∧ Hits v1 (approach ex s.p.intrinsic v1 T tau t) x :=
  target_frames hm hpos hdt hc hi htau hT hs hk (.inr hnow) hj ht hstart hstop hr h

/-- C87 is false if the start time is in the past: the first frame rendered after the call is not where the
parameter was (`v0`), it is where an approach that started back then would be now. Not even 0, which stands
for "now" in `set_value_at_time`, is treated differently. -/
theorem C87_negated_past {ex : K → K} (hm : Monotone ex) (hpos : ∀ x, 0 < ex x) {pw : K → K → K}
    {mn mx dt : K} (hdt : 0 < dt) {count : Nat} (hc : 0 < count) {s : Sys K K} (hi : s.p.timeline = [])
    {v1 T tau : K} (htau : 0 < tau) (hT : 0 ≤ T) (hpast : T < s.frame * dt) (ha : s.p.aRate = true)
    (hfar : 1 / 10 ^ 10 ≤ |s.p.intrinsic - v1| * (1 - ex (-(s.frame * dt - T) / tau)))
    {s' : Sys K K}
    (h : run (exact ex pw mn mx) dt count s
      [.event { kind := .target tau, value := v1, time := T }, .block] = .ok s') :
    ∃ x, s'.p.valueAt 0 = some x ∧ x ≠ s.p.intrinsic ∧
      Hits v1 (approach ex s.p.intrinsic v1 T tau (s.frame * dt)) x := by
  obtain ⟨x, h1, h2⟩ := target_frames hm hpos hdt hc hi htau hT (sets := []) (by simp) (by simp) (.inl ha)
    (k := 0) (j := 0) hc (t := s.frame * dt) (by simp) hpast.le (by simp) (.inl ha) h
  refine ⟨x, h1, fun heq => ?_, h2⟩
  have hpos' : 0 < 1 - ex (-(s.frame * dt - T) / tau) := by
    by_contra hcon
    have : |s.p.intrinsic - v1| * (1 - ex (-(s.frame * dt - T) / tau)) ≤ 0 :=
      mul_nonpos_of_nonneg_of_nonpos (abs_nonneg _) (not_lt.1 hcon)
    have h10 : (0 : K) < 1 / 10 ^ 10 := by positivity
    linarith
  have hne : s.p.intrinsic - v1 ≠ 0 := by
    intro h0
    rw [h0, abs_zero, zero_mul] at hfar
    have h10 : (0 : K) < 1 / 10 ^ 10 := by positivity
    linarith
  subst heq
  rcases h2 with h2 | ⟨h2, -⟩
  · unfold approach at h2
    have : (s.p.intrinsic - v1) * (1 - ex (-(s.frame * dt - T) / tau)) = 0 := by linear_combination h2
    rcases mul_eq_zero.1 this with h0 | h0
    · exact hne h0
    · linarith
  · exact hne (by rw [h2]; ring)

end

end Verif.Param
