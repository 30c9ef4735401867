import Verif.Param.Live

/-!
# C31 for an exponential approach

`cancel_and_hold_at_time` while an approach is running, with no event after it.
-/

namespace Verif.Param

section

variable {K : Type} [Field K] [LinearOrder K] [IsStrictOrderedRing K] [FloorRing K] [FloorSemiring K]

/-- The target event after `cancel_and_hold_at_time(c)`, param.rs l.908-913. -/
def heldTarget (v1 T tau c : K) : Ev K K :=
  { kind := .target tau, value := v1, time := T, cancelTime := some c }

/-- The state between two quanta, at time `now`, after the hold at time `c` of an approach from `v0` to `v1`. -/
inductive Holding (ex : K → K) (v0 v1 T tau c now : K) (p : Proc K K) : Prop
  | pre (htl : p.timeline = [{ kind := .setValue, value := v0, time := 0 }, heldTarget v1 T tau c])
      (hc : now ≤ c)
  | active (l : Ev K K) (htl : p.timeline = [heldTarget v1 T tau c]) (hl : p.last = some l) (hv : l.value = v0)
      (hc : now ≤ c)
  | snapped (htl : p.timeline = [{ kind := .setValueAtTime, value := v1, time := now }])
      (hv : p.intrinsic = v1) (hn : Near v1 (approach ex v0 v1 T tau now)) (hc : now ≤ c)
  | over (y : K) (htl : p.timeline = []) (hv : p.intrinsic = y) (hy : Hits v1 (approach ex v0 v1 T tau c) y)
      (hn : c ≤ now ∨ y = v1 ∧ Near v1 (approach ex v0 v1 T tau now))

/-- What the claim says about the value `x` of the frame at time `t`. -/
def HeldAt (ex : K → K) (v0 v1 T tau c dt t x : K) : Prop :=
  (T ≤ t → t + dt / 2 < c → Hits v1 (approach ex v0 v1 T tau t) x) ∧
    (c ≤ t → Hits v1 (approach ex v0 v1 T tau c) x)

theorem valueAt_buffer {p : Proc K K} {i n : Nat} (hn : n ≤ p.buffer.length) (h2 : 2 ≤ n) :
    p.valueAt i = p.buffer[i]? := by
  unfold Proc.valueAt
  rw [if_neg (by omega)]

/-- The target event is processed. -/
theorem holding_active {ex : K → K} (hm : Monotone ex) (hpos : ∀ x, 0 < ex x) {pw : K → K → K} {mn mx : K}
    {b : Block K} (hdt : 0 < b.dt) (hcount : 2 ≤ b.count) {v0 v1 T tau c : K} (htau : 0 < tau)
    {p q : Proc K K} (har : p.aRate = true) (hb : p.buffer = []) (htl : p.timeline = [heldTarget v1 T tau c])
    {l : Ev K K} (hl : p.last = some l) (hv : l.value = v0) {m : Nat}
    (h : loop (exact ex pw mn mx) b (m + 2) p = .ok q) :
    q.aRate = true ∧ Holding ex v0 v1 T tau c b.next q ∧
      ∀ i < b.count, ∃ x, q.valueAt i = some x ∧ HeldAt ex v0 v1 T tau c b.dt (b.frame i) x := by
  have hfl : (exact ex pw mn mx).flush = id := rfl
  unfold loop computeEvent at h
  rw [htl] at h
  dsimp only [heldTarget] at h
  unfold computeTarget at h
  rw [htl, hl] at h
  simp only [heldTarget, tgt_eq, hv, har, if_true, hfl, List.map_id, ite_self, hb] at h
  by_cases hlt : c < b.next
  · have hend : targetEnd b ({ kind := .target tau, value := v1, time := T, cancelTime := some c } : Ev K K) [] =
        some c := by
      unfold targetEnd; simp [hlt]
    rw [hend] at h
    simp only [Option.getD_some, Res.bind, Bool.false_eq_true, if_false] at h
    unfold loop computeEvent at h
    simp only [har, if_true, Res.bind] at h
    cases h
    refine ⟨(by first | exact har | rfl), .over _ rfl rfl (.inl rfl) (.inl hlt.le), fun i hi => ?_⟩
    rw [valueAt_buffer (n := b.count) (by dsimp only; rw [length_extend]; exact le_max_right _ _) hcount]
    dsimp only
    by_cases hic : i < min (b.index c) b.count
    · have hlen : i < (extend ([] : List K) (min (b.index c) b.count) fun i =>
          if b.frame i - T < 0 then p.intrinsic else approach ex v0 v1 T tau (b.frame i)).length := by
        rw [length_extend]; simpa using hic
      refine ⟨if b.frame i - T < 0 then p.intrinsic else approach ex v0 v1 T tau (b.frame i), ?_, ?_⟩
      · rw [show extend (extend ([] : List K) (min (b.index c) b.count) fun i =>
            if b.frame i - T < 0 then p.intrinsic else approach ex v0 v1 T tau (b.frame i)) b.count
            (fun _ => approach ex v0 v1 T tau c) = (extend ([] : List K) (min (b.index c) b.count) fun i =>
            if b.frame i - T < 0 then p.intrinsic else approach ex v0 v1 T tau (b.frame i)) ++ _ from rfl,
          List.getElem?_append_left hlen]
        exact getElem?_extend (by simp) hic
      · refine ⟨fun h1 _ => ?_, fun h1 => ?_⟩
        · rw [if_neg (by linarith)]; exact .inl rfl
        · have := Block.index_le hdt h1
          omega
    · refine ⟨_, getElem?_extend (by rw [length_extend]; simpa using not_lt.1 hic) hi, fun _ h2 => ?_,
        fun _ => .inl rfl⟩
      have := Block.lt_index hdt h2
      omega
  · have hend : targetEnd b ({ kind := .target tau, value := v1, time := T, cancelTime := some c } : Ev K K) [] =
        none := by
      unfold targetEnd targetNext; simp [hlt]
    rw [hend] at h
    have hmin : min (b.index b.next) b.count = b.count := Nat.min_eq_right (b.count_le_index hdt le_rfl)
    simp only [Option.getD_none, hmin] at h
    have hfr : ∀ q : Proc K K, q.buffer = extend ([] : List K) b.count (fun i =>
        if b.frame i - T < 0 then p.intrinsic else approach ex v0 v1 T tau (b.frame i)) →
        ∀ i < b.count, ∃ x, q.valueAt i = some x ∧ HeldAt ex v0 v1 T tau c b.dt (b.frame i) x := by
      intro q hq i hi
      rw [valueAt_buffer (n := b.count) (by rw [hq, length_extend]; exact le_max_right _ _) hcount, hq]
      refine ⟨_, getElem?_extend (by simp) hi, fun h1 _ => ?_, fun h1 => ?_⟩
      · rw [if_neg (by linarith)]; exact .inl rfl
      · exact absurd (lt_of_lt_of_le (Block.frame_lt_next hdt hi) (not_lt.1 hlt)) (not_lt.2 h1)
    split at h
    · rename_i hsn
      simp only [Res.bind, if_true] at h
      cases h
      exact ⟨(by first | exact har | rfl), .snapped rfl rfl (by simpa [exact, Near] using hsn) (not_lt.1 hlt), hfr _ rfl⟩
    · simp only [Res.bind, if_true] at h
      cases h
      exact ⟨(by first | exact har | rfl), .active l (by first | exact htl | rfl) (by first | exact hl | rfl) hv (not_lt.1 hlt), hfr _ rfl⟩

/-- A quantum. -/
theorem Holding.block {ex : K → K} (hm : Monotone ex) (hpos : ∀ x, 0 < ex x) {pw : K → K → K} {mn mx : K}
    {b : Block K} (hdt : 0 < b.dt) (hcount : 2 ≤ b.count) (ht : 0 ≤ b.time) {v0 v1 T tau c : K} (htau : 0 < tau)
    (hTc : T ≤ c) {p q : Proc K K} (har : p.aRate = true) (hh : Holding ex v0 v1 T tau c b.time p)
    (h : computeBuffer (exact ex pw mn mx) p b = .ok q) :
    q.aRate = true ∧ Holding ex v0 v1 T tau c b.next q ∧
      ∀ i < b.count, ∃ x, q.valueAt i = some x ∧ HeldAt ex v0 v1 T tau c b.dt (b.frame i) x := by
  have hlt := b.time_lt_next hdt (by omega)
  by_cases hc : isConstant p b = true
  · rw [computeBuffer_const hc] at h
    cases h
    rcases hh with ⟨htl, hc'⟩ | ⟨l, htl, hl, hv, hc'⟩ | ⟨htl, hv, hn, hc'⟩ | ⟨y, htl, hv, hy, hn⟩
    · unfold isConstant at hc
      rw [htl] at hc
      simp [Ev.isRamp] at hc
      linarith
    · unfold isConstant at hc
      rw [htl] at hc
      have hc2 : b.next ≤ T := of_decide_eq_true (Bool.and_eq_true _ _ ▸ hc : _ ∧ _).2
      refine ⟨har, .active l htl hl hv (hc2.trans hTc), fun i hi => ⟨p.intrinsic, by simp [Proc.valueAt], ?_⟩⟩
      have := Block.frame_lt_next hdt hi
      exact ⟨fun h1 => absurd h1 (by linarith), fun h1 => absurd h1 (by linarith)⟩
    · unfold isConstant at hc
      rw [htl] at hc
      simp [Ev.isRamp] at hc
      linarith
    · refine ⟨har, .over y htl hv hy ?_, fun i hi => ⟨p.intrinsic, by simp [Proc.valueAt], ?_⟩⟩
      · rcases hn with hn | ⟨hn1, hn2⟩
        · exact .inl (hn.trans hlt.le)
        · exact .inr ⟨hn1, near_later hm hpos htau hlt.le hn2⟩
      · have hf := b.time_le_frame hdt i
        rw [hv]
        refine ⟨fun _ h2 => ?_, fun _ => hy⟩
        rcases hn with hn | ⟨hn1, hn2⟩
        · linarith
        · exact .inr ⟨hn1, near_later hm hpos htau hf hn2⟩
  · rw [computeBuffer_loop (by simpa using hc), if_pos har] at h
    rcases hh with ⟨htl, hc'⟩ | ⟨l, htl, hl, hv, hc'⟩ | ⟨htl, hv, hn, hc'⟩ | ⟨y, htl, hv, hy, hn⟩
    · rw [htl] at h
      simp only [List.length_cons, List.length_nil] at h
      unfold loop at h
      rw [event_set_start hdt (e := { kind := .setValue, value := v0, time := 0 }) (by rfl) (.inl rfl)
        (by simp [Ev.at])] at h
      simp only [Res.bind, Bool.false_eq_true, if_false] at h
      exact holding_active hm hpos hdt hcount htau (by exact har) rfl rfl rfl rfl h
    · have hle : 2 * p.timeline.length + 1 = 1 + 2 := by rw [htl]; rfl
      rw [hle] at h
      exact holding_active (p := { p with current := (exact ex pw mn mx).clamp p.intrinsic, buffer := [] })
        hm hpos hdt hcount htau har rfl htl hl hv h
    · rw [htl] at h
      simp only [List.length_cons, List.length_nil] at h
      unfold loop at h
      rw [event_set_start hdt (e := { kind := .setValueAtTime, value := v1, time := b.time }) (by rfl)
        (.inr rfl) (by simp [Ev.at])] at h
      simp only [Res.bind, Bool.false_eq_true, if_false] at h
      unfold loop computeEvent at h
      simp only [har, if_true, Res.bind] at h
      cases h
      refine ⟨(by first | exact har | rfl), .over v1 rfl rfl (.inr ⟨rfl, near_later hm hpos htau hc' hn⟩)
        (.inr ⟨rfl, near_later hm hpos htau hlt.le hn⟩), fun i hi => ⟨v1, ?_, ?_⟩⟩
      · rw [valueAt_buffer (n := b.count) (by dsimp only; rw [length_extend]; exact le_max_right _ _) hcount]
        exact getElem?_extend (by simp) hi
      · exact ⟨fun _ _ => .inr ⟨rfl, near_later hm hpos htau (b.time_le_frame hdt i) hn⟩,
          fun _ => .inr ⟨rfl, near_later hm hpos htau hc' hn⟩⟩
    · unfold isConstant at hc
      rw [htl] at hc
      exact absurd rfl hc

/-- Any number of quanta. -/
theorem Holding.blocks {ex : K → K} (hm : Monotone ex) (hpos : ∀ x, 0 < ex x) {pw : K → K → K} {mn mx dt : K}
    (hdt : 0 < dt) {count : Nat} (hc : 2 ≤ count) {v0 v1 T tau c : K} (htau : 0 < tau) (hTc : T ≤ c)
    {s s' : Sys K K} (har : s.p.aRate = true) (hh : Holding ex v0 v1 T tau c (s.frame * dt) s.p) {k : Nat}
    (h : run (exact ex pw mn mx) dt count s (List.replicate k .block) = .ok s') :
    s'.frame = s.frame + k * count ∧ s'.p.aRate = true ∧ Holding ex v0 v1 T tau c (s'.frame * dt) s'.p := by
  induction k generalizing s with
  | zero => cases h; exact ⟨by simp, har, hh⟩
  | succ k ih =>
    rw [List.replicate_succ, run] at h
    simp only [step] at h
    cases hb : computeBuffer (exact ex pw mn mx) s.p ⟨s.frame * dt, dt, count⟩ with
    | panic => rw [hb] at h; cases h
    | fuel => rw [hb] at h; cases h
    | ok q =>
      rw [hb] at h
      simp only [Res.bind] at h
      have hnx : (⟨s.frame * dt, dt, count⟩ : Block K).next = ((s.frame + count : Nat) : K) * dt := by
        simp only [Block.next]; push_cast; ring
      obtain ⟨h1, h2, -⟩ := Holding.block (b := ⟨s.frame * dt, dt, count⟩) hm hpos hdt hc (by positivity) htau hTc
        har hh hb
      rw [hnx] at h2
      obtain ⟨i1, i2, i3⟩ := ih (s := ⟨q, s.frame + count⟩) h1 h2 h
      exact ⟨by rw [i1]; dsimp only; ring, i2, i3⟩

/-- C31 for an exponential approach with nothing scheduled after it: `cancel_and_hold_at_time(c)`, called `k`
quanta after `set_target_at_time` for a time `c` that is not in the past, leaves the approach as it is up to
half a frame before `c`, and from `c` on the parameter keeps the value of the approach at that time (both up to
the tolerance within which a target counts as reached). Missing: a hold in the past
(`C31_negated_past`), events after the target (`C31_negated_target`). -/
theorem C31_target_partial {ex : K → K} (hm : Monotone ex) (hpos : ∀ x, 0 < ex x) {pw : K → K → K}
    {mn mx dt : K} (hdt : 0 < dt) {count : Nat} (hc : 2 ≤ count) {s s' : Sys K K} (hi : s.p.timeline = [])
    (har : s.p.aRate = true) {v1 T tau c : K} (htau : 0 < tau) (hT : 0 ≤ T) {k m : Nat} (hTc : T ≤ c)
    (hnow : (s.frame + k * count : Nat) * dt ≤ c) {j : Nat} (hj : j < count) {t : K}
    (ht : t = (s.frame + (k + m) * count + j : Nat) * dt)
    (h : run (exact ex pw mn mx) dt count s ((.event { kind := .target tau, value := v1, time := T } ::
      List.replicate k .block) ++ (.event { kind := .cancelHold, value := 0, time := c } ::
        List.replicate (m + 1) .block)) = .ok s') :
    ∃ x, s'.p.valueAt j = some x ∧
      (T ≤ t → t + dt / 2 < c → Hits v1 (approach ex s.p.intrinsic v1 T tau t) x) ∧
      (c ≤ t → Hits v1 (approach ex s.p.intrinsic v1 T tau c) x) := by
  rw [run_append] at h
  cases hr : run (exact ex pw mn mx) dt count s (.event { kind := .target tau, value := v1, time := T } ::
      List.replicate k .block) with
  | panic => rw [hr] at h; cases h
  | fuel => rw [hr] at h; cases h
  | ok s1 =>
    rw [hr] at h
    simp only [Res.bind] at h
    obtain ⟨f1, f2, f3, -⟩ := run_following hm hpos hdt (by omega) hi har htau hT hr
    rw [← f1] at hnow
    rw [run] at h
    simp only [step, handle, Res.bind] at h
    have hh : Holding ex s.p.intrinsic v1 T tau c (s1.frame * dt)
        { s1.p with timeline := cancelHold (sort s1.p.timeline) c } := by
      rcases f3 with ⟨htl, hv⟩ | ⟨l, htl, hl, hv⟩ | ⟨htl, hv, hn⟩ | ⟨htl, hv, hn⟩
      · refine .pre ?_ hnow
        dsimp only
        rw [htl, sort_eq (by simpa [Sorted] using hT)]
        have h0 : 0 ≤ c := hT.trans hTc
        simp [cancelHold, h0, hTc, not_lt.2 h0, not_lt.2 hTc, heldTarget]
      · refine .active l ?_ hl hv hnow
        dsimp only
        rw [htl, sort_eq (by simp [Sorted])]
        simp [cancelHold, hTc, not_lt.2 hTc, heldTarget]
      · refine .snapped ?_ hv hn hnow
        dsimp only
        rw [htl, sort_eq (by simp [Sorted])]
        simp [cancelHold, hnow, not_lt.2 hnow]
      · refine .over v1 ?_ hv (.inr ⟨rfl, near_later hm hpos htau hnow hn⟩) (.inr ⟨rfl, hn⟩)
        dsimp only
        rw [htl]
        simp [cancelHold, sort]
    rw [List.replicate_succ', run_append] at h
    cases hr2 : run (exact ex pw mn mx) dt count
        { s1 with p := { s1.p with timeline := cancelHold (sort s1.p.timeline) c } } (List.replicate m .block) with
    | panic => rw [hr2] at h; cases h
    | fuel => rw [hr2] at h; cases h
    | ok s2 =>
      rw [hr2] at h
      simp only [Res.bind, run, step] at h
      obtain ⟨b1, b2, b3⟩ := Holding.blocks hm hpos hdt hc htau hTc (by exact f2) hh hr2
      cases hb : computeBuffer (exact ex pw mn mx) s2.p ⟨s2.frame * dt, dt, count⟩ with
      | panic => rw [hb] at h; cases h
      | fuel => rw [hb] at h; cases h
      | ok q =>
        rw [hb] at h
        cases h
        obtain ⟨-, -, hv⟩ := Holding.block (b := ⟨s2.frame * dt, dt, count⟩) hm hpos hdt hc (by positivity) htau hTc
          b2 b3 hb
        obtain ⟨x, x1, x2⟩ := hv j hj
        have hfr : (⟨s2.frame * dt, dt, count⟩ : Block K).frame j = t := by
          rw [ht, b1]
          dsimp only
          rw [f1]
          simp only [Block.frame]
          push_cast
          ring
        rw [hfr] at x2
        exact ⟨x, x1, x2⟩

end

/-- Another monotone positive function in the place of `exp`. -/
def exHalf (x : ℚ) : ℚ := if x ≤ -1 then 1 / 2 else 1

/-- Quanta of four frames with this function. -/
def demoHalf (ops : List (Op ℚ ℚ)) : Option (Proc ℚ ℚ) :=
  match run (exact exHalf (fun _ _ => 0) (-1000) 1000) 1 4 { p := { intrinsic := 0, current := 0 } } ops with
  | .ok s => some s.p
  | _ => none

/-- C31 is false for a hold in the past: the approach from 0 to 1 is at 1/2 at time 3; when
`cancel_and_hold_at_time(1)` is called after that, the value jumps back to where it was at time 1, to 0. -/
theorem C31_negated_past :
    (demoHalf [.event { kind := .target 2, value := 1, time := 0 }, .block]).bind (fun p => p.valueAt 3) =
        some (1 / 2) ∧
      (demoHalf [.event { kind := .target 2, value := 1, time := 0 }, .block,
        .event { kind := .cancelHold, value := 0, time := 1 }, .block]).bind (fun p => p.valueAt 0) = some 0 := by
  decide +kernel

/-- A hold of a running approach, at time 5. -/
example : Monotone exHalf ∧ (∀ x, 0 < exHalf x) ∧
    (demoHalf ((.event { kind := .target 2, value := 1, time := 0 } :: List.replicate 1 .block) ++
      (.event { kind := .cancelHold, value := 0, time := 5 } :: List.replicate (0 + 1) .block))).bind
        (fun p => p.valueAt 2) = some (1 / 2) := by
  refine ⟨fun x y h => ?_, fun x => ?_, by decide +kernel⟩
  · unfold exHalf
    split_ifs <;> first | linarith | norm_num
  · unfold exHalf
    split_ifs <;> norm_num

end Verif.Param
