import Verif.Param.NewProps
import Verif.Param.ValueProps
import Verif.Param.Later

/-!
# C115: a k-rate parameter has the value of its automation at the beginning of each quantum

`compute_buffer`, `/repo/src/param.rs` l.1506-1600: for a k-rate parameter the value of a quantum is the intrinsic value that the
quantum before left (l.1543-1544).
-/

namespace Verif.Param

/-! ## Specification -/

/-- The value at time `t` of set value events and ramps in time order, after the value `v0` at time `t0`. -/
def ideal {K : Type} [Field K] [LinearOrder K] (pw : K → K → K) (t : K) : K → K → List (Ev K K) → K
  | _, v0, [] => v0
  | t0, v0, e :: es =>
    if e.time ≤ t then ideal pw t e.time e.value es
    else match e.kind with
      | .linear => v0 + (e.value - v0) * ((t - t0) / (e.time - t0))
      | .exponential => v0 * pw (e.value / v0) ((t - t0) / (e.time - t0))
      | _ => v0

/-- a time at which a quantum begins -/
def OnGrid {K : Type} [Field K] (dt : K) (count : Nat) (t : K) : Prop := ∃ n : Nat, t = (n * count : Nat) * dt

/-- What is excluded: a value that is set exactly at the beginning of a quantum, and another event at the time of an event at the
beginning of a quantum. -/
structure OffGrid {K V : Type} [Field K] (dt : K) (count : Nat) (es : List (Ev K V)) : Prop where
  ramps : ∀ e ∈ es, OnGrid dt count e.time → e.isRamp = true
  single : es.Pairwise fun a b => a.time = b.time → ¬ OnGrid dt count a.time

/-! ## The automation does not depend on the rate -/

section
variable {K V : Type} [Field K] [LinearOrder K] [IsStrictOrderedRing K] [FloorSemiring K]

/-- the processor as a k-rate one, with any results of the last quantum -/
abbrev Proc.slow (p : Proc K V) (bf : List V) (c : V) : Proc K V := { p with aRate := false, buffer := bf, current := c }

omit [IsStrictOrderedRing K] [FloorSemiring K] in
theorem handle_slow (p : Proc K V) (bf : List V) (c : V) (e : Ev K V) :
    handle (p.slow bf c) e = (handle p e).map fun q => q.slow bf c := by
  unfold handle insert
  dsimp only
  have h1 : implicit (p.slow bf c) e = implicit p e := rfl
  have h2 : setIntrinsic (p.slow bf c) e = setIntrinsic p e := rfl
  rw [h1, h2]
  split
  · cases hp : p.timeline with
    | nil => simp [Res.map]
    | cons x xs =>
      dsimp only
      split
      · cases hl : p.last <;> simp [Res.map]
      · rfl
  · rfl
  · split <;> rfl

theorem computeEvent_slow {A : Arith K V} (hfl : ∀ v, A.flush v = v) {p q : Proc K V} {b : Block K} {r : Bool} (bf : List V) (c : V)
    (h : computeEvent A p b = .ok (r, q)) : computeEvent A (p.slow bf c) b = .ok (r, q.slow bf c) := by
  have hmap : ∀ l : List V, l.map A.flush = l := fun l => by
    conv_rhs => rw [← List.map_id l]
    exact List.map_congr_left fun v _ => hfl v
  have hset : computeSetValue p b = .ok (r, q) → computeSetValue (p.slow bf c) b = .ok (r, q.slow bf c) := by
    unfold computeSetValue
    intro h
    cases hp : p.timeline with
    | nil => rw [hp] at h; cases h
    | cons e rest =>
      rw [hp] at h
      dsimp only at h ⊢
      split at h
      · rename_i hc
        cases h
        simp [hc]
      · rename_i hc
        cases h
        simp [hc]
  have hramp : ∀ f e l rest, computeRamp f p b e l rest = (r, q) → computeRamp f (p.slow bf c) b e l rest = (r, q.slow bf c) := by
    intro f e l rest h
    unfold computeRamp at h ⊢
    dsimp only at h ⊢
    split at h
    · rename_i hc
      cases h
      simp [hc]
    · rename_i hc
      cases he : e.cancelTime with
      | none =>
        rw [he] at h hc
        cases h
        rw [if_neg (by simpa [he] using hc)]
        simp
      | some x =>
        rw [he] at h hc
        cases h
        rw [if_neg (by simpa [he] using hc)]
        simp
  unfold computeEvent at h ⊢
  dsimp only
  cases hp : p.timeline with
  | nil =>
    rw [hp] at h
    cases h
    rfl
  | cons e rest =>
    rw [hp] at h
    dsimp only at h ⊢
    cases hk : e.kind with
    | setValue => rw [hk] at h; exact hset h
    | setValueAtTime => rw [hk] at h; exact hset h
    | linear =>
      rw [hk] at h
      unfold computeLinear at h ⊢
      cases hl : p.last with
      | none => simp [hp, hl] at h
      | some l =>
        simp only [hp, hl, Res.ok.injEq] at h ⊢
        exact hramp _ _ _ _ h
    | exponential =>
      rw [hk] at h
      unfold computeExp at h ⊢
      cases hl : p.last with
      | none => simp [hp, hl] at h
      | some l =>
        simp only [hp, hl] at h ⊢
        split at h
        · rename_i hn
          cases h
          rw [if_pos hn]
        · rename_i hn
          rw [if_neg hn]
          simp only [Res.ok.injEq] at h ⊢
          exact hramp _ _ _ _ h
    | target tau =>
      rw [hk] at h
      unfold computeTarget at h ⊢
      cases hl : p.last with
      | none => simp [hp, hl] at h
      | some l =>
        simp only [hp, hl] at h ⊢
        cases ht : targetEnd b e rest with
        | none =>
          simp only [ht] at h ⊢
          split at h
          · rename_i hn
            cases h
            rw [if_pos hn]
            simp [hmap]
          · rename_i hn
            cases h
            rw [if_neg hn]
            simp
        | some t =>
          simp only [ht] at h ⊢
          cases h
          simp
    | curve d vs =>
      rw [hk] at h
      unfold computeCurve at h ⊢
      simp only [hp] at h ⊢
      split at h
      · cases h
      · rename_i s hs
        simp only [Bool.false_eq_true, if_false, List.append_nil]
        split at h
        · rename_i hn
          rw [if_pos hn]
          cases hg : A.curve e.time d vs b.next with
          | none => rw [hg] at h; cases h
          | some v => rw [hg] at h; cases h; rfl
        · rename_i hn
          rw [if_neg hn]
          cases hg : (if e.cancelTime.isSome = true then A.curve e.time d vs (e.cancelTime.getD (e.time + d)) else vs.getLast?) with
          | none => rw [hg] at h; cases h
          | some v => rw [hg] at h; cases h; rfl
    | cancel => rw [hk] at h; cases h
    | cancelHold => rw [hk] at h; cases h

theorem loop_slow {A : Arith K V} (hfl : ∀ v, A.flush v = v) {b : Block K} (bf : List V) (c : V) : ∀ (n : Nat) {p q : Proc K V},
    loop A b n p = .ok q → loop A b n (p.slow bf c) = .ok (q.slow bf c) := by
  intro n
  induction n with
  | zero => intro p q h; cases h
  | succ n ih =>
    intro p q h
    unfold loop at h ⊢
    cases he : computeEvent A p b with
    | panic => rw [he] at h; cases h
    | fuel => rw [he] at h; cases h
    | ok x =>
      obtain ⟨r, x⟩ := x
      rw [he] at h
      rw [computeEvent_slow hfl bf c he]
      simp only [Res.bind] at h ⊢
      cases r with
      | true => cases h; rfl
      | false => exact ih h

/-- a quantum: the same state, and the value is the intrinsic value before -/
theorem computeBuffer_slow {A : Arith K V} (hfl : ∀ v, A.flush v = v) {b : Block K} {p q : Proc K V} (bf : List V) (c : V)
    (h : computeBuffer A p b = .ok q) : computeBuffer A (p.slow bf c) b = .ok (q.slow [p.intrinsic] (A.clamp p.intrinsic)) := by
  by_cases hk : isConstant p b = true
  · rw [computeBuffer_const' hk] at h
    cases h
    rw [computeBuffer_const' (show isConstant (p.slow bf c) b = true from hk)]
  · have hk' : isConstant p b = false := by simpa using hk
    rw [computeBuffer_loop' hk'] at h
    rw [computeBuffer_loop' (show isConstant (p.slow bf c) b = false from hk')]
    have := loop_slow hfl [p.intrinsic] (A.clamp p.intrinsic) _ h
    simpa using this

/-- without messages that change the rate -/
def NoRate (ops : List (Op K V)) : Prop := ∀ a, Op.rate a ∉ ops

/-- a history: the same state -/
theorem run_slow {A : Arith K V} (hfl : ∀ v, A.flush v = v) {dt : K} {count : Nat} (ops : List (Op K V)) : ∀ {s s' : Sys K V} (bf : List V) (c : V),
    NoRate ops → run A dt count s ops = .ok s' →
    ∃ bf' c', run A dt count { s with p := s.p.slow bf c } ops = .ok { s' with p := s'.p.slow bf' c' } := by
  induction ops with
  | nil => intro s s' bf c _ h; cases h; exact ⟨bf, c, rfl⟩
  | cons op ops ih =>
    intro s s' bf c hn h
    have hn' : NoRate ops := fun a ha => hn a (by simp [ha])
    unfold run at h ⊢
    cases op with
    | rate a => exact absurd (List.mem_cons_self ..) (hn a)
    | event e =>
      simp only [step] at h ⊢
      rw [handle_slow]
      cases hh : handle s.p e with
      | panic => rw [hh] at h; cases h
      | fuel => rw [hh] at h; cases h
      | ok q =>
        rw [hh] at h
        exact ih bf c hn' h
    | block =>
      simp only [step] at h ⊢
      cases hh : computeBuffer A s.p ⟨s.frame * dt, dt, count⟩ with
      | panic => rw [hh] at h; cases h
      | fuel => rw [hh] at h; cases h
      | ok q =>
        rw [hh] at h
        rw [computeBuffer_slow hfl bf c hh]
        exact ih _ _ hn' h

end

section
variable {K V : Type} [Field K] [LinearOrder K] [IsStrictOrderedRing K] [FloorSemiring K]

/-- C115: whatever is scheduled for a parameter and whatever is rendered, with any events at any times and any arithmetic of values:
if nothing panics with an a-rate parameter, then nothing panics with a k-rate parameter. In the second of two quanta without messages
in between the k-rate parameter has one value for all frames, and (clamped, as the output is) this is the value of the a-rate parameter
at the first frame - unless an event begins, ends or replaces another one in the first half frame of the quantum. -/
theorem C115_sampled_partial {A : Arith K V} (hfl : ∀ v, A.flush v = v) {dt : K} (hdt : 0 < dt) {count : Nat} (hcount : 0 < count) {v c : V}
    {ops : List (Op K V)} (hn : NoRate ops) {s1 s2 : Sys K V}
    (h1 : run A dt count { p := { intrinsic := v, current := c } } (ops ++ [.block]) = .ok s1)
    (h2 : step A dt count s1 .block = .ok s2)
    (hq : Quiet (s1.frame * dt + dt / 2) s1.p.timeline) (hstart : ∀ e ∈ s1.p.timeline, e.time ≠ s1.frame * dt) :
    ∃ t x y, run A dt count { p := { intrinsic := v, current := c, aRate := false } } (ops ++ [.block, .block]) = .ok t ∧
      s2.p.valueAt 0 = some x ∧ (∀ j, t.p.valueAt j = some y) ∧ A.clamp y = A.clamp x := by
  rw [run_append] at h1
  cases h0 : run A dt count { p := { intrinsic := v, current := c } } ops with
  | panic => rw [h0] at h1; cases h1
  | fuel => rw [h0] at h1; cases h1
  | ok s0 =>
    rw [h0] at h1
    have h1' : step A dt count s0 .block = .ok s1 := by
      simp only [Res.bind, run] at h1
      cases hb : step A dt count s0 .block with
      | panic => rw [hb] at h1; cases h1
      | fuel => rw [hb] at h1; cases h1
      | ok x => rw [hb] at h1; exact h1
    obtain ⟨x, hx, hcur⟩ := C89_coherent_partial hfl hdt hcount h1' h2 hq hstart
    obtain ⟨bf, c', hr⟩ := run_slow hfl (dt := dt) (count := count) (ops ++ [.block]) [] c
      (fun a ha => by
        rcases List.mem_append.1 ha with ha | ha
        · exact hn a ha
        · simp at ha) (show run A dt count _ (ops ++ [.block]) = .ok s1 by rw [run_append, h0]; exact h1)
    simp only [step] at h2
    cases hb : computeBuffer A s1.p ⟨s1.frame * dt, dt, count⟩ with
    | panic => rw [hb] at h2; cases h2
    | fuel => rw [hb] at h2; cases h2
    | ok q =>
      rw [hb] at h2
      cases h2
      have hk := computeBuffer_slow hfl bf c' hb
      refine ⟨{ p := q.slow [s1.p.intrinsic] (A.clamp s1.p.intrinsic), frame := s1.frame + count }, x, s1.p.intrinsic, ?_, hx, fun j => ?_, ?_⟩
      · rw [show ops ++ [.block, .block] = (ops ++ [.block]) ++ [Op.block] by simp, run_append]
        show (run A dt count { p := Proc.slow { intrinsic := v, current := c } [] c } _).bind _ = _
        rw [hr]
        simp only [Res.bind, run, step, hk]
      · simp [Proc.valueAt]
      · rw [← hcur]
        by_cases hcn : isConstant s1.p ⟨s1.frame * dt, dt, count⟩ = true
        · rw [computeBuffer_const' hcn] at hb
          cases hb
          rfl
        · rw [computeBuffer_loop' (by simpa using hcn)] at hb
          rw [loop_current hb]

end

/-! ## The values -/

section exact
variable {K : Type} [Field K] [LinearOrder K] [IsStrictOrderedRing K] [FloorRing K] [FloorSemiring K]

omit [IsStrictOrderedRing K] [FloorRing K] [FloorSemiring K] in
/-- the value at the time of an event, if all others are later -/
theorem ideal_start {pw : K → K → K} (hp0 : ∀ x, pw x 0 = 1) {t v : K} {es : List (Ev K K)} (h : ∀ e ∈ es, t < e.time) :
    ideal pw t t v es = v := by
  cases es with
  | nil => rfl
  | cons e es =>
    unfold ideal
    rw [if_neg (not_le.2 (h e (by simp)))]
    split <;> simp [hp0]

/-- The state of a parameter at time `t`, with the events `es` scheduled after the value `w` at time 0. -/
structure Slow (ex : K → K) (pw : K → K → K) (mn mx dt : K) (count : Nat) (w : K) (es : List (Ev K K)) (t : K) (p : Proc K K) : Prop where
  rate : p.aRate = false
  prev : ∃ l0, p.last = some l0 ∧ l0.time < t ∧ Linked (exact ex pw mn mx) (some l0) p.timeline ∧
    ((∃ e r, p.timeline = e :: r ∧ e.isRamp = true) ∨ p.intrinsic = l0.value) ∧
    ∀ s, t ≤ s → ideal pw s 0 w es = ideal pw s l0.time l0.value p.timeline
  simple : Simple p.timeline
  plain : ∀ e ∈ p.timeline, e.cancelTime = none ∧ 0 < e.time
  sorted : Sorted p.timeline
  off : OffGrid dt count p.timeline

omit [LinearOrder K] [IsStrictOrderedRing K] [FloorRing K] [FloorSemiring K] in
theorem OffGrid.tail {dt : K} {count : Nat} {e : Ev K K} {es : List (Ev K K)} (h : OffGrid dt count (e :: es)) : OffGrid dt count es :=
  ⟨fun x hx => h.ramps x (by simp [hx]), (List.pairwise_cons.1 h.single).2⟩

theorem loop_ideal {ex : K → K} {pw : K → K → K} (hp0 : ∀ x, pw x 0 = 1) (hp1 : ∀ x, pw x 1 = x) {mn mx dt : K} {count : Nat} {w : K}
    {es : List (Ev K K)} {b : Block K} (hb : OnGrid dt count b.next) : ∀ (l : List (Ev K K)) (n : Nat) {p : Proc K K}, p.timeline = l →
    l.length < n → Slow ex pw mn mx dt count w es b.next p →
    ∃ q, loop (exact ex pw mn mx) b n p = .ok q ∧ Slow ex pw mn mx dt count w es b.next q ∧ q.buffer = p.buffer ∧
      q.intrinsic = ideal pw b.next 0 w es := by
  intro l
  induction l with
  | nil =>
    intro n p hp hn h
    obtain ⟨n, rfl⟩ := Nat.exists_eq_succ_of_ne_zero (by omega : n ≠ 0)
    obtain ⟨l0, hl0, hlt, hlk, hi, hid⟩ := h.prev
    refine ⟨p, ?_, h, rfl, ?_⟩
    · have hr : ¬ p.aRate = true := by simp [h.rate]
      simp only [loop, computeEvent, hp, if_neg hr, Res.bind, if_true]
      obtain ⟨i, a, tl, la, bu, cu⟩ := p
      dsimp only at hp
      subst hp
      rfl
    · rw [hid _ le_rfl, hp]
      rcases hi with ⟨e, r, hr, _⟩ | hi
      · rw [hp] at hr; cases hr
      · exact hi
  | cons e l ih =>
    intro n p hp hn h
    obtain ⟨n, rfl⟩ := Nat.exists_eq_succ_of_ne_zero (by omega : n ≠ 0)
    obtain ⟨l0, hl0, hlt, hlk, hi, hid⟩ := h.prev
    obtain ⟨hec, hepos⟩ := h.plain e (by simp [hp])
    rw [hp] at hlk
    have hsorted := h.sorted
    rw [hp] at hsorted
    have hoff := h.off
    rw [hp] at hoff
    have hat : e.at b = e.time := by simp [Ev.at, hepos.ne']
    have hsettle : settle (exact ex pw mn mx) (some l0) e = e := settle_plain hec
    -- the event is over
    have pop : e.time < b.next → Slow ex pw mn mx dt count w es b.next { p with intrinsic := e.value, timeline := l, last := some e } := by
      intro hlt'
      refine ⟨h.rate, ⟨e, rfl, hlt', ?_, .inr rfl, fun s hs => ?_⟩, fun x hx => h.simple x (by simp [hp, hx]),
        fun x hx => h.plain x (by simp [hp, hx]), (List.pairwise_cons.1 hsorted).2, hoff.tail⟩
      · have := hlk.2
        rwa [hsettle] at this
      · rw [hid s hs, hp, ideal, if_pos (hlt'.le.trans hs)]
    have ramp : ∀ (f : K → K → K → K → K → K), e.isRamp = true →
        computeEvent (exact ex pw mn mx) p b = .ok (computeRamp f p b e l0 l) →
        (∀ t, l0.time < t → t < e.time → f l0.time (e.time - l0.time) l0.value e.value t = ideal pw t l0.time l0.value (e :: l)) →
        (l0.time < e.time → f l0.time (e.time - l0.time) l0.value e.value e.time = e.value) →
        ∃ q, loop (exact ex pw mn mx) b (n + 1) p = .ok q ∧ Slow ex pw mn mx dt count w es b.next q ∧ q.buffer = p.buffer ∧
          q.intrinsic = ideal pw b.next 0 w es := by
      intro f hr hce hf hf1
      unfold loop
      rw [hce]
      simp only [Res.bind]
      unfold computeRamp
      have hr' : ¬ p.aRate = true := by simp [h.rate]
      simp only [hec, Option.getD_none]
      rw [if_neg hr']
      by_cases hle : b.next ≤ e.time
      · rw [if_pos hle]
        refine ⟨_, rfl, ⟨h.rate, ⟨l0, hl0, hlt, ?_, .inl ⟨e, l, hp, hr⟩, hid⟩, h.simple, h.plain, h.sorted, h.off⟩, rfl, ?_⟩
        · show Linked _ _ p.timeline
          rw [hp]
          exact hlk
        · dsimp only
          rw [hid _ le_rfl, hp]
          rcases hle.lt_or_eq with hl | he
          · exact hf _ hlt hl
          · rw [he, hf1 (he ▸ hlt), ideal, if_pos le_rfl, ideal_start hp0]
            intro x hx
            refine lt_of_le_of_ne ((List.pairwise_cons.1 hsorted).1 x hx) fun hx' => ?_
            exact (List.pairwise_cons.1 hoff.single).1 x hx hx' (he ▸ hb)
      · rw [if_neg hle]
        simp only [Bool.false_eq_true, if_false]
        obtain ⟨q, h1, h2, h3, h4⟩ := ih n rfl (by simp at hn; omega) (pop (not_le.1 hle))
        exact ⟨q, h1, h2, h3, h4⟩
    rcases h.simple e (by simp [hp]) with ⟨hk, _⟩ | hk | hk
    · have hnr : e.isRamp = false := by simp [Ev.isRamp, hk]
      have hne : e.time ≠ b.next := fun he => by
        have := h.off.ramps e (by simp [hp]) (he ▸ hb)
        rw [hnr] at this
        cases this
      unfold loop
      rw [show computeEvent (exact ex pw mn mx) p b = computeSetValue p b by simp only [computeEvent, hp, hk]]
      have hr' : ¬ p.aRate = true := by simp [h.rate]
      simp only [computeSetValue, hp, hat]
      rw [if_neg hr']
      by_cases hlt' : b.next < e.time
      · rw [if_pos hlt']
        simp only [Res.bind, if_true]
        refine ⟨_, rfl, ?_, rfl, ?_⟩
        · obtain ⟨i, a, tl, la, bu, cu⟩ := p
          dsimp only at hp
          subst hp
          exact h
        · dsimp only
          rw [hid _ le_rfl, hp, ideal, if_neg (not_le.2 hlt')]
          simp only [hk]
          rcases hi with ⟨e', r, hr, hr'⟩ | hi
          · rw [hp] at hr
            cases hr
            rw [hnr] at hr'
            cases hr'
          · exact hi
      · rw [if_neg hlt']
        simp only [Res.bind, Bool.false_eq_true, if_false]
        obtain ⟨q, h1, h2, h3, h4⟩ := ih n rfl (by simp at hn; omega) (pop (lt_of_le_of_ne (not_lt.1 hlt') hne))
        exact ⟨q, h1, h2, h3, h4⟩
    · have hr : e.isRamp = true := by simp [Ev.isRamp, hk]
      refine ramp (exact ex pw mn mx).lin hr ?_ ?_ ?_
      · simp only [computeEvent, hp, hk, computeLinear, hl0]
      · intro t h1 h2
        rw [ideal, if_neg (not_le.2 h2)]
        simp only [hk, exact]
        ring
      · intro hlt
        simp only [exact]
        rw [div_self (sub_pos.2 hlt).ne']
        ring
    · have hr : e.isRamp = true := by simp [Ev.isRamp, hk]
      obtain ⟨l0', hl0', hno⟩ := hlk.1 hr
      cases hl0'
      have hno := hno hk
      refine ramp (exact ex pw mn mx).exp hr ?_ ?_ ?_
      · simp only [computeEvent, hp, hk, computeExp, hl0, hno, Bool.false_eq_true, if_false]
      · intro t h1 h2
        rw [ideal, if_neg (not_le.2 h2)]
        simp only [hk, exact]
      · intro hlt
        have h0 : l0.value ≠ 0 := fun h0 => by simp [exact, h0] at hno
        simp only [exact]
        rw [div_self (sub_pos.2 hlt).ne', hp1, mul_div_cancel₀ _ h0]

/-- a quantum -/
theorem block_ideal {ex : K → K} {pw : K → K → K} (hp0 : ∀ x, pw x 0 = 1) (hp1 : ∀ x, pw x 1 = x) {mn mx dt : K} (hdt : 0 < dt)
    {count : Nat} (hcount : 0 < count) {w : K} {es : List (Ev K K)} {k : Nat} {p : Proc K K}
    (h : Slow ex pw mn mx dt count w es ((k * count : Nat) * dt) p) (hi : p.intrinsic = ideal pw ((k * count : Nat) * dt) 0 w es) :
    ∃ q, step (exact ex pw mn mx) dt count { p := p, frame := k * count } .block = .ok { p := q, frame := (k + 1) * count } ∧
      q.buffer = [ideal pw ((k * count : Nat) * dt) 0 w es] ∧
      Slow ex pw mn mx dt count w es (((k + 1) * count : Nat) * dt) q ∧ q.intrinsic = ideal pw (((k + 1) * count : Nat) * dt) 0 w es := by
  have hnext : (⟨(k * count : Nat) * dt, dt, count⟩ : Block K).next = ((k + 1) * count : Nat) * dt := by
    simp only [Block.next]
    push_cast
    ring
  have hlt : ((k * count : Nat) : K) * dt < ((k + 1) * count : Nat) * dt := by
    refine mul_lt_mul_of_pos_right ?_ hdt
    exact_mod_cast Nat.mul_lt_mul_of_pos_right (by omega) hcount
  have hgrid : OnGrid dt count (((k + 1) * count : Nat) * dt) := ⟨k + 1, rfl⟩
  have hadv : ∀ q : Proc K K, Slow ex pw mn mx dt count w es ((k * count : Nat) * dt) q → Slow ex pw mn mx dt count w es (((k + 1) * count : Nat) * dt) q := by
    intro q hq
    obtain ⟨l0, h1, h2, h3, h4, h5⟩ := hq.prev
    exact ⟨hq.rate, ⟨l0, h1, h2.trans hlt, h3, h4, fun s hs => h5 s (hlt.le.trans hs)⟩, hq.simple, hq.plain, hq.sorted, hq.off⟩
  have hp : Slow ex pw mn mx dt count w es ((k * count : Nat) * dt) { p with current := (exact ex pw mn mx).clamp p.intrinsic, buffer := [p.intrinsic] } :=
    ⟨h.rate, h.prev, h.simple, h.plain, h.sorted, h.off⟩
  simp only [step]
  rw [show k * count + count = (k + 1) * count by ring]
  by_cases hk : isConstant p ⟨(k * count : Nat) * dt, dt, count⟩ = true
  · rw [computeBuffer_const' hk]
    refine ⟨_, rfl, by rw [← hi], hadv _ hp, ?_⟩
    obtain ⟨l0, hl0, hlt0, _, hor, hid⟩ := h.prev
    dsimp only
    rw [hid _ hlt.le]
    cases ht : p.timeline with
    | nil =>
      rw [ht] at hor
      rcases hor with ⟨_, _, hx, _⟩ | hx
      · cases hx
      · exact hx
    | cons e l =>
      simp only [isConstant, ht, Bool.and_eq_true, decide_eq_true_eq] at hk
      obtain ⟨hnr, hle⟩ := hk
      rw [hnext] at hle
      have hnr' : e.isRamp = false := by simpa using hnr
      have hne : ((k + 1) * count : Nat) * dt ≠ e.time := fun he => by
        have := h.off.ramps e (by simp [ht]) (he ▸ hgrid)
        rw [hnr'] at this
        cases this
      rw [ideal, if_neg (not_le.2 (lt_of_le_of_ne hle hne))]
      rw [ht] at hor
      rcases hor with ⟨_, _, hx, hx'⟩ | hx
      · cases hx
        rw [hnr'] at hx'
        cases hx'
      · rcases h.simple e (by simp [ht]) with ⟨hk, _⟩ | hk | hk
        · simp only [hk]
          exact hx
        · simp [Ev.isRamp, hk] at hnr'
        · simp [Ev.isRamp, hk] at hnr'
  · have hk' : isConstant p ⟨(k * count : Nat) * dt, dt, count⟩ = false := by simpa using hk
    rw [computeBuffer_loop' hk']
    have hr' : ¬ p.aRate = true := by simp [h.rate]
    rw [if_neg hr']
    obtain ⟨q, h1, h2, h3, h4⟩ := loop_ideal (b := ⟨(k * count : Nat) * dt, dt, count⟩) hp0 hp1 (by rw [hnext]; exact hgrid)
      p.timeline (2 * p.timeline.length + 1) (by rfl) (by omega) (p := { p with current := (exact ex pw mn mx).clamp p.intrinsic, buffer := [p.intrinsic] }) (by rw [hnext]; exact hadv _ hp)
    rw [h1]
    rw [hnext] at h2 h4
    exact ⟨q, rfl, by rw [h3, ← hi], h2, h4⟩

/-- the first quantum of a new parameter -/
theorem block_first {ex : K → K} {pw : K → K → K} (hp0 : ∀ x, pw x 0 = 1) (hp1 : ∀ x, pw x 1 = x) {mn mx dt : K} (hdt : 0 < dt)
    {count : Nat} (hcount : 0 < count) {w c : K} {bf : List K} {es : List (Ev K K)}
    (hes : Schedule (exact ex pw mn mx) (⟨.setValueAtTime, w, 0, none⟩ :: es)) (hpos : ∀ e ∈ es, 0 < e.time) (hoff : OffGrid dt count es) :
    ∃ q, step (exact ex pw mn mx) dt count { p := { intrinsic := w, current := c, buffer := bf, aRate := false, timeline := setEv w :: es } } .block =
        .ok { p := q, frame := count } ∧
      q.buffer = [w] ∧ Slow ex pw mn mx dt count w es ((count : Nat) * dt) q ∧ q.intrinsic = ideal pw ((count : Nat) * dt) 0 w es := by
  have hnext : (⟨((0 : Nat) : K) * dt, dt, count⟩ : Block K).next = (count : Nat) * dt := by
    simp only [Block.next]
    push_cast
    ring
  have hlt : (0 : K) < (count : Nat) * dt := mul_pos (by exact_mod_cast hcount) hdt
  have hk : isConstant ({ intrinsic := w, current := c, buffer := bf, aRate := false, timeline := setEv w :: es } : Proc K K)
      ⟨((0 : Nat) : K) * dt, dt, count⟩ = false := by
    simp only [isConstant, hnext]
    simpa using fun _ => hlt
  simp only [step]
  rw [computeBuffer_loop' hk]
  simp only [Bool.false_eq_true, if_false]
  have hl := (rendering_new (dt := dt) (c := c) hes fun e he => (hpos e he).le).linked
  have hs : Slow ex pw mn mx dt count w es ((count : Nat) * dt)
      { intrinsic := w, current := (exact ex pw mn mx).clamp w, buffer := [w], aRate := false, timeline := es, last := some (setEv w) } :=
    ⟨rfl, ⟨setEv w, rfl, hlt, hl.2, .inr rfl, fun s _ => rfl⟩, fun x hx => hes.simple x (by simp [hx]),
      fun x hx => ⟨hes.plain x (by simp [hx]), hpos x hx⟩, (List.pairwise_cons.1 hes.sorted).2, hoff⟩
  obtain ⟨q, h1, h2, h3, h4⟩ := loop_ideal (dt := dt) (count := count) (b := ⟨((0 : Nat) : K) * dt, dt, count⟩) hp0 hp1 (by rw [hnext]; exact ⟨1, by simp⟩)
    es (2 * (setEv w :: es).length) rfl (by simp only [List.length_cons]; omega) (by rw [hnext]; exact hs)
  rw [hnext] at h2 h4
  refine ⟨q, ?_, h3, h2, h4⟩
  have hat : (setEv w : Ev K K).at (⟨((0 : Nat) : K) * dt, dt, count⟩ : Block K) = 0 := by simp [Ev.at]
  unfold loop
  rw [show ∀ p : Proc K K, p.timeline = setEv w :: es → computeEvent (exact ex pw mn mx) p ⟨((0 : Nat) : K) * dt, dt, count⟩ = computeSetValue p ⟨((0 : Nat) : K) * dt, dt, count⟩
    from fun p hp => by simp only [computeEvent, hp]] <;> try rfl
  simp only [computeSetValue, hat, hnext, if_neg (not_lt.2 hlt.le), Res.bind, Bool.false_eq_true, if_false]
  rw [h1]
  simp

/-- C115: the k-rate parameter of a new node. Its value is set to `w` by the constructor, the events `es` (set value events and ramps)
are scheduled in any order, then quanta are rendered. Nothing panics, and in every quantum the parameter has one value for all frames:
that of the automation at the beginning of the quantum. Excluded are values that are set exactly at the beginning of a quantum (see
`C115_negated_boundary`). -/
theorem C115_exact_partial {ex : K → K} {pw : K → K → K} (hp0 : ∀ x, pw x 0 = 1) (hp1 : ∀ x, pw x 1 = x) {mn mx dt : K} (hdt : 0 < dt)
    {count : Nat} (hcount : 0 < count) {d c w : K} {es : List (Ev K K)}
    (hes : Schedule (exact ex pw mn mx) (⟨.setValueAtTime, w, 0, none⟩ :: sort es)) (hpos : ∀ e ∈ es, 0 < e.time)
    (hoff : OffGrid dt count (sort es)) (k : Nat) :
    ∃ s, run (exact ex pw mn mx) dt count { p := { intrinsic := d, current := c, aRate := false } }
        (.event { kind := .setValue, value := w, time := 0 } :: es.map Op.event ++ List.replicate (k + 1) .block) = .ok s ∧
      s.p.buffer = [ideal pw ((k * count : Nat) * dt) 0 w (sort es)] ∧
      ∀ j, s.p.valueAt j = some (ideal pw ((k * count : Nat) * dt) 0 w (sort es)) := by
  have hfl : ∀ v, (exact ex pw mn mx).flush v = v := fun _ => rfl
  have hnew := run_new (A := exact ex pw mn mx) (dt := dt) (count := count) d c w (es := es)
    (fun x hx => hes.simple x (by simp [mem_sort.2 hx])) fun x hx => (hpos x hx).le
  obtain ⟨bf, c', hr⟩ := run_slow hfl _ [] c (fun a ha => by simp at ha) hnew
  have hpos' : ∀ e ∈ sort es, 0 < e.time := fun e he => hpos e (mem_sort.1 he)
  have key : ∀ k : Nat, ∃ s : Sys K K, run (exact ex pw mn mx) dt count
      { p := { intrinsic := w, current := c', buffer := bf, aRate := false, timeline := setEv w :: sort es } } (List.replicate (k + 1) .block) = .ok s ∧
      s.frame = (k + 1) * count ∧
      s.p.buffer = [ideal pw ((k * count : Nat) * dt) 0 w (sort es)] ∧ Slow ex pw mn mx dt count w (sort es) (((k + 1) * count : Nat) * dt) s.p ∧
      s.p.intrinsic = ideal pw (((k + 1) * count : Nat) * dt) 0 w (sort es) := by
    intro k
    induction k with
    | zero =>
      obtain ⟨q, h1, h2, h3, h4⟩ := block_first hp0 hp1 hdt hcount (bf := bf) (c := c') hes hpos' hoff
      refine ⟨{ p := q, frame := count }, by simp only [List.replicate, run, h1, Res.bind], by simp, ?_, by simpa using h3, by simpa using h4⟩
      rw [h2]
      simp only [Nat.cast_zero, zero_mul]
      rw [ideal_start hp0 hpos']
    | succ k ih =>
      obtain ⟨s, h1, hf, h2, h3, h4⟩ := ih
      obtain ⟨q, g1, g2, g3, g4⟩ := block_ideal hp0 hp1 hdt hcount h3 h4
      refine ⟨{ p := q, frame := (k + 1 + 1) * count }, ?_, rfl, g2, g3, g4⟩
      rw [List.replicate_succ', run_append, h1]
      simp only [Res.bind, run]
      rw [show s = { p := s.p, frame := (k + 1) * count } by rw [← hf], g1]
  obtain ⟨s, h1, _, h2, _⟩ := key k
  refine ⟨s, ?_, h2, fun j => by simp [Proc.valueAt, h2]⟩
  rw [run_append, show run (exact ex pw mn mx) dt count { p := { intrinsic := d, current := c, aRate := false } } (.event (setEv w) :: es.map Op.event) = _
    from hr]
  exact h1

end exact

/-- the value in the quantum of index `k` of a new k-rate parameter, at 128 frames per second -/
def slowValue (w : ℚ) (es : List (Ev ℚ ℚ)) (k : Nat) : Option ℚ :=
  match run (exact (K := ℚ) id (fun x y => if y = 0 then 1 else x) (-100) 100) (1 / 128) 128 { p := { intrinsic := 7, current := 7, aRate := false } }
      (.event { kind := .setValue, value := w, time := 0 } :: es.map Op.event ++ List.replicate (k + 1) .block) with
  | .ok s => s.p.valueAt 0
  | _ => none

/-- The proviso of `C115_exact_partial` is needed: the value 5 is set at time 2, with which the third quantum begins, but it is not
the value of the third quantum but that of the fourth. If another value is set during the second quantum, then the value 5 is that of
the third quantum. -/
theorem C115_negated_boundary :
    ideal (fun x _ => x) 2 0 0 [⟨.setValueAtTime, (5 : ℚ), 2, none⟩] = 5 ∧
      slowValue 0 [⟨.setValueAtTime, 5, 2, none⟩] 2 = some 0 ∧ slowValue 0 [⟨.setValueAtTime, 5, 2, none⟩] 3 = some 5 ∧
      slowValue 0 [⟨.setValueAtTime, 3, 3 / 2, none⟩, ⟨.setValueAtTime, 5, 2, none⟩] 2 = some 5 := by
  decide +kernel

/-- A value and a ramp that ends at the beginning of a quantum, scheduled in the wrong order: the hypotheses of `C115_exact_partial` are
met, and the value changes. -/
example : let es : List (Ev ℚ ℚ) := [⟨.linear, 9, 4, none⟩, ⟨.setValueAtTime, 1, 3 / 2, none⟩]
    Schedule (exact (K := ℚ) id (fun x y => if y = 0 then 1 else x) (-100) 100) (⟨.setValueAtTime, 5, 0, none⟩ :: sort es) ∧
      OffGrid (1 / 128) 128 (sort es) ∧ (List.range 6).map (slowValue 5 es) = [some 5, some 5, some (13 / 5), some (29 / 5), some 9, some 9] := by
  refine ⟨⟨by norm_num [Simple, sort], by norm_num [sort], by norm_num [Sorted, sort], by simp, by
    norm_num [sort]
    exact ⟨nofun, nofun⟩⟩, ⟨?_, ?_⟩, by decide +kernel⟩
  · norm_num [sort, Ev.isRamp]
    rintro ⟨n, hn⟩
    have : (2 * n : ℚ) = 3 := by push_cast at hn; linarith
    have : 2 * n = 3 := by exact_mod_cast this
    omega
  · norm_num [sort]

/-- the state of a new a-rate parameter, with a quantum of 2 frames -/
def quick (ops : List (Op ℚ ℚ)) : Option (Sys ℚ ℚ) :=
  match run (exact (K := ℚ) id (fun x _ => x) (-100) 100) (1 / 2) 2 { p := { intrinsic := 0, current := 0 } } ops with
  | .ok s => some s
  | _ => none

/-- The hypotheses of `C115_sampled_partial` are met by a ramp that is running. -/
example : let ops : List (Op ℚ ℚ) := [.event (setEv 5), .event ⟨.linear, 9, 4, none⟩]
    NoRate ops ∧ (quick (ops ++ [.block])).map (fun s => (s.p.timeline, s.frame, s.p.intrinsic)) = some ([⟨.linear, 9, 4, none⟩], 2, 6) ∧
      (quick (ops ++ [.block, .block])).isSome = true ∧
      Quiet (V := ℚ) ((2 : Nat) * (1 / 2 : ℚ) + (1 / 2 : ℚ) / 2) [⟨.linear, 9, 4, none⟩] := by
  refine ⟨fun a => by simp, by decide +kernel, by decide +kernel, ?_⟩
  norm_num [Quiet]

end Verif.Param
