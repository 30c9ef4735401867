import Verif.Param.TargetProps

/-!
# C96: envelopes made of set value events, ramps and exponential approaches

Specification: the events `L` are scheduled in time order. From its time on up to the next event, every event
determines the value: a `set_value_at_time` and a finished ramp hold their value, a `set_target_at_time`
approaches its target from the value at its start (which is where the event before it ended), and if the next
event is a ramp, the value follows it. The specification does not mention quanta, except for the condition
`Moving` of the known defect of targets that are scheduled ahead (`C29_negated_target`).
-/

namespace Verif.Param

section
variable {K : Type} [Field K] [LinearOrder K] [IsStrictOrderedRing K] [FloorRing K] [FloorSemiring K]

/-- A `set_target_at_time` event. -/
def Ev.Targets (e : Ev K K) : Prop := ∃ tau, e.kind = .target tau

/-- `x` is a value at time `t` after the event `e` (and before the next one), if the value at the time of `e`
was `w`. -/
def Holds (ex : K → K) (e : Ev K K) (w t x : K) : Prop :=
  match e.kind with
  | .target tau => Hits e.value (approach ex w e.value e.time tau t) x
  | _ => x = e.value

/-- The time of the first event, if any. -/
def headTime (t : K) : List (Ev K K) → K
  | [] => t
  | n :: _ => n.time

/-- `x` is a value at time `t` after the events of the list, starting with `w`. -/
def Ends (ex : K → K) : K → List (Ev K K) → K → K → Prop
  | w, [], _, x => x = w
  | w, e :: l, t, x => ∃ y, Holds ex e w (headTime t l) y ∧ Ends ex y l t x

/-- The value at time `t` of a ramp from `e` to `n`. -/
def between (pw : K → K → K) (e n : Ev K K) (t : K) : K :=
  match n.kind with
  | .exponential => e.value * pw (n.value / e.value) ((t - e.time) / (n.time - e.time))
  | _ => e.value + (n.value - e.value) * ((t - e.time) / (n.time - e.time))

/-- `x` is a value at time `t` between the event `e` and the first one of `ys`. -/
def Segment (ex : K → K) (pw : K → K → K) (e : Ev K K) (ys : List (Ev K K)) (w t x : K) : Prop :=
  match ys with
  | [] => Holds ex e w t x
  | n :: _ => if n.isRamp = true then x = between pw e n t else Holds ex e w t x

/-- At time `now`, the beginning of a quantum, event `e` is not over: a set value event or ramp ends later,
a target is not reached. -/
def Moving (ex : K → K) (e : Ev K K) (w now : K) : Prop :=
  match e.kind with
  | .target tau => ¬ Near e.value (approach ex w e.value e.time tau now)
  | _ => now < e.time

/-- `x` is a value of the envelope at time `t` in a quantum that begins at time `bt`, for times that are at
least half a frame before the next event. If the next event is a target, only as long as `e` is not over at
the beginning of the quantum. -/
def PlaysAt (ex : K → K) (pw : K → K → K) (v : K) (L : List (Ev K K)) (dt bt t x : K) : Prop :=
  ∀ xs e ys, L = xs ++ e :: ys → e.time ≤ t → (∀ n, ys.head? = some n → t + dt / 2 < n.time) →
    ∃ w, Ends ex v xs e.time w ∧
      ((∀ n, ys.head? = some n → n.Targets → Moving ex e w bt) → Segment ex pw e ys w t x)

/-- The events of an envelope: in time order, of one of the kinds above, time constants are positive, a ramp
does not come directly after a target, an exponential ramp connects values that are not zero and of the
same sign. -/
structure Envelope (L : List (Ev K K)) : Prop where
  kinds : ∀ e ∈ L, e.kind = .setValueAtTime ∨ e.isRamp = true ∨ ∃ tau, 0 < tau ∧ e.kind = .target tau
  plain : ∀ e ∈ L, e.cancelTime = none
  sorted : Sorted L
  chain : L.IsChain fun a b => b.isRamp = true → ¬ a.Targets ∧
    (b.kind = .exponential → a.value ≠ 0 ∧ 0 ≤ a.value * b.value)

/-! ## Lemmas on the specification -/

theorem holds_target {ex : K → K} {e : Ev K K} {tau w t x : K} (hk : e.kind = .target tau) :
    Holds ex e w t x ↔ Hits e.value (approach ex w e.value e.time tau t) x := by
  unfold Holds; rw [hk]

theorem holds_other {ex : K → K} {e : Ev K K} {w t x : K} (hk : ¬ e.Targets) :
    Holds ex e w t x ↔ x = e.value := by
  unfold Holds
  split
  · rename_i tau h; exact absurd ⟨tau, h⟩ hk
  · rfl

theorem moving_target {ex : K → K} {e : Ev K K} {tau w t : K} (hk : e.kind = .target tau) :
    Moving ex e w t ↔ ¬ Near e.value (approach ex w e.value e.time tau t) := by
  unfold Moving; rw [hk]

theorem moving_other {ex : K → K} {e : Ev K K} {w t : K} (hk : ¬ e.Targets) :
    Moving ex e w t ↔ t < e.time := by
  unfold Moving
  split
  · rename_i tau h; exact absurd ⟨tau, h⟩ hk
  · rfl

theorem ends_snoc {ex : K → K} {e : Ev K K} {t x y : K} {xs : List (Ev K K)} {w : K}
    (h : Ends ex w xs e.time y) (hh : Holds ex e y t x) : Ends ex w (xs ++ [e]) t x := by
  induction xs generalizing w with
  | nil =>
    have : y = w := h
    subst this
    exact ⟨x, hh, rfl⟩
  | cons a xs ih =>
    obtain ⟨z, h1, h2⟩ := h
    refine ⟨z, ?_, ih h2⟩
    cases xs with
    | nil => exact h1
    | cons c xs => exact h1

theorem segment_holds {ex : K → K} {pw : K → K → K} {e : Ev K K} {ys : List (Ev K K)} {w t x : K}
    (hr : ∀ n, ys.head? = some n → n.isRamp = false) (h : Holds ex e w t x) : Segment ex pw e ys w t x := by
  unfold Segment
  cases ys with
  | nil => exact h
  | cons n ys =>
    dsimp only
    rw [if_neg (by rw [hr n rfl]; simp)]
    exact h

theorem Ev.Targets.not_ramp {e : Ev K K} (h : e.Targets) : e.isRamp = false := by
  obtain ⟨tau, h⟩ := h
  simp [Ev.isRamp, h]

theorem Block.index_le {b : Block K} (hdt : 0 < b.dt) {i : Nat} {t : K} (h : t ≤ b.frame i) :
    b.index t ≤ i := by
  unfold Block.frame at h
  unfold Block.index
  have h1 : max (t - b.time) 0 / b.dt ≤ i := by
    rw [div_le_iff₀ hdt]
    apply max_le
    · linarith
    · positivity
  rw [← Nat.lt_succ_iff, Nat.floor_lt (by positivity)]
  push_cast
  linarith

theorem Moving.mono {ex : K → K} (hm : Monotone ex) (hpos : ∀ x, 0 < ex x) {e : Ev K K}
    (htau : ∀ tau, e.kind = .target tau → 0 < tau) {w t u : K} (htu : t ≤ u) (h : Moving ex e w u) :
    Moving ex e w t := by
  by_cases hk : e.Targets
  · obtain ⟨tau, hk⟩ := hk
    rw [moving_target hk] at h ⊢
    exact fun hn => h (near_later hm hpos (htau tau hk) htu hn)
  · rw [moving_other hk] at h ⊢
    exact lt_of_le_of_lt htu h

/-! ## The state within a quantum -/

/-- For frames still to be computed before the time of an event that is processed already: the event is a
target, and the intrinsic value is right for such a frame as far as the specification says. -/
def Behind (ex : K → K) (v : K) (b : Block K) (P : List (Ev K K)) (p : Proc K K) : Prop :=
  ∀ a u n c, P = a ++ u :: n :: c → ∀ i, p.buffer.length ≤ i → i < b.count →
    b.frame i + b.dt / 2 < n.time → n.Targets ∧ ∃ w, Ends ex v a u.time w ∧
      (Moving ex u w b.time → Holds ex u w (b.frame i) p.intrinsic)

/-- At time `now`, an event that is processed but begins later is a target, and the event before it is over. -/
def Settled (ex : K → K) (v now : K) (P : List (Ev K K)) : Prop :=
  ∀ a u n c, P = a ++ u :: n :: c → now < n.time → n.Targets ∧ ∃ w, Ends ex v a u.time w ∧ ¬ Moving ex u w now

theorem pair_le {P ys : List (Ev K K)} {e : Ev K K} {xs : List (Ev K K)} (hP : P = xs ++ [e])
    (hs : Sorted (P ++ ys)) {a : List (Ev K K)} {u n : Ev K K} {c : List (Ev K K)}
    (h : P = a ++ u :: n :: c) : n.time ≤ e.time := by
  have hs' : Sorted P := (List.pairwise_append.1 hs).1
  have h2 : Sorted (n :: c) := by
    rw [h] at hs'
    have := (List.pairwise_append.1 hs').2.1
    exact (List.pairwise_cons.1 this).2
  have hlast : (n :: c).getLast? = some e := by
    have : P.getLast? = some e := by rw [hP]; simp
    rw [h] at this
    simpa [List.getLast?_append] using this
  cases c using List.reverseRecOn with
  | nil => simp at hlast; rw [hlast]
  | append_singleton c z _ =>
    have hz : z = e := by
      rw [← List.cons_append, List.getLast?_concat] at hlast
      exact Option.some.inj hlast
    subst hz
    exact (List.pairwise_cons.1 h2).1 z (by simp)

theorem pair_snoc {P a c : List (Ev K K)} {n u m : Ev K K} (h : P ++ [n] = a ++ u :: m :: c) :
    (P = a ++ [u] ∧ m = n) ∨ ∃ c', P = a ++ u :: m :: c' := by
  cases c using List.reverseRecOn with
  | nil =>
    left
    have : P ++ [n] = (a ++ [u]) ++ [m] := by rw [h]; simp
    obtain ⟨h1, h2⟩ := List.append_inj' this rfl
    exact ⟨h1, by simpa using h2.symm⟩
  | append_singleton c z _ =>
    right
    have : P ++ [n] = (a ++ u :: m :: c) ++ [z] := by rw [h]; simp
    exact ⟨c, (List.append_inj' this rfl).1⟩

theorem behind_covered {ex : K → K} {v : K} {b : Block K} {xs ys : List (Ev K K)} {e : Ev K K} {p : Proc K K}
    (hs : Sorted (xs ++ e :: ys))
    (hc : ∀ i, p.buffer.length ≤ i → i < b.count → ¬ b.frame i + b.dt / 2 < e.time) :
    Behind ex v b (xs ++ [e]) p := by
  intro a u n c h i h1 h2 h3
  have := pair_le (ys := ys) rfl (by simpa using hs) h
  exact absurd (lt_of_lt_of_le h3 this) (hc i h1 h2)

theorem settled_past {ex : K → K} {v now : K} {xs ys : List (Ev K K)} {e : Ev K K}
    (hs : Sorted (xs ++ e :: ys)) (hc : e.time ≤ now) : Settled ex v now (xs ++ [e]) := by
  intro a u n c h h1
  have := pair_le (ys := ys) rfl (by simpa using hs) h
  exact absurd h1 (not_lt.2 (this.trans hc))

theorem Settled.mono {ex : K → K} (hm : Monotone ex) (hpos : ∀ x, 0 < ex x) {v t u : K} {P : List (Ev K K)}
    (htau : ∀ e ∈ P, ∀ tau, e.kind = .target tau → 0 < tau) (htu : t ≤ u) (h : Settled ex v t P) :
    Settled ex v u P := by
  intro a x n c hP hlt
  obtain ⟨h1, w, h2, h3⟩ := h a x n c hP (lt_of_le_of_lt htu hlt)
  exact ⟨h1, w, h2, fun hmv => h3 (hmv.mono hm hpos (htau x (by rw [hP]; simp)) htu)⟩

theorem Settled.behind {ex : K → K} {v : K} {b : Block K} (hdt : 0 < b.dt) {P : List (Ev K K)} {p : Proc K K}
    (h : Settled ex v b.time P) : Behind ex v b P p := by
  intro a u n c hP i _ _ h3
  have : b.time ≤ b.frame i := by
    unfold Block.frame
    have : (0 : K) ≤ i * b.dt := by positivity
    linarith
  obtain ⟨h1, w, h2, h4⟩ := h a u n c hP (by linarith)
  exact ⟨h1, w, h2, fun hmv => absurd hmv h4⟩

/-- A frame that is computed while `e` is the current event. -/
theorem playsAt_of {ex : K → K} {pw : K → K → K} {v : K} {b : Block K} (hdt : 0 < b.dt)
    {L xs ys : List (Ev K K)} {e : Ev K K} (hs : Sorted L) (hL : L = xs ++ e :: ys) {w : K}
    (hE : Ends ex v xs e.time w) {p : Proc K K} (hB : Behind ex v b (xs ++ [e]) p) {i : Nat}
    (hi : p.buffer.length ≤ i) (hic : i < b.count) {x : K}
    (hpre : b.frame i + b.dt / 2 < e.time → x = p.intrinsic)
    (hseg : e.time ≤ b.frame i → Segment ex pw e ys w (b.frame i) x)
    (hnext : ∀ n, ys.head? = some n → i < b.index n.time) :
    PlaysAt ex pw v L b.dt b.time (b.frame i) x := by
  intro xs2 e2 ys2 hL2 h1 h2
  have hself : xs2 = xs → e2 = e → ys2 = ys → ∃ w, Ends ex v xs2 e2.time w ∧
      ((∀ n, ys2.head? = some n → n.Targets → Moving ex e2 w b.time) →
        Segment ex pw e2 ys2 w (b.frame i) x) := by
    rintro rfl rfl rfl
    exact ⟨w, hE, fun _ => hseg h1⟩
  have hcmp := hL.symm.trans hL2
  rcases List.append_eq_append_iff.1 hcmp with ⟨a, ha1, ha2⟩ | ⟨a, ha1, ha2⟩
  · cases a with
    | nil =>
      simp only [List.append_nil, List.nil_append, List.cons.injEq] at ha1 ha2
      exact hself ha1 ha2.1.symm ha2.2.symm
    | cons z a =>
      simp only [List.cons_append, List.cons.injEq] at ha2
      obtain ⟨rfl, ha2⟩ := ha2
      -- a later event has begun
      exfalso
      have hsy : Sorted ys := by
        rw [hL] at hs
        exact (List.pairwise_cons.1 (List.pairwise_append.1 hs).2.1).2
      cases ys with
      | nil => simp at ha2
      | cons n ys =>
        have hn := hnext n rfl
        have hle : n.time ≤ e2.time := by
          cases a with
          | nil => simp only [List.nil_append, List.cons.injEq] at ha2; rw [ha2.1]
          | cons m a =>
            simp only [List.cons_append, List.cons.injEq] at ha2
            exact (List.pairwise_cons.1 hsy).1 e2 (by rw [ha2.2]; simp)
        have := Block.index_le hdt (hle.trans h1)
        omega
  · cases a with
    | nil =>
      simp only [List.append_nil, List.nil_append, List.cons.injEq] at ha1 ha2
      exact hself ha1.symm ha2.1 ha2.2
    | cons z a =>
      simp only [List.cons_append, List.cons.injEq] at ha2
      obtain ⟨rfl, ha2⟩ := ha2
      -- an earlier event
      obtain ⟨n, c, hnc⟩ : ∃ n c, a ++ [e] = n :: c := by cases a <;> simp
      have hP : xs ++ [e] = xs2 ++ e2 :: n :: c := by rw [ha1]; simp [hnc]
      have hys2 : ys2 = n :: (c ++ ys) := by
        rw [ha2, show a ++ e :: ys = (a ++ [e]) ++ ys by simp, hnc]; rfl
      have hlt := h2 n (by rw [hys2]; rfl)
      obtain ⟨hn, w2, hw2, hmv⟩ := hB xs2 e2 n c hP i hi hic hlt
      have hne : n.time ≤ e.time := pair_le (ys := ys) rfl (by rw [hL] at hs; simpa using hs) hP
      refine ⟨w2, hw2, fun hcond => ?_⟩
      rw [hpre (lt_of_lt_of_le hlt hne)]
      refine segment_holds (fun m hm => ?_) (hmv (hcond n (by rw [hys2]; rfl) hn))
      rw [hys2] at hm
      simp only [List.head?_cons, Option.some.injEq] at hm
      rw [← hm]
      exact hn.not_ramp

/-- The state in the loop of a quantum: the events `xs` and `e` are processed (`held`), `e` is a target that is
running or will be (`active`), or the set value event `n` has come while a target was running (`due`). -/
inductive Midway (ex : K → K) (v : K) (L : List (Ev K K)) (b : Block K) (p : Proc K K) : Prop
  | held (xs : List (Ev K K)) (e : Ev K K) (ys : List (Ev K K)) (w : K) (hL : L = xs ++ e :: ys)
      (hE : Ends ex v xs e.time w) (htl : p.timeline = ys)
      (hn : ∀ tau, e.kind = .target tau → Near e.value (approach ex w e.value e.time tau b.time))
      (hnt : ∀ n, ys.head? = some n → ¬ n.Targets)
      (hl : (∀ n, ys.head? = some n → n.isRamp = true) → ¬ e.Targets → xs ++ ys ≠ [] →
        ∃ l, p.last = some l ∧ l.time = e.time ∧ l.value = e.value)
      (hi : (∀ n, ys.head? = some n → n.isRamp = false) → p.intrinsic = e.value)
      (hB : Behind ex v b (xs ++ [e]) p) (hS : Settled ex v b.next (xs ++ [e]))
      (ha : ∀ n ∈ ys, b.time ≤ n.time)
  | active (xs : List (Ev K K)) (e : Ev K K) (ys : List (Ev K K)) (w : K) (l : Ev K K) (tau : K)
      (hL : L = xs ++ e :: ys) (hE : Ends ex v xs e.time w) (hk : e.kind = .target tau)
      (htl : p.timeline = e :: ys) (hl : p.last = some l) (hv : l.value = w)
      (hB : Behind ex v b (xs ++ [e]) p) (hS : Settled ex v b.next (xs ++ [e]))
      (ha : ∀ n ∈ ys, b.time ≤ n.time)
  | due (xs : List (Ev K K)) (n : Ev K K) (ys : List (Ev K K)) (w : K) (hL : L = xs ++ n :: ys)
      (hE : Ends ex v xs n.time w) (hk : n.kind = .setValueAtTime) (htl : p.timeline = n :: ys)
      (hlt : n.time < b.next) (hge : b.time ≤ n.time)
      (hc : min (b.index n.time) b.count ≤ p.buffer.length) (ha : ∀ n ∈ ys, b.time ≤ n.time)

/-- The state between two quanta, at time `now`. -/
inductive Waiting (ex : K → K) (v : K) (L : List (Ev K K)) (now : K) (p : Proc K K) : Prop
  | again (xs : List (Ev K K)) (e : Ev K K) (ys : List (Ev K K)) (w : K) (hL : L = xs ++ e :: ys)
      (hE : Ends ex v xs e.time w)
      (htl : p.timeline = { kind := .setValue, value := e.value, time := 0 } :: ys)
      (hn : ∀ tau, e.kind = .target tau → Near e.value (approach ex w e.value e.time tau now))
      (hne : ∃ n, ys.head? = some n ∧ (n.isRamp = true → e.time = now) ∧ (n.isRamp = true ∨ n.Targets))
      (hi : p.intrinsic = e.value) (hS : Settled ex v now (xs ++ [e])) (ha : ∀ n ∈ ys, now ≤ n.time)
  | turn (e0 : Ev K K) (v0 tau : K) (e : Ev K K) (ys : List (Ev K K)) (hL : L = e :: ys)
      (hk0 : e0.kind = .target tau) (hc0 : e0.cancelTime = none)
      (htl : p.timeline = e0 :: ys ∧ (∃ l, p.last = some l ∧ l.value = v0) ∨
        p.timeline = { kind := .setValue, value := v0, time := 0 } :: e0 :: ys)
      (hk : ¬ e.Targets) (het : e.time = now)
      (hev : e.value = approach ex v0 e0.value e0.time tau now) (hlt : e0.time ≤ now) (h00 : 0 ≤ e0.time)
      (hr : ∃ n, ys.head? = some n ∧ n.isRamp = true) (ha : ∀ n ∈ ys, now ≤ n.time)
  | held (xs : List (Ev K K)) (e : Ev K K) (ys : List (Ev K K)) (w : K) (hL : L = xs ++ e :: ys)
      (hE : Ends ex v xs e.time w) (htl : p.timeline = ys)
      (hn : ∀ tau, e.kind = .target tau → Near e.value (approach ex w e.value e.time tau now))
      (hnt : ∀ n, ys.head? = some n → ¬ n.Targets)
      (hl : (∀ n, ys.head? = some n → n.isRamp = true) → ¬ e.Targets → xs ++ ys ≠ [] →
        ∃ l, p.last = some l ∧ l.time = e.time ∧ l.value = e.value)
      (hi : (∀ n, ys.head? = some n → n.isRamp = false) → p.intrinsic = e.value)
      (hS : Settled ex v now (xs ++ [e])) (ha : ∀ n ∈ ys, now ≤ n.time)
  | active (xs : List (Ev K K)) (e : Ev K K) (ys : List (Ev K K)) (w : K) (l : Ev K K) (tau : K)
      (hL : L = xs ++ e :: ys) (hE : Ends ex v xs e.time w) (hk : e.kind = .target tau)
      (htl : p.timeline = e :: ys) (hl : p.last = some l) (hv : l.value = w)
      (hS : Settled ex v now (xs ++ [e])) (ha : ∀ n ∈ ys, now ≤ n.time)
  | snapped (xs : List (Ev K K)) (e : Ev K K) (ys : List (Ev K K)) (w tau : K)
      (hL : L = xs ++ e :: ys) (hE : Ends ex v xs e.time w) (hk : e.kind = .target tau)
      (htl : p.timeline = { kind := .setValueAtTime, value := e.value, time := now } :: ys)
      (hv : p.intrinsic = e.value) (hn : Near e.value (approach ex w e.value e.time tau now))
      (hS : Settled ex v now (xs ++ [e])) (ha : ∀ n ∈ ys, now ≤ n.time)

/-- The frames computed so far. -/
def Played (ex : K → K) (pw : K → K → K) (v : K) (L : List (Ev K K)) (b : Block K) (p : Proc K K) : Prop :=
  ∀ i x, p.buffer[i]? = some x → PlaysAt ex pw v L b.dt b.time (b.frame i) x

theorem played_extend {ex : K → K} {pw : K → K → K} {v : K} {L : List (Ev K K)} {b : Block K} {p q : Proc K K}
    (h : Played ex pw v L b p) {stop : Nat} {f : Nat → K} (hq : q.buffer = extend p.buffer stop f)
    (hf : ∀ i, p.buffer.length ≤ i → i < stop → PlaysAt ex pw v L b.dt b.time (b.frame i) (f i)) :
    Played ex pw v L b q := by
  intro i x hx
  rw [hq] at hx
  by_cases hi : i < p.buffer.length
  · unfold extend at hx
    rw [List.getElem?_append_left hi] at hx
    exact h i x hx
  · have hlt : i < stop := by
      have := (List.getElem?_eq_some_iff.1 hx).1
      rw [length_extend] at this
      omega
    rw [getElem?_extend (not_lt.1 hi) hlt] at hx
    cases hx
    exact hf i (not_lt.1 hi) hlt

/-- What is the same for all blocks and events. -/
structure Setting (ex : K → K) (b : Block K) (L : List (Ev K K)) : Prop where
  mono : Monotone ex
  pos : ∀ x, 0 < ex x
  dt : 0 < b.dt
  count : 0 < b.count
  time : 0 ≤ b.time
  env : Envelope L
  first : ∀ e, L.head? = some e → e.time ≤ b.time

theorem Envelope.tau {L : List (Ev K K)} (h : Envelope L) {e : Ev K K} (he : e ∈ L) {tau : K}
    (hk : e.kind = .target tau) : 0 < tau := by
  rcases h.kinds e he with h1 | h1 | ⟨t, h1, h2⟩
  · rw [h1] at hk; cases hk
  · simp [Ev.isRamp, hk] at h1
  · rw [h2] at hk; cases hk; exact h1

/-- Consecutive events. -/
theorem Envelope.link {L xs ys : List (Ev K K)} {e n : Ev K K} (h : Envelope L) (hL : L = xs ++ e :: n :: ys) :
    n.isRamp = true → ¬ e.Targets ∧ (n.kind = .exponential → e.value ≠ 0 ∧ 0 ≤ e.value * n.value) := by
  have hc := h.chain
  rw [hL] at hc
  have := hc.right_of_append
  rw [List.isChain_cons_cons] at this
  exact this.1

/-- An event that is not a target and processed has begun. -/
theorem Settled.begun {ex : K → K} {v now : K} {L xs ys : List (Ev K K)} {e : Ev K K}
    (h : Settled ex v now (xs ++ [e])) (hL : L = xs ++ e :: ys) (h0 : ∀ e, L.head? = some e → e.time ≤ now)
    (hk : ¬ e.Targets) : e.time ≤ now := by
  cases xs using List.reverseRecOn with
  | nil => exact h0 e (by rw [hL]; rfl)
  | append_singleton a u _ =>
    by_contra hlt
    exact hk (h a u e [] (by simp) (not_le.1 hlt)).1

/-- Event `e` is over and has left the value it holds. -/
theorem midway_finish {ex : K → K} {v : K} {L xs ys : List (Ev K K)} {b : Block K} (hset : Setting ex b L)
    {p : Proc K K} {e : Ev K K} {w : K} (hL : L = xs ++ e :: ys) (hE : Ends ex v xs e.time w)
    (htl : p.timeline = ys)
    (hn : ∀ tau, e.kind = .target tau → Near e.value (approach ex w e.value e.time tau b.time))
    {l : Ev K K} (hl : p.last = some l) (hlt : ¬ e.Targets → (∀ n, ys.head? = some n → ¬ n.Targets) → l.time = e.time) (hlv : l.value = e.value)
    (hi : p.intrinsic = e.value)
    (hB : Behind ex v b (xs ++ [e]) p) (hS : Settled ex v b.next (xs ++ [e]))
    (ha : ∀ n ∈ ys, b.time ≤ n.time) : Midway ex v L b p := by
  by_cases hh : ∃ n ys', ys = n :: ys' ∧ n.Targets
  · obtain ⟨n, ys', rfl, tau, hk⟩ := hh
    have hold : ∀ t, b.time ≤ t → Holds ex e w t e.value := by
      intro t ht
      by_cases hke : e.Targets
      · obtain ⟨tau', hke⟩ := hke
        rw [holds_target hke]
        exact .inr ⟨rfl, near_later hset.mono hset.pos
          (hset.env.tau (by rw [hL]; simp) hke) ht (hn tau' hke)⟩
      · rw [holds_other hke]
    refine .active (xs ++ [e]) n ys' e.value l tau (by rw [hL]; simp)
      (ends_snoc hE (hold _ (ha n (by simp)))) hk htl hl hlv ?_ ?_ (fun m hm => ha m (by simp [hm]))
    · intro a u m c hP i h1 h2 h3
      rcases pair_snoc hP with ⟨h4, h5⟩ | ⟨c', h4⟩
      · obtain ⟨h6, h7⟩ := List.append_inj' h4 rfl
        simp only [List.cons.injEq, and_true] at h7
        subst h5 h6 h7
        refine ⟨⟨tau, hk⟩, w, hE, fun _ => ?_⟩
        rw [hi]
        apply hold
        unfold Block.frame
        have : (0 : K) ≤ i * b.dt := mul_nonneg (by positivity) hset.dt.le
        linarith
      · exact hB a u m c' h4 i h1 h2 h3
    · intro a u m c hP h1
      rcases pair_snoc hP with ⟨h4, h5⟩ | ⟨c', h4⟩
      · obtain ⟨h6, h7⟩ := List.append_inj' h4 rfl
        simp only [List.cons.injEq, and_true] at h7
        subst h5 h6 h7
        refine ⟨⟨tau, hk⟩, w, hE, ?_⟩
        by_cases hke : e.Targets
        · obtain ⟨tau', hke⟩ := hke
          rw [moving_target hke, not_not]
          exact near_later hset.mono hset.pos (hset.env.tau (by rw [hL]; simp) hke)
            (Block.time_le_next hset.dt) (hn tau' hke)
        · rw [moving_other hke, not_lt]
          exact hS.begun hL (fun x hx => (hset.first x hx).trans (Block.time_le_next hset.dt)) hke
      · exact hS a u m c' h4 h1
  · refine .held xs e ys w hL hE htl hn ?_ ?_ (fun _ => hi) hB hS ha
    · intro n hn' hk
      cases ys with
      | nil => simp at hn'
      | cons m ys =>
        simp only [List.head?_cons, Option.some.injEq] at hn'
        subst hn'
        exact hh ⟨_, _, rfl, hk⟩
    · intro _ hk _
      refine ⟨l, hl, hlt hk ?_, hlv⟩
      intro n hn' hkn
      cases ys with
      | nil => simp at hn'
      | cons m ys =>
        simp only [List.head?_cons, Option.some.injEq] at hn'
        subst hn'
        exact hh ⟨_, _, rfl, hkn⟩

theorem Block.time_le_frame {b : Block K} (hdt : 0 < b.dt) (i : Nat) : b.time ≤ b.frame i := by
  unfold Block.frame
  have : (0 : K) ≤ i * b.dt := mul_nonneg (by positivity) hdt.le
  linarith

theorem Block.frame_lt_next {b : Block K} (hdt : 0 < b.dt) {i : Nat} (h : i < b.count) :
    b.frame i < b.next := by
  unfold Block.frame Block.next
  have : (i : K) < b.count := by exact_mod_cast h
  nlinarith

theorem Envelope.after {L xs ys : List (Ev K K)} {e : Ev K K} (h : Envelope L) (hL : L = xs ++ e :: ys) :
    ∀ n ∈ ys, e.time ≤ n.time := by
  have hs := h.sorted
  rw [hL] at hs
  exact (List.pairwise_cons.1 (List.pairwise_append.1 hs).2.1).1

/-- The next event is popped: the frames up to it are computed. -/
theorem covered {b : Block K} (hdt : 0 < b.dt) {t : K} {len : Nat} (hc : min (b.index t) b.count ≤ len) {i : Nat}
    (hi : len ≤ i) (hic : i < b.count) : ¬ b.frame i + b.dt / 2 < t := by
  intro h
  have := Block.lt_index hdt h
  omega

/-- A set value event that is due. -/
theorem set_pop {ex : K → K} {pw : K → K → K} {mn mx v : K} {L xs ys : List (Ev K K)} {b : Block K}
    (hset : Setting ex b L) {p q : Proc K K} {r : Bool} {n : Ev K K} {w : K} (har : p.aRate = true)
    (hL : L = xs ++ n :: ys) (hE : Ends ex v xs n.time w) (hk : n.kind = .setValueAtTime)
    (htl : p.timeline = n :: ys) (hle : n.time ≤ b.next) (hge : b.time ≤ n.time)
    (h : computeEvent (exact ex pw mn mx) p b = .ok (r, q)) :
    r = false ∧ q.aRate = true ∧
      q.buffer = extend p.buffer (min (b.index n.time) b.count) (fun _ => p.intrinsic) ∧
      Midway ex v L b q := by
  have hat : n.at b = n.time := by
    unfold Ev.at
    split
    · rename_i h0
      have := hset.time
      rw [h0] at hge ⊢
      linarith
    · rfl
  unfold computeEvent at h
  rw [htl] at h
  dsimp only at h
  rw [hk] at h
  dsimp only at h
  unfold computeSetValue at h
  rw [htl] at h
  dsimp only at h
  rw [hat, if_neg (not_lt.2 hle), if_pos har] at h
  cases h
  have hs := hset.env.sorted
  rw [hL] at hs
  refine ⟨rfl, har, rfl, midway_finish hset hL hE rfl ?_ rfl (fun _ _ => rfl) rfl rfl ?_ ?_ ?_⟩
  · intro tau hk'; rw [hk] at hk'; cases hk'
  · refine behind_covered hs fun i h1 h2 => ?_
    refine covered hset.dt ?_ h1 h2
    rw [length_extend]
    exact le_max_right _ _
  · exact settled_past hs hle
  · exact fun m hm => hge.trans (hset.env.after hL m hm)

/-- One pass of the loop. -/
theorem Midway.event {ex : K → K} {pw : K → K → K} {mn mx v : K} {L : List (Ev K K)} {b : Block K}
    (hset : Setting ex b L) {p q : Proc K K} {r : Bool} (har : p.aRate = true)
    (hp : Midway ex v L b p) (hpl : Played ex pw v L b p)
    (h : computeEvent (exact ex pw mn mx) p b = .ok (r, q)) :
    q.aRate = true ∧ Played ex pw v L b q ∧ (r = false → Midway ex v L b q) ∧
      (r = true → b.count ≤ q.buffer.length ∧ Waiting ex v L b.next q) := by
  have hs := hset.env.sorted
  have hdt := hset.dt
  rcases hp with ⟨xs, e, ys, w, hL, hE, htl, hn, hnt, hl, hi, hB, hS, ha⟩ |
    ⟨xs, e, ys, w, l, tau, hL, hE, hk, htl, hl, hv, hB, hS, ha⟩ |
    ⟨xs, n, ys, w, hL, hE, hk, htl, hlt, hge, hc, ha⟩
  · have hold : ∀ t, b.time ≤ t → Holds ex e w t e.value := by
      intro t ht
      by_cases hke : e.Targets
      · obtain ⟨tau', hke⟩ := hke
        rw [holds_target hke]
        exact .inr ⟨rfl, near_later hset.mono hset.pos
          (hset.env.tau (by rw [hL]; simp) hke) ht (hn tau' hke)⟩
      · rw [holds_other hke]
    have hn' : ∀ tau, e.kind = .target tau → Near e.value (approach ex w e.value e.time tau b.next) :=
      fun tau hke => near_later hset.mono hset.pos (hset.env.tau (by rw [hL]; simp) hke)
        (Block.time_le_next hdt) (hn tau hke)
    cases ys with
    | nil =>
      unfold computeEvent at h
      rw [htl] at h
      dsimp only at h
      rw [if_pos har] at h
      cases h
      refine ⟨(by first | exact har | rfl), played_extend hpl rfl fun i h1 h2 => ?_, fun h => by (cases h), fun _ => ⟨?_, ?_⟩⟩
      · have hint := hi (by simp)
        refine playsAt_of hdt hs hL hE hB h1 h2 (fun _ => rfl) (fun _ => ?_) (by simp)
        rw [hint]
        exact segment_holds (by simp) (hold _ (b.time_le_frame hdt i))
      · dsimp only; rw [length_extend]; exact le_max_right _ _
      · exact .held xs e [] w hL hE rfl hn' (by simp) hl hi hS (by simp)
    | cons n ys =>
      have hmem : n ∈ L := by rw [hL]; simp
      have hLn : L = (xs ++ [e]) ++ n :: ys := by rw [hL]; simp
      have hEn : Ends ex v (xs ++ [e]) n.time e.value := ends_snoc hE (hold _ (ha n (by simp)))
      rcases hset.env.kinds n hmem with hk | hr | ⟨tau, -, hk⟩
      · -- a set value event
        have hnr : n.isRamp = false := by simp [Ev.isRamp, hk]
        have hint := hi (fun m hm => by
          simp only [List.head?_cons, Option.some.injEq] at hm; rw [← hm]; exact hnr)
        have hframes : ∀ i, p.buffer.length ≤ i → i < min (b.index n.time) b.count →
            PlaysAt ex pw v L b.dt b.time (b.frame i) p.intrinsic := by
          intro i h1 h2
          refine playsAt_of hdt hs hL hE hB h1 (by omega) (fun _ => rfl) (fun _ => ?_) ?_
          · rw [hint]
            refine segment_holds (fun m hm => ?_) (hold _ (b.time_le_frame hdt i))
            simp only [List.head?_cons, Option.some.injEq] at hm; rw [← hm]; exact hnr
          · intro m hm
            simp only [List.head?_cons, Option.some.injEq] at hm
            rw [← hm]
            omega
        by_cases hle : n.time ≤ b.next
        · obtain ⟨h1, h2, h3, h4⟩ := set_pop hset har hLn hEn hk htl hle (ha n (by simp)) h
          subst h1
          exact ⟨h2, played_extend hpl h3 hframes, fun _ => h4, fun h => by (cases h)⟩
        · have hlt := not_le.1 hle
          have hat : n.at b = n.time := by
            unfold Ev.at
            rw [if_neg]
            intro h0
            have := hset.time
            have := Block.time_le_next hdt (b := b)
            linarith
          unfold computeEvent at h
          rw [htl] at h
          dsimp only at h
          rw [hk] at h
          dsimp only at h
          unfold computeSetValue at h
          rw [htl] at h
          dsimp only at h
          rw [hat, if_pos hlt, if_pos har] at h
          cases h
          refine ⟨(by first | exact har | rfl), played_extend hpl rfl hframes, fun h => by (cases h), fun _ => ⟨?_, ?_⟩⟩
          · dsimp only
            rw [length_extend, Nat.min_eq_right (b.count_le_index hdt hlt.le)]
            exact le_max_right _ _
          · refine .held xs e (n :: ys) w hL hE (by first | exact htl | rfl) hn' hnt hl hi hS ?_
            intro m hm
            rcases List.mem_cons.1 hm with rfl | hm
            · exact hlt.le
            · exact hlt.le.trans (hset.env.after hLn m hm)
      · -- a ramp
        obtain ⟨hnt', hexp⟩ := hset.env.link hL hr
        obtain ⟨l, hl1, hl2, hl3⟩ := hl (by simpa using hr) hnt' (by simp)
        have hcn : n.cancelTime = none := hset.env.plain n hmem
        have hram : ∃ f : K → K → K → K → K → K,
            computeEvent (exact ex pw mn mx) p b = .ok (computeRamp f p b n l ys) ∧
            ∀ t, f e.time (n.time - e.time) e.value n.value t = between pw e n t := by
          unfold Ev.isRamp at hr
          split at hr
          · rename_i hk
            refine ⟨(exact ex pw mn mx).lin, ?_, fun t => ?_⟩
            · simp only [computeEvent, htl, hk, computeLinear, hl1]
            · simp only [exact, between, hk]; ring
          · rename_i hk
            refine ⟨(exact ex pw mn mx).exp, ?_, fun t => ?_⟩
            · obtain ⟨h1, h2⟩ := hexp hk
              have hno : (exact ex pw mn mx).noRamp l.value n.value = false := by
                simp only [exact, hl3, decide_eq_false_iff_not, not_or, not_lt]
                exact ⟨h1, h2⟩
              simp only [computeEvent, htl, hk, computeExp, hl1, hno, Bool.false_eq_true, if_false]
            · simp only [exact, between, hk]
          · cases hr
        obtain ⟨f, hf, hbt⟩ := hram
        rw [hf] at h
        simp only [computeRamp, hcn, Option.getD_none, har, if_true, hl2, hl3, hbt] at h
        have hframes : ∀ i, p.buffer.length ≤ i → i < min (b.index n.time) b.count →
            PlaysAt ex pw v L b.dt b.time (b.frame i) (between pw e n (b.frame i)) := by
          intro i h1 h2
          refine playsAt_of hdt hs hL hE hB h1 (by omega) (fun hlt => ?_) (fun _ => ?_) ?_
          · exfalso
            cases xs using List.reverseRecOn with
            | nil =>
              have h0 := hset.first e (by rw [hL]; rfl)
              have := b.time_le_frame hdt i
              linarith
            | append_singleton a u _ => exact hnt' (hB a u e [] (by simp) i h1 (by omega) hlt).1
          · unfold Segment
            dsimp only
            rw [if_pos hr]
          · intro m hm
            simp only [List.head?_cons, Option.some.injEq] at hm
            rw [← hm]
            omega
        by_cases hle : b.next ≤ n.time
        · rw [if_pos hle] at h
          cases h
          refine ⟨(by first | exact har | rfl), played_extend hpl rfl hframes, fun h => by (cases h), fun _ => ⟨?_, ?_⟩⟩
          · dsimp only
            rw [length_extend, Nat.min_eq_right (b.count_le_index hdt hle)]
            exact le_max_right _ _
          · refine .held xs e (n :: ys) w hL hE (by first | exact htl | rfl) hn' hnt (by first | exact hl | rfl) ?_ hS ?_
            · intro hcon
              exact absurd hr (by rw [hcon n rfl]; simp)
            · intro m hm
              rcases List.mem_cons.1 hm with rfl | hm
              · exact hle
              · exact hle.trans (hset.env.after hLn m hm)
        · rw [if_neg hle] at h
          cases h
          refine ⟨(by first | exact har | rfl), played_extend hpl rfl hframes, fun _ => ?_, fun h => by (cases h)⟩
          have hsn := hs
          rw [hLn] at hsn
          refine midway_finish hset hLn hEn rfl ?_ rfl (fun _ _ => rfl) rfl rfl ?_ ?_ ?_
          · intro tau hk
            simp [Ev.isRamp, hk] at hr
          · refine behind_covered hsn fun i h1 h2 => covered hdt ?_ h1 h2
            dsimp only
            rw [length_extend]
            exact le_max_right _ _
          · exact settled_past hsn (not_le.1 hle).le
          · exact fun m hm => ha m (by simp [hm])
      · exact absurd ⟨tau, hk⟩ (hnt n rfl)
  · -- a target
    have htau := hset.env.tau (by rw [hL]; simp) hk
    have hce : e.cancelTime = none := hset.env.plain e (by rw [hL]; simp)
    have hnr : ∀ n, ys.head? = some n → n.isRamp = false := by
      intro n hn
      cases ys with
      | nil => simp at hn
      | cons m ys =>
        simp only [List.head?_cons, Option.some.injEq] at hn
        subst hn
        by_contra hr
        exact (hset.env.link hL (by simpa using hr)).1 ⟨tau, hk⟩
    have hfl : (exact ex pw mn mx).flush = id := rfl
    unfold computeEvent at h
    rw [htl] at h
    dsimp only at h
    rw [hk] at h
    dsimp only at h
    unfold computeTarget at h
    rw [htl, hl] at h
    dsimp only at h
    simp only [tgt_eq, hv, har, if_true, hfl, List.map_id, ite_self] at h
    have hend : targetEnd b e ys = targetNext b ys := by unfold targetEnd; rw [hce]
    rw [hend] at h
    have hframes : ∀ stop, stop ≤ b.count → (∀ n, ys.head? = some n → stop ≤ b.index n.time) →
        ∀ i, p.buffer.length ≤ i → i < stop → PlaysAt ex pw v L b.dt b.time (b.frame i)
          (if b.frame i - e.time < 0 then p.intrinsic else approach ex w e.value e.time tau (b.frame i)) := by
      intro stop hst hst' i h1 h2
      refine playsAt_of hdt hs hL hE hB h1 (by omega) (fun hlt => ?_) (fun hge => ?_) ?_
      · rw [if_pos (by linarith)]
      · rw [if_neg (by linarith)]
        refine segment_holds hnr ?_
        rw [holds_target hk]
        exact .inl rfl
      · intro n hn
        have := hst' n hn
        omega
    cases hnx : targetNext b ys with
    | none =>
      rw [hnx] at h
      dsimp only at h
      have hafter : ∀ n, ys.head? = some n → b.next ≤ n.time := by
        intro n hn
        have hr := hnr n hn
        unfold targetNext at hnx
        cases ys with
        | nil => simp at hn
        | cons m ys =>
          simp only [List.head?_cons, Option.some.injEq] at hn
          subst hn
          simp only [hr, Bool.false_eq_true, if_false] at hnx
          by_contra hlt
          rw [if_pos (not_le.1 hlt)] at hnx
          cases hnx
      have hafter' : ∀ n ∈ ys, b.next ≤ n.time := by
        intro n hn
        cases ys with
        | nil => simp at hn
        | cons m ys =>
          have hm := hafter m rfl
          rcases List.mem_cons.1 hn with rfl | hn
          · exact hm
          · exact hm.trans (hset.env.after (xs := xs ++ [e]) (by rw [hL]; simp) n hn)
      have hmin : min (b.index b.next) b.count = b.count :=
        Nat.min_eq_right (b.count_le_index hdt le_rfl)
      simp only [Option.getD_none, hmin] at h
      have hfr := hframes b.count le_rfl (fun n hn => b.count_le_index hdt (hafter n hn))
      split at h
      · rename_i hsn
        cases h
        refine ⟨(by first | exact har | rfl), played_extend hpl rfl hfr, fun h => by (cases h), fun _ => ⟨?_, ?_⟩⟩
        · dsimp only; rw [length_extend]; exact le_max_right _ _
        · exact .snapped xs e ys w tau hL hE hk rfl rfl (by simpa [exact, Near] using hsn) hS hafter'
      · cases h
        refine ⟨(by first | exact har | rfl), played_extend hpl rfl hfr, fun h => by (cases h), fun _ => ⟨?_, ?_⟩⟩
        · dsimp only; rw [length_extend]; exact le_max_right _ _
        · exact .active xs e ys w l tau hL hE hk (by first | exact htl | rfl) (by first | exact hl | rfl) hv hS hafter'
    | some t =>
      rw [hnx] at h
      dsimp only at h
      cases h
      cases ys with
      | nil => cases hnx
      | cons n ys =>
        have hr := hnr n rfl
        unfold targetNext at hnx
        simp only [hr, Bool.false_eq_true, if_false] at hnx
        split at hnx
        · rename_i hlt
          cases hnx
          have hLn : L = (xs ++ [e]) ++ n :: ys := by rw [hL]; simp
          have hsn := hs
          rw [hLn] at hsn
          have hEn : Ends ex v (xs ++ [e]) n.time (approach ex w e.value e.time tau n.time) :=
            ends_snoc hE (by rw [holds_target hk]; exact .inl rfl)
          have hlen : ∀ f : Nat → K, min (b.index n.time) b.count ≤
              (extend p.buffer (min (b.index n.time) b.count) f).length := by
            intro f
            rw [length_extend]
            exact le_max_right _ _
          refine ⟨(by first | exact har | rfl), played_extend hpl rfl (hframes _ (Nat.min_le_right _ _) fun m hm => ?_),
            fun _ => ?_, fun h => by (cases h)⟩
          · simp only [List.head?_cons, Option.some.injEq] at hm
            rw [← hm]
            exact Nat.min_le_left _ _
          · rcases hset.env.kinds n (by rw [hL]; simp) with hkn | hrn | ⟨tau', -, hkn⟩
            · exact .due (xs ++ [e]) n ys _ hLn hEn hkn rfl hlt (ha n (by simp)) (hlen _)
                (fun m hm => ha m (by simp [hm]))
            · rw [hrn] at hr; cases hr
            · refine .active (xs ++ [e]) n ys _ _ tau' hLn hEn hkn rfl rfl rfl ?_ ?_
                (fun m hm => ha m (by simp [hm]))
              · exact behind_covered hsn fun i h1 h2 => covered hdt (hlen _) h1 h2
              · exact settled_past hsn hlt.le
        · cases hnx
  · obtain ⟨h1, h2, h3, h4⟩ := set_pop hset har hL hE hk htl hlt.le hge h
    subst h1
    refine ⟨h2, ?_, fun _ => h4, fun h => by (cases h)⟩
    refine played_extend hpl h3 fun i hi1 hi2 => ?_
    omega

/-- A quantum that is not constant. -/
theorem Midway.loop {ex : K → K} {pw : K → K → K} {mn mx v : K} {L : List (Ev K K)} {b : Block K}
    (hset : Setting ex b L) {m : Nat} {p q : Proc K K} (har : p.aRate = true)
    (hp : Midway ex v L b p) (hpl : Played ex pw v L b p)
    (h : Param.loop (exact ex pw mn mx) b m p = .ok q) :
    q.aRate = true ∧ Played ex pw v L b q ∧ b.count ≤ q.buffer.length ∧ Waiting ex v L b.next q := by
  induction m generalizing p with
  | zero => cases h
  | succ m ih =>
    unfold Param.loop at h
    cases he : computeEvent (exact ex pw mn mx) p b with
    | panic => rw [he] at h; cases h
    | fuel => rw [he] at h; cases h
    | ok r =>
      obtain ⟨r, p1⟩ := r
      rw [he] at h
      simp only [Res.bind] at h
      obtain ⟨h1, h2, h3, h4⟩ := hp.event hset har hpl he
      cases r with
      | true =>
        simp only [if_true] at h
        cases h
        exact ⟨h1, h2, h4 rfl⟩
      | false =>
        simp only [Bool.false_eq_true, if_false] at h
        exact ih h1 (h3 rfl) h2 h

/-- A target that has to make way for a ramp at the start of the quantum. -/
theorem event_turn {ex : K → K} {pw : K → K → K} {mn mx : K} {b : Block K} {p : Proc K K} {e l : Ev K K} {tau : K}
    {rest : List (Ev K K)} (hp : p.timeline = e :: rest) (hl : p.last = some l) (hk : e.kind = .target tau)
    (har : p.aRate = true) (hb : p.buffer = []) (hend : targetEnd b e rest = some b.time) :
    computeEvent (exact ex pw mn mx) p b = .ok (false, { p with
      intrinsic := approach ex l.value e.value e.time tau b.time
      timeline := rest
      last := some { e with time := b.time, value := approach ex l.value e.value e.time tau b.time } }) := by
  unfold computeEvent
  rw [hp]
  simp only [hk]
  unfold computeTarget
  rw [hp, hl]
  simp only [hend, Option.getD_some, Block.index_start, har, if_true, hb, Nat.zero_min]
  simp [extend, tgt_eq, ← hb, hk]

/-- A quantum. -/
theorem Waiting.block {ex : K → K} {pw : K → K → K} {mn mx v : K} {L : List (Ev K K)} {b : Block K}
    (hset : Setting ex b L) (hcount : 2 ≤ b.count) {p q : Proc K K} (har : p.aRate = true)
    (hw : Waiting ex v L b.time p) (h : computeBuffer (exact ex pw mn mx) p b = .ok q) :
    q.aRate = true ∧ Waiting ex v L b.next q ∧
      ∀ i < b.count, ∃ x, q.valueAt i = some x ∧ PlaysAt ex pw v L b.dt b.time (b.frame i) x := by
  have hs := hset.env.sorted
  have hdt := hset.dt
  have hlt := b.time_lt_next hdt hset.count
  have hmono : ∀ {P ys : List (Ev K K)}, L = P ++ ys → Settled ex v b.time P → Settled ex v b.next P := by
    intro P ys hP
    exact Settled.mono hset.mono hset.pos (fun e he tau hk => hset.env.tau (by rw [hP]; simp [he]) hk) hlt.le
  have fin : ∀ {m : Nat} {p : Proc K K}, p.aRate = true → Midway ex v L b p → p.buffer = [] →
      loop (exact ex pw mn mx) b m p = .ok q → q.aRate = true ∧ Waiting ex v L b.next q ∧
      ∀ i < b.count, ∃ x, q.valueAt i = some x ∧ PlaysAt ex pw v L b.dt b.time (b.frame i) x := by
    intro m p hp1 hp2 hp3 hlo
    obtain ⟨h1, h2, h3, h4⟩ := hp2.loop hset hp1 (fun i x hx => by rw [hp3] at hx; simp at hx) hlo
    refine ⟨h1, h4, fun i hi => ?_⟩
    have hil : i < q.buffer.length := by omega
    refine ⟨q.buffer[i], ?_, h2 i _ (List.getElem?_eq_getElem hil)⟩
    unfold Proc.valueAt
    rw [if_neg (by omega)]
    exact List.getElem?_eq_getElem hil
  by_cases hc : isConstant p b = true
  · rw [computeBuffer_const hc] at h
    cases h
    refine ⟨har, ?_, fun i hi => ⟨p.intrinsic, by simp [Proc.valueAt], ?_⟩⟩
    · rcases hw with ⟨xs, e, ys, w, hL, hE, htl, hn, hne, hi', hS, ha⟩ |
        ⟨e0, v0, tau, e, ys, hL, hk0, hc0, htl, hk, het, hev, hlt0, h00, hr, ha⟩ |
        ⟨xs, e, ys, w, hL, hE, htl, hn, hnt, hl, hi, hS, ha⟩ |
        ⟨xs, e, ys, w, l, tau, hL, hE, hk, htl, hl, hv, hS, ha⟩ |
        ⟨xs, e, ys, w, tau, hL, hE, hk, htl, hv, hn, hS, ha⟩
      · unfold isConstant at hc
        rw [htl] at hc
        simp [Ev.isRamp] at hc
        have := hset.time
        linarith
      · unfold isConstant at hc
        rcases htl with ⟨htl, -⟩ | htl
        · rw [htl] at hc
          simp only [Bool.and_eq_true, decide_eq_true_eq] at hc
          exact absurd (hc.2.trans hlt0) (not_le.2 hlt)
        · rw [htl] at hc
          simp [Ev.isRamp] at hc
          have := hset.time
          linarith
      · refine .held xs e ys w hL hE htl ?_ hnt hl hi (hmono (ys := ys) (by rw [hL]; simp) hS) ?_
        · intro tau hk
          exact near_later hset.mono hset.pos (hset.env.tau (by rw [hL]; simp) hk) hlt.le (hn tau hk)
        · intro n hn'
          unfold isConstant at hc
          rw [htl] at hc
          cases ys with
          | nil => simp at hn'
          | cons m ys =>
            simp only [Bool.and_eq_true, decide_eq_true_eq] at hc
            rcases List.mem_cons.1 hn' with rfl | hn'
            · exact hc.2
            · exact hc.2.trans (hset.env.after (xs := xs ++ [e]) (by rw [hL]; simp) n hn')
      · refine .active xs e ys w l tau hL hE hk htl hl hv (hmono (ys := ys) (by rw [hL]; simp) hS) ?_
        intro n hn
        unfold isConstant at hc
        rw [htl] at hc
        simp only [Bool.and_eq_true, decide_eq_true_eq] at hc
        exact hc.2.trans (hset.env.after hL n hn)
      · unfold isConstant at hc
        rw [htl] at hc
        simp [Ev.isRamp] at hc
        linarith
    · have hfn := Block.frame_lt_next hdt hi
      rcases hw with ⟨xs, e, ys, w, hL, hE, htl, hn, hne, hi', hS, ha⟩ |
        ⟨e0, v0, tau, e, ys, hL, hk0, hc0, htl, hk, het, hev, hlt0, h00, hr, ha⟩ |
        ⟨xs, e, ys, w, hL, hE, htl, hn, hnt, hl, hi', hS, ha⟩ |
        ⟨xs, e, ys, w, l, tau, hL, hE, hk, htl, hl, hv, hS, ha⟩ |
        ⟨xs, e, ys, w, tau, hL, hE, hk, htl, hv, hn, hS, ha⟩
      · unfold isConstant at hc
        rw [htl] at hc
        simp [Ev.isRamp] at hc
        have := hset.time
        linarith
      · unfold isConstant at hc
        rcases htl with ⟨htl, -⟩ | htl
        · rw [htl] at hc
          simp only [Bool.and_eq_true, decide_eq_true_eq] at hc
          exact absurd (hc.2.trans hlt0) (not_le.2 hlt)
        · rw [htl] at hc
          simp [Ev.isRamp] at hc
          have := hset.time
          linarith
      · have hnr : ∀ n, ys.head? = some n → n.isRamp = false ∧ b.next ≤ n.time := by
          intro n hn'
          unfold isConstant at hc
          rw [htl] at hc
          cases ys with
          | nil => simp at hn'
          | cons m ys =>
            simp only [List.head?_cons, Option.some.injEq] at hn'
            subst hn'
            simpa using hc
        have hint := hi' fun n hn' => (hnr n hn').1
        refine playsAt_of (p := { p with buffer := [] }) hdt hs hL hE (hS.behind hdt) (Nat.zero_le _) hi
          (fun _ => rfl) (fun _ => ?_) (fun n hn' => ?_)
        · rw [hint]
          refine segment_holds (fun n hn' => (hnr n hn').1) ?_
          by_cases hke : e.Targets
          · obtain ⟨tau', hke⟩ := hke
            rw [holds_target hke]
            exact .inr ⟨rfl, near_later hset.mono hset.pos
              (hset.env.tau (by rw [hL]; simp) hke) (b.time_le_frame hdt i) (hn tau' hke)⟩
          · rw [holds_other hke]
        · have := b.count_le_index hdt (hnr n hn').2
          omega
      · unfold isConstant at hc
        rw [htl] at hc
        simp only [Bool.and_eq_true, decide_eq_true_eq] at hc
        refine playsAt_of (p := { p with buffer := [] }) hdt hs hL hE (hS.behind hdt) (Nat.zero_le _) hi
          (fun _ => rfl) (fun hge => ?_) (fun n hn' => ?_)
        · exact absurd (hc.2.trans hge) (not_le.2 hfn)
        · have : n ∈ ys := by
            cases ys with
            | nil => simp at hn'
            | cons m ys => simp at hn'; simp [hn']
          have := b.count_le_index hdt (hc.2.trans (hset.env.after hL n this))
          omega
      · unfold isConstant at hc
        rw [htl] at hc
        simp [Ev.isRamp] at hc
        linarith
  · rw [computeBuffer_loop (by simpa using hc), if_pos har] at h
    rcases hw with ⟨xs, e, ys, w, hL, hE, htl, hn, hne, hi', hS, ha⟩ |
        ⟨e0, v0, tau, e, ys, hL, hk0, hc0, htl, hk, het, hev, hlt0, h00, hr, ha⟩ |
      ⟨xs, e, ys, w, hL, hE, htl, hn, hnt, hl, hi', hS, ha⟩ |
      ⟨xs, e, ys, w, l, tau, hL, hE, hk, htl, hl, hv, hS, ha⟩ |
      ⟨xs, e, ys, w, tau, hL, hE, hk, htl, hv, hn, hS, ha⟩
    · rw [htl] at h
      simp only [List.length_cons, Nat.mul_succ] at h
      unfold loop at h
      rw [event_set_start hdt (e := { kind := .setValue, value := e.value, time := 0 }) (by rfl) (.inl rfl)
        (by simp [Ev.at])] at h
      simp only [Res.bind, Bool.false_eq_true, if_false] at h
      refine fin (by exact har) ?_ rfl h
      refine midway_finish hset hL hE rfl hn rfl ?_ rfl rfl (hS.behind hdt)
        (hmono (ys := ys) (by rw [hL]; simp) hS) ha
      intro _ hnt
      obtain ⟨n, hn1, hn2, hn3 | hn3⟩ := hne
      · exact (hn2 hn3).symm
      · exact absurd hn3 (hnt n hn1)
    · obtain ⟨n, hn1, hn2⟩ := hr
      have hend : targetEnd b e0 ys = some b.time := by
        unfold targetEnd
        rw [hc0]
        unfold targetNext
        cases ys with
        | nil => simp at hn1
        | cons m ys =>
          simp only [List.head?_cons, Option.some.injEq] at hn1
          subst hn1
          simp [hn2]
      have turned : ∀ {m : Nat} {r : Proc K K} {l : Ev K K}, r.aRate = true → r.timeline = e0 :: ys →
          r.last = some l → l.value = v0 → r.buffer = [] →
          loop (exact ex pw mn mx) b (m + 1) r = .ok q → q.aRate = true ∧ Waiting ex v L b.next q ∧
          ∀ i < b.count, ∃ x, q.valueAt i = some x ∧ PlaysAt ex pw v L b.dt b.time (b.frame i) x := by
        intro m r l r1 r2 r3 r4 r5 hlo
        unfold loop at hlo
        rw [event_turn r2 r3 hk0 r1 r5 hend] at hlo
        simp only [Res.bind, Bool.false_eq_true, if_false] at hlo
        have hsn := hs
        rw [hL] at hsn
        refine fin (by exact r1) ?_ (by exact r5) hlo
        rw [r4, ← hev]
        refine midway_finish hset (xs := []) (e := e) (w := v) hL rfl rfl ?_ rfl (fun _ _ => het.symm)
          rfl rfl ?_ ?_ ha
        · intro tau' hk'; exact absurd ⟨tau', hk'⟩ hk
        · exact behind_covered (xs := []) hsn fun i _ _ h3 => by
            have := b.time_le_frame hdt i
            linarith
        · exact settled_past (xs := []) hsn (by rw [het]; exact hlt.le)
      rcases htl with ⟨htl, l, hl1, hl2⟩ | htl
      · refine turned (m := 2 * p.timeline.length) (r := { p with current := (exact ex pw mn mx).clamp p.intrinsic, buffer := [] })
          har htl hl1 hl2 rfl h
      · rw [htl] at h
        simp only [List.length_cons, Nat.mul_succ] at h
        unfold loop at h
        rw [event_set_start hdt (e := { kind := .setValue, value := v0, time := 0 }) (by rfl) (.inl rfl)
          (by simp [Ev.at])] at h
        simp only [Res.bind, Bool.false_eq_true, if_false] at h
        exact turned (by exact har) rfl rfl rfl rfl h
    · refine fin (by exact har) ?_ rfl h
      exact .held xs e ys w hL hE htl hn hnt hl hi' (hS.behind hdt) (hmono (ys := ys) (by rw [hL]; simp) hS) ha
    · refine fin (by exact har) ?_ rfl h
      exact .active xs e ys w l tau hL hE hk htl hl hv (hS.behind hdt)
        (hmono (ys := ys) (by rw [hL]; simp) hS) ha
    · rw [htl] at h
      simp only [List.length_cons, Nat.mul_succ] at h
      unfold loop at h
      rw [event_set_start hdt (e := { kind := .setValueAtTime, value := e.value, time := b.time }) (by rfl)
        (.inr rfl) (by simp [Ev.at])] at h
      simp only [Res.bind, Bool.false_eq_true, if_false] at h
      refine fin (by exact har) ?_ rfl h
      refine midway_finish hset hL hE rfl ?_ rfl (fun hnt => absurd ⟨tau, hk⟩ hnt) rfl rfl (hS.behind hdt)
        (hmono (ys := ys) (by rw [hL]; simp) hS) ha
      intro tau' hk'
      rw [hk] at hk'
      cases hk'
      exact hn

/-! ## Scheduling -/

/-- The kinds of events of an envelope. -/
def Ev.Plain (e : Ev K K) : Prop :=
  e.kind = .setValue ∨ e.kind = .setValueAtTime ∨ e.isRamp = true ∨ e.Targets

theorem handle_later {p : Proc K K} {e : Ev K K} (hp : ∀ x ∈ p.timeline, x.Plain) (hne : p.timeline ≠ [])
    (he : e.kind = .setValueAtTime ∨ e.isRamp = true ∨ e.Targets) (hs : Sorted (p.timeline ++ [e])) :
    handle p e = .ok { p with timeline := p.timeline ++ [e] } := by
  have hnc : ∀ x ∈ p.timeline, ∀ dur vals, x.kind ≠ .curve dur vals := by
    intro x hx dur vals hk
    rcases hp x hx with h | h | h | ⟨tau, h⟩ <;> simp [Ev.isRamp, hk] at h
  have hov : overlaps p.timeline e = false := by
    unfold overlaps
    split
    · rename_i dur vals hk
      rcases he with h | h | ⟨tau, h⟩ <;> simp [Ev.isRamp, hk] at h
    · rw [List.any_eq_false]
      intro x hx
      split
      · rename_i dur vals hk
        exact absurd hk (hnc x hx dur vals)
      · simp
  have hins : insert p e = .ok { p with timeline := p.timeline ++ [e] } := by
    unfold insert
    rw [hov]
    have h2 : setIntrinsic p e = p.intrinsic := by
      unfold setIntrinsic
      rcases he with h | h | ⟨tau, h⟩
      · simp [h]
      · unfold Ev.isRamp at h
        split at h <;> simp_all
      · simp [h]
    simp [h2, implicit, hne, sort_eq hs]
  unfold handle
  rcases he with h | h | ⟨tau, h⟩
  · simp only [h]; exact hins
  · unfold Ev.isRamp at h
    split at h
    · rename_i h'; simp only [h']; exact hins
    · rename_i h'; simp only [h']; exact hins
    · cases h
  · simp only [h]; exact hins

theorem run_later {A : Arith K K} {dt : K} {count : Nat} {l : List (Ev K K)} {s : Sys K K}
    (hp : ∀ x ∈ s.p.timeline, x.Plain) (hne : s.p.timeline ≠ [])
    (hl : ∀ e ∈ l, e.kind = .setValueAtTime ∨ e.isRamp = true ∨ e.Targets) (hs : Sorted (s.p.timeline ++ l)) :
    run A dt count s (l.map .event) = .ok { s with p := { s.p with timeline := s.p.timeline ++ l } } := by
  induction l generalizing s with
  | nil => simp [run]
  | cons e l ih =>
    have hs1 : Sorted (s.p.timeline ++ [e]) := by
      refine hs.sublist ?_
      exact List.Sublist.append_left (List.cons_sublist_cons.2 (List.nil_sublist _)) _
    simp only [List.map_cons, run, step]
    rw [handle_later hp hne (hl e (by simp)) hs1]
    simp only [Res.bind]
    rw [ih (s := { s with p := { s.p with timeline := s.p.timeline ++ [e] } })]
    · simp
    · intro x hx
      rcases List.mem_append.1 hx with hx | hx
      · exact hp x hx
      · simp only [List.mem_singleton] at hx
        subst hx
        exact .inr (hl x (by simp))
    · simp
    · exact fun x hx => hl x (by simp [hx])
    · simpa using hs

/-- The value before the first event of the envelope, as an event. -/
def start (v t : K) : Ev K K := { kind := .setValueAtTime, value := v, time := t }

theorem run_envelope {ex : K → K} {A : Arith K K} {dt : K} (hdt : 0 < dt) {count : Nat} {s : Sys K K}
    (hi : s.p.timeline = []) {L : List (Ev K K)} (hL : Envelope (start s.p.intrinsic (s.frame * dt) :: L))
    (hfirst : ∀ e, L.head? = some e → e.isRamp = true → s.p.last = none) :
    ∃ s', run A dt count s (L.map .event) = .ok s' ∧ s'.frame = s.frame ∧ s'.p.aRate = s.p.aRate ∧
      Waiting ex s.p.intrinsic (start s.p.intrinsic (s.frame * dt) :: L) (s.frame * dt) s'.p := by
  have h0 : (0 : K) ≤ s.frame * dt := by positivity
  have hsL := List.pairwise_cons.1 hL.sorted
  have ha : ∀ n ∈ L, (s.frame : K) * dt ≤ n.time := fun n hn => hsL.1 n hn
  have hkinds : ∀ e ∈ L, e.kind = .setValueAtTime ∨ e.isRamp = true ∨ e.Targets := by
    intro e he
    rcases hL.kinds e (by simp [he]) with h | h | ⟨tau, -, h⟩
    · exact .inl h
    · exact .inr (.inl h)
    · exact .inr (.inr ⟨tau, h⟩)
  have hsettled : Settled ex s.p.intrinsic (s.frame * dt) ([] ++ [start s.p.intrinsic (s.frame * dt)]) :=
    settled_past (xs := []) (ys := L) hL.sorted le_rfl
  have hnstart : ∀ tau, (start s.p.intrinsic (s.frame * dt)).kind = .target tau → Near (start s.p.intrinsic
      (s.frame * dt)).value (approach ex s.p.intrinsic (start s.p.intrinsic (s.frame * dt)).value
        (start s.p.intrinsic (s.frame * dt)).time tau (s.frame * dt)) := by
    intro tau h; cases h
  cases L with
  | nil =>
    refine ⟨s, rfl, rfl, rfl, ?_⟩
    exact .held [] _ [] s.p.intrinsic rfl rfl hi hnstart (by simp) (by simp) (fun _ => rfl) hsettled (by simp)
  | cons e L =>
    have hsorted : Sorted (e :: L) := hsL.2
    have hte : 0 ≤ e.time := h0.trans (ha e (by simp))
    have hov : overlaps s.p.timeline e = false := by
      rw [hi]; unfold overlaps; split <;> rfl
    have hsint : setIntrinsic s.p e = s.p.intrinsic := by
      unfold setIntrinsic
      rcases hkinds e (by simp) with h | h | ⟨tau, h⟩
      · simp [h]
      · unfold Ev.isRamp at h
        split at h <;> simp_all
      · simp [h]
    by_cases hset : e.kind = .setValueAtTime
    · have hh : handle s.p e = .ok { s.p with timeline := [e] } := by
        have : implicit s.p e = [] := by unfold implicit; simp [hset]
        have hs1 : Sorted ([e] : List (Ev K K)) := by simp [Sorted]
        unfold handle
        simp only [hset]
        unfold insert
        rw [hov, this, hsint, hi]
        simp [sort_eq hs1]
      have hrun := run_later (A := A) (dt := dt) (count := count) (l := L)
        (s := { s with p := { s.p with timeline := [e] } })
        (by intro x hx; simp at hx; subst hx; exact .inr (.inl hset)) (by simp)
        (fun x hx => hkinds x (by simp [hx])) (by simpa using hsorted)
      simp only [List.map_cons, run, step]
      rw [hh]
      simp only [Res.bind]
      rw [hrun]
      refine ⟨_, rfl, rfl, rfl, ?_⟩
      refine .held [] _ (e :: L) s.p.intrinsic rfl rfl (by simp) hnstart ?_ ?_ (fun _ => rfl) hsettled ha
      · intro n hn
        simp only [List.head?_cons, Option.some.injEq] at hn
        subst hn
        rintro ⟨tau, h⟩
        rw [hset] at h
        cases h
      · intro hr _ _
        have := hr e rfl
        simp [Ev.isRamp, hset] at this
    · have himp : implicit s.p e = [{ kind := .setValue, value := s.p.intrinsic, time := 0 }] := by
        unfold implicit
        rw [hi]
        rcases hkinds e (by simp) with h | h | ⟨tau, h⟩
        · exact absurd h hset
        · have hl := hfirst e rfl h
          unfold Ev.isRamp at h
          split at h <;> simp_all
        · simp [h]
      have hs1 : Sorted ([{ kind := .setValue, value := s.p.intrinsic, time := 0 }, e] : List (Ev K K)) := by
        simpa [Sorted] using hte
      have hins : insert s.p e = .ok { s.p with timeline :=
          [{ kind := .setValue, value := s.p.intrinsic, time := 0 }, e] } := by
        unfold insert
        rw [hov, himp, hsint, hi]
        simp [sort_eq hs1]
      have hh : handle s.p e = .ok { s.p with timeline :=
          [{ kind := .setValue, value := s.p.intrinsic, time := 0 }, e] } := by
        rw [← hins]
        unfold handle
        rcases hkinds e (by simp) with h | h | ⟨tau, h⟩
        · exact absurd h hset
        · unfold Ev.isRamp at h
          split at h
          · rename_i h'; simp only [h']
          · rename_i h'; simp only [h']
          · cases h
        · simp only [h]
      have hrun := run_later (A := A) (dt := dt) (count := count) (l := L)
        (s := { s with p := { s.p with timeline :=
          [{ kind := .setValue, value := s.p.intrinsic, time := 0 }, e] } })
        (by
          intro x hx
          simp only [List.mem_cons, List.not_mem_nil, or_false] at hx
          rcases hx with rfl | rfl
          · exact .inl rfl
          · exact .inr (hkinds x (by simp)))
        (by simp) (fun x hx => hkinds x (by simp [hx])) (by
          simp only [List.cons_append, List.nil_append]
          refine List.pairwise_cons.2 ⟨fun x hx => h0.trans (ha x hx), hsorted⟩)
      simp only [List.map_cons, run, step]
      rw [hh]
      simp only [Res.bind]
      rw [hrun]
      refine ⟨_, rfl, rfl, rfl, ?_⟩
      refine .again [] _ (e :: L) s.p.intrinsic rfl rfl (by simp [start]) hnstart ⟨e, rfl, fun _ => rfl, ?_⟩ rfl
        hsettled ha
      rcases hkinds e (by simp) with h | h | h
      · exact absurd h hset
      · exact .inl h
      · exact .inr h

/-- Any number of quanta. -/
theorem Waiting.blocks {ex : K → K} (hm : Monotone ex) (hpos : ∀ x, 0 < ex x) {pw : K → K → K}
    {mn mx dt : K} (hdt : 0 < dt) {count : Nat} (hc : 2 ≤ count) {v : K} {L : List (Ev K K)}
    (hL : Envelope L) {s s' : Sys K K} (h0 : ∀ e, L.head? = some e → e.time ≤ s.frame * dt)
    (har : s.p.aRate = true) (hw : Waiting ex v L (s.frame * dt) s.p) {k : Nat}
    (h : run (exact ex pw mn mx) dt count s (List.replicate k .block) = .ok s') :
    s'.frame = s.frame + k * count ∧ s'.p.aRate = true ∧ Waiting ex v L (s'.frame * dt) s'.p := by
  induction k generalizing s with
  | zero => cases h; exact ⟨by simp, har, hw⟩
  | succ k ih =>
    rw [List.replicate_succ, run] at h
    simp only [step] at h
    cases hb : computeBuffer (exact ex pw mn mx) s.p ⟨s.frame * dt, dt, count⟩ with
    | panic => rw [hb] at h; cases h
    | fuel => rw [hb] at h; cases h
    | ok q =>
      rw [hb] at h
      simp only [Res.bind] at h
      have hnx : (⟨s.frame * dt, dt, count⟩ : Block K).next = ((s.frame + count : Nat) : K) * dt := by
        simp only [Block.next]; push_cast; ring
      obtain ⟨h1, h2, -⟩ := Waiting.block (b := ⟨s.frame * dt, dt, count⟩)
        ⟨hm, hpos, hdt, by dsimp only; omega, by positivity, hL, h0⟩ hc har hw hb
      rw [hnx] at h2
      obtain ⟨i1, i2, i3⟩ := ih (s := ⟨q, s.frame + count⟩) (fun e he => (h0 e he).trans (by
        dsimp only
        apply mul_le_mul_of_nonneg_right _ hdt.le
        exact_mod_cast Nat.le_add_right _ _)) h1 h2 h
      exact ⟨by rw [i1]; dsimp only; ring, i2, i3⟩

/-- C96: an envelope of set value events, linear and exponential ramps and exponential approaches, scheduled in
time order on an a-rate parameter with no other pending automation, in any state otherwise: every frame of
every quantum from the time of an event up to half a frame before the next one has the value that the
specification gives for it (`Segment`: held, on the ramp to the next event, or on the approach from the value
`w` at which the preceding events ended). Missing: the frames before a target that is scheduled for a later
quantum (`C29_negated_target`, `C96_negated_sustain`), a ramp directly after a target (`C29_negated_ramp`), the
half frame before each event (`C27_negated_end`). -/
theorem C96_envelope_partial {ex : K → K} (hm : Monotone ex) (hpos : ∀ x, 0 < ex x) {pw : K → K → K}
    {mn mx dt : K} (hdt : 0 < dt) {count : Nat} (hc : 2 ≤ count) {s s' : Sys K K} (hi : s.p.timeline = [])
    (har : s.p.aRate = true) {L : List (Ev K K)}
    (hL : Envelope (start s.p.intrinsic (s.frame * dt) :: L))
    (hfirst : ∀ e, L.head? = some e → e.isRamp = true → s.p.last = none) {k j : Nat} (hj : j < count)
    (h : run (exact ex pw mn mx) dt count s (L.map .event ++ List.replicate (k + 1) .block) = .ok s') :
    ∃ x, s'.p.valueAt j = some x ∧ PlaysAt ex pw s.p.intrinsic (start s.p.intrinsic (s.frame * dt) :: L) dt
      ((s.frame + k * count : Nat) * dt) ((s.frame + k * count + j : Nat) * dt) x := by
  rw [run_append] at h
  obtain ⟨s1, h1, h2, h3, h4⟩ := run_envelope (ex := ex) (A := exact ex pw mn mx) (count := count) hdt hi hL hfirst
  rw [h1] at h
  simp only [Res.bind] at h
  rw [List.replicate_succ', run_append] at h
  cases hr : run (exact ex pw mn mx) dt count s1 (List.replicate k .block) with
  | panic => rw [hr] at h; cases h
  | fuel => rw [hr] at h; cases h
  | ok s2 =>
    rw [hr] at h
    simp only [Res.bind, run, step] at h
    have h0 : ∀ e, (start s.p.intrinsic (s.frame * dt) :: L).head? = some e → e.time ≤ s1.frame * dt := by
      intro e he
      simp only [List.head?_cons, Option.some.injEq] at he
      subst he
      rw [h2]
      exact le_rfl
    rw [← h2] at h4
    obtain ⟨b1, b2, b3⟩ := Waiting.blocks hm hpos hdt hc (by rw [h2]; exact hL) (by rw [h2]; rw [h2] at h0; exact h0) (h3.trans har) h4 hr
    cases hb : computeBuffer (exact ex pw mn mx) s2.p ⟨s2.frame * dt, dt, count⟩ with
    | panic => rw [hb] at h; cases h
    | fuel => rw [hb] at h; cases h
    | ok q =>
      rw [hb] at h
      cases h
      rw [h2] at b1 b3
      obtain ⟨-, -, hv⟩ := Waiting.block (b := ⟨s2.frame * dt, dt, count⟩)
        ⟨hm, hpos, hdt, by dsimp only; omega, by positivity, hL, fun e he => (h0 e he).trans (by
          rw [b1, h2]
          dsimp only
          apply mul_le_mul_of_nonneg_right _ hdt.le
          exact_mod_cast Nat.le_add_right _ _)⟩ hc b2 b3 hb
      obtain ⟨x, x1, x2⟩ := hv j hj
      refine ⟨x, x1, ?_⟩
      have hfr : (⟨s2.frame * dt, dt, count⟩ : Block K).frame j = ((s.frame + k * count + j : Nat) : K) * dt := by
        rw [b1]
        simp only [Block.frame]
        push_cast
        ring
      rw [hfr, b1] at x2
      exact x2

/-- Attack (to 1), decay (to `sus`) and release (to 0) of a note, spelled out: from the release on, the value is
on the approach to 0 from a value `w`, which is the one of the decay at that time. -/
theorem C96_release_partial {ex : K → K} (hm : Monotone ex) (hpos : ∀ x, 0 < ex x) {pw : K → K → K}
    {mn mx dt : K} (hdt : 0 < dt) {count : Nat} (hc : 2 ≤ count) {v c sus t0 t1 t2 d r : K} (h0 : 0 ≤ t0)
    (h1 : t0 ≤ t1) (h2 : t1 ≤ t2) (hd : 0 < d) (hr : 0 < r) {s' : Sys K K} {k j : Nat} (hj : j < count)
    (h : run (exact ex pw mn mx) dt count { p := { intrinsic := v, current := c } }
      ([.event { kind := .setValueAtTime, value := 0, time := t0 },
        .event { kind := .linear, value := 1, time := t1 },
        .event { kind := .target d, value := sus, time := t1 },
        .event { kind := .target r, value := 0, time := t2 }] ++ List.replicate (k + 1) .block) = .ok s')
    (ht : t2 ≤ (k * count + j : Nat) * dt) :
    ∃ w x, s'.p.valueAt j = some x ∧ Hits sus (sus + (1 - sus) * ex (-(t2 - t1) / d)) w ∧
      Hits 0 (w * ex (-((k * count + j : Nat) * dt - t2) / r)) x := by
  obtain ⟨x, hx, hp⟩ := C96_envelope_partial (s := { p := { intrinsic := v, current := c } }) hm hpos hdt hc rfl
    rfl (L := [{ kind := .setValueAtTime, value := 0, time := t0 }, { kind := .linear, value := 1, time := t1 },
      { kind := .target d, value := sus, time := t1 }, { kind := .target r, value := 0, time := t2 }])
    ⟨by simp [Ev.isRamp, start, hd, hr], by simp [start], by
      simp [Sorted, start, h0, h1, h2, h0.trans h1, h1.trans h2, (h0.trans h1).trans h2],
      by simp [Ev.isRamp, Ev.Targets]⟩ (by simp) hj h
  simp only [zero_add] at hp
  obtain ⟨w, hw, hseg⟩ := hp [start v (((0 : Nat) : K) * dt), { kind := .setValueAtTime, value := 0, time := t0 },
    { kind := .linear, value := 1, time := t1 }, { kind := .target d, value := sus, time := t1 }]
    { kind := .target r, value := 0, time := t2 } [] rfl ht (by simp)
  obtain ⟨y1, -, y2, -, y3, hy3, y4, hy4, hy5⟩ := hw
  have hw : w = y4 := hy5
  subst hw
  have hy3' : y3 = 1 := hy3
  subst hy3'
  have h5 := hseg (by simp)
  refine ⟨w, x, hx, hy4, ?_⟩
  have h6 : Hits 0 (approach ex w 0 t2 r ((k * count + j : Nat) * dt)) x := h5
  simpa [approach] using h6

end

/-! ## Witnesses -/

/-- A monotone positive function in the place of `exp`. -/
def exQ (x : ℚ) : ℚ := if x < -1 then 1 / 10 ^ 12 else if x ≤ 0 then 1 else 1 + x

theorem exQ_mono : Monotone exQ := by
  intro x y h
  unfold exQ
  split_ifs <;> first | linarith | norm_num

theorem exQ_pos (x : ℚ) : 0 < exQ x := by
  unfold exQ
  split_ifs <;> first | linarith | norm_num

/-- Quanta of four frames with this function. -/
def demoQ (ops : List (Op ℚ ℚ)) : Option (Proc ℚ ℚ) :=
  match run (exact exQ (fun _ _ => 0) (-1000) 1000) 1 4 { p := { intrinsic := 0, current := 0 } } ops with
  | .ok s => some s.p
  | _ => none

/-- C96 is false while a sustain level waits for a release that is scheduled ahead: the note decays to 1/2 in
the first quantum and should stay there until the release at frame 20, but from frame 8 on the value is 13/2. -/
theorem C96_negated_sustain :
    (demoQ [setAt 1 0, targetAt (1/2) 0 1, targetAt 0 20 1, .block, .block]).map (·.buffer) =
      some [1/2, 1/2, 1/2, 1/2] ∧
    (demoQ [setAt 1 0, targetAt (1/2) 0 1, targetAt 0 20 1, .block, .block, .block]).map (·.buffer) =
      some [13/2] := by
  decide +kernel

/-- Hypotheses of the theorems met: a note whose release begins before the sustain level is reached, with a set
value event after it. -/
example : (demoQ [setAt 0 1, linAt 8 3, targetAt 4 3 100, targetAt 0 6 100, setAt 7 9, .block]).map (·.buffer) =
      some [0, 0, 4, 8] ∧
    (demoQ [setAt 0 1, linAt 8 3, targetAt 4 3 100, targetAt 0 6 100, setAt 7 9, .block, .block]).map
      (·.buffer) = some [8, 8, 8, 8] ∧
    (demoQ [setAt 0 1, linAt 8 3, targetAt 4 3 100, targetAt 0 6 100, setAt 7 9, .block, .block, .block]).map
      (·.buffer) = some [8, 7, 7, 7] := by
  decide +kernel

example : Envelope [start (0 : ℚ) 0, ⟨.setValueAtTime, 0, 1, none⟩, ⟨.linear, 8, 3, none⟩,
    ⟨.target 100, 4, 3, none⟩, ⟨.target 100, 0, 6, none⟩, ⟨.setValueAtTime, 7, 9, none⟩] :=
  ⟨by simp [Ev.isRamp, start], by simp [start], by norm_num [Sorted, start], by
    simp [Ev.isRamp, Ev.Targets]⟩

end Verif.Param
