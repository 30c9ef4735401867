import Verif.Param.SortProps
import Mathlib.Data.List.Induction

/-!
# Blocks of set value events and linear ramps: the value of every frame

`denote` is the value of frame `n` (counted from the start of the context) given the value and the event
that came last, and the pending events. It is preserved by rendering, and the buffers hold its values.
-/

namespace Verif.Param

section
variable {K V : Type} [Field K] [LinearOrder K] [IsStrictOrderedRing K] [FloorSemiring K]

/-- The frame an event time is rounded to. -/
def frameOf (dt t : K) : Nat := ⌊t / dt + 1 / 2⌋₊

theorem frameOf_mono {dt : K} (hdt : 0 < dt) {t u : K} (h : t ≤ u) : frameOf dt t ≤ frameOf dt u := by
  unfold frameOf
  apply Nat.floor_mono
  have := div_le_div_of_nonneg_right h hdt.le
  linarith

theorem index_eq {dt : K} (hdt : 0 < dt) (n0 count : Nat) (t : K) :
    (⟨n0 * dt, dt, count⟩ : Block K).index t = frameOf dt t - n0 := by
  unfold Block.index frameOf
  simp only
  rcases le_total (n0 * dt) t with h | h
  · rw [max_eq_left (by linarith)]
    have : (t - n0 * dt) / dt + 1 / 2 = t / dt + 1 / 2 - n0 := by field_simp; ring
    rw [this, Nat.floor_sub_natCast]
  · rw [max_eq_right (by linarith)]
    have h1 : t / dt ≤ n0 := by rw [div_le_iff₀ hdt]; exact h
    have h2 : ⌊t / dt + 1 / 2⌋₊ ≤ n0 := by
      rcases le_total (t / dt + 1 / 2) 0 with h0 | h0
      · rw [Nat.floor_of_nonpos h0]; omega
      · rw [← Nat.lt_succ_iff, Nat.floor_lt h0]
        push_cast
        linarith
    rw [Nat.sub_eq_zero_of_le h2]
    rw [zero_div, zero_add, Nat.floor_eq_zero]
    linarith

theorem count_le_of_next_le {dt : K} (hdt : 0 < dt) {n0 count : Nat} {t : K}
    (h : (⟨n0 * dt, dt, count⟩ : Block K).next ≤ t) : n0 + count ≤ frameOf dt t := by
  rcases Nat.eq_zero_or_pos count with hz | hz
  · subst hz
    unfold frameOf
    apply Nat.le_floor
    simp only [Block.next, Nat.cast_zero, mul_zero, zero_add] at h
    have : (n0 : K) ≤ t / dt := by rwa [le_div_iff₀ hdt]
    push_cast
    linarith
  · have := Block.count_le_index (b := ⟨n0 * dt, dt, count⟩) hdt h
    rw [index_eq hdt] at this
    simp only at this
    omega

theorem frameOf_le_of_le_next {dt : K} (hdt : 0 < dt) {n0 count : Nat} {t : K}
    (h : t ≤ (⟨n0 * dt, dt, count⟩ : Block K).next) : frameOf dt t ≤ n0 + count := by
  have h1 : t / dt ≤ (n0 + count : Nat) := by
    rw [div_le_iff₀ hdt]
    simp only [Block.next] at h
    push_cast
    linarith
  unfold frameOf
  rcases le_total (t / dt + 1 / 2) 0 with h0 | h0
  · rw [Nat.floor_of_nonpos h0]; omega
  · rw [← Nat.lt_succ_iff, Nat.floor_lt h0]
    push_cast at h1 ⊢
    linarith

theorem frameOf_nat {dt : K} (hdt : 0 < dt) (n : Nat) : frameOf dt (n * dt) = n := by
  unfold frameOf
  rw [mul_div_cancel_right₀ _ hdt.ne', Nat.floor_eq_iff (by positivity)]
  constructor
  · linarith
  · linarith

theorem le_frameOf {dt t : K} (hdt : 0 < dt) {n : Nat} (h : n * dt < t - dt / 2) : n < frameOf dt t := by
  unfold frameOf
  rw [← Nat.succ_le_iff]
  apply Nat.le_floor
  have : (n : K) + 1 / 2 < t / dt := by
    rw [lt_div_iff₀ hdt]; linarith
  push_cast
  linarith

theorem frameOf_le {dt t : K} (hdt : 0 < dt) {n : Nat} (h : t ≤ n * dt) : frameOf dt t ≤ n := by
  rw [← frameOf_nat hdt n]
  exact frameOf_mono hdt h

/-- The end of an automation event: the time of the event, or the time at which it is cancelled. -/
def Ev.stop (e : Ev K V) : K := e.cancelTime.getD e.time

/-- Value of a ramp from `l0` to `e` at time `t`. -/
def Ev.ramp (A : Arith K V) (l0 e : Ev K V) (t : K) : V :=
  match e.kind with
  | .exponential => A.exp l0.time (e.time - l0.time) l0.value e.value t
  | _ => A.lin l0.time (e.time - l0.time) l0.value e.value t

/-- The event as a starting point of the next one: a ramp that was cancelled ends at the cancel time with
the value it has then. -/
def settle (A : Arith K V) (last : Option (Ev K V)) (e : Ev K V) : Ev K V :=
  match e.cancelTime, last with
  | some c, some l0 => { e with time := c, value := l0.ramp A e c }
  | _, _ => e

/-- Value of frame `n` before the next event `e`: a ramp from the last event, or held. -/
def before (A : Arith K V) (dt : K) (n : Nat) (v : V) (last : Option (Ev K V)) (e : Ev K V) : V :=
  match e.isRamp, last with
  | true, some l0 => l0.ramp A e (n * dt)
  | _, _ => v

/-- Value of frame `n`. -/
def denote (A : Arith K V) (dt : K) (n : Nat) : V → Option (Ev K V) → List (Ev K V) → V
  | v, _, [] => v
  | v, last, e :: l =>
    if n < frameOf dt e.stop then before A dt n v last e
    else denote A dt n (settle A last e).value (some (settle A last e)) l

/-- Only set value events and ramps; set value events are not cancelled. -/
def Simple (l : List (Ev K V)) : Prop :=
  ∀ e ∈ l, (e.kind = .setValueAtTime ∧ e.cancelTime = none) ∨ e.kind = .linear ∨ e.kind = .exponential

/-- Additionally the value may be set. -/
def Steps (l : List (Ev K V)) : Prop :=
  ∀ e ∈ l, ((e.kind = .setValueAtTime ∨ e.kind = .setValue) ∧ e.cancelTime = none) ∨ e.kind = .linear ∨ e.kind = .exponential

omit [Field K] [LinearOrder K] [IsStrictOrderedRing K] [FloorSemiring K] in
theorem Simple.steps {l : List (Ev K V)} (h : Simple l) : Steps l :=
  fun e he => (h e he).imp (And.imp_left .inl) id

/-- Ramps have a predecessor, exponential ramps one with a value they can start from. -/
def Linked (A : Arith K V) : Option (Ev K V) → List (Ev K V) → Prop
  | _, [] => True
  | last, e :: l =>
    (e.isRamp = true → ∃ l0, last = some l0 ∧ (e.kind = .exponential → A.noRamp l0.value e.value = false)) ∧
      Linked A (some (settle A last e)) l

/-- Value and last event after the events of a list. -/
def consume (A : Arith K V) : V → Option (Ev K V) → List (Ev K V) → V × Option (Ev K V)
  | v, last, [] => (v, last)
  | _, last, e :: l => consume A (settle A last e).value (some (settle A last e)) l

/-- `(v, last)` (with the events `l` to come) is the state after the events `done`. The value is not relevant
if the next event is a ramp. -/
def After (A : Arith K V) (v0 : V) (last0 : Option (Ev K V)) (done : List (Ev K V)) (v : V)
    (last : Option (Ev K V)) (l : List (Ev K V)) : Prop :=
  last = (consume A v0 last0 done).2 ∧
    ((∃ e, l.head? = some e ∧ e.isRamp = true) ∨ v = (consume A v0 last0 done).1)

theorem denote_consume (A : Arith K V) (dt : K) {n : Nat} {v : V} {last : Option (Ev K V)}
    {done l : List (Ev K V)} (h : ∀ e ∈ done, frameOf dt e.stop ≤ n) :
    denote A dt n v last (done ++ l) =
      denote A dt n (consume A v last done).1 (consume A v last done).2 l := by
  induction done generalizing v last with
  | nil => rfl
  | cons e done ih =>
    have := h e (by simp)
    rw [List.cons_append, denote, if_neg (by omega), ih (fun x hx => h x (by simp [hx]))]
    rfl

theorem consume_append (A : Arith K V) (v : V) (last : Option (Ev K V)) (a b : List (Ev K V)) :
    consume A v last (a ++ b) = consume A (consume A v last a).1 (consume A v last a).2 b := by
  induction a generalizing v last with
  | nil => rfl
  | cons e a ih => exact ih _ _

theorem consume_snd (A : Arith K V) (v v' : V) (last : Option (Ev K V)) {a : List (Ev K V)} (h : a ≠ []) :
    consume A v last a = consume A v' last a := by
  cases a with
  | nil => exact absurd rfl h
  | cons e a => rfl

theorem linked_append {A : Arith K V} {v : V} {last : Option (Ev K V)} {a b : List (Ev K V)}
    (h : Linked A last (a ++ b)) : Linked A (consume A v last a).2 b := by
  induction a generalizing v last with
  | nil => exact h
  | cons e a ih => exact ih h.2

theorem consume_some (A : Arith K V) (v : V) (last : Option (Ev K V)) {a : List (Ev K V)} (h : a ≠ []) :
    ∃ x, consume A v last a = (x.value, some x) := by
  induction a generalizing v last with
  | nil => exact absurd rfl h
  | cons e a ih =>
    cases a with
    | nil => exact ⟨settle A last e, rfl⟩
    | cons b a => exact ih (settle A last e).value (some (settle A last e)) (by simp)

/-- sorted by end time -/
def SortedStop (l : List (Ev K V)) : Prop := l.Pairwise fun a b => a.stop ≤ b.stop

theorem extend_map (buf : List V) (stop : Nat) (f : Nat → V) :
    extend buf stop f = buf ++ (List.range' buf.length (stop - buf.length)).map f := rfl

theorem extend_extend (buf : List V) {a b : Nat} (f g h : Nat → V) (hab : a ≤ b)
    (hf : ∀ i, buf.length ≤ i → i < a → f i = h i) (hg : ∀ i, buf.length ≤ i → a ≤ i → i < b → g i = h i) :
    extend (extend buf a f) b g = extend buf b h := by
  rw [extend_map (extend buf a f), length_extend]
  rw [extend_map, extend_map]
  rcases le_total a buf.length with hle | hle
  · rw [Nat.sub_eq_zero_of_le hle, max_eq_left hle]
    simp only [List.range'_zero, List.map_nil, List.append_nil]
    congr 1
    apply List.map_congr_left
    intro i hi
    simp only [List.mem_range'_1] at hi
    exact hg i hi.1 (le_trans hle hi.1) (by omega)
  · rw [max_eq_right hle, List.append_assoc]
    congr 1
    have : b - buf.length = (a - buf.length) + (b - a) := by omega
    rw [this, ← List.range'_append_1, List.map_append]
    have e1 : buf.length + (a - buf.length) = a := by omega
    rw [e1]
    congr 1
    · apply List.map_congr_left
      intro i hi
      simp only [List.mem_range'_1] at hi
      exact hf i hi.1 (by omega)
    · apply List.map_congr_left
      intro i hi
      simp only [List.mem_range'_1] at hi
      exact hg i (by omega) hi.1 (by omega)

theorem extend_congr (buf : List V) {a : Nat} {f h : Nat → V}
    (hf : ∀ i, buf.length ≤ i → i < a → f i = h i) : extend buf a f = extend buf a h := by
  rw [extend_map, extend_map]
  congr 1
  apply List.map_congr_left
  intro i hi
  simp only [List.mem_range'_1] at hi
  exact hf i hi.1 (by omega)

/-- What the loop computes for set value events and ramps. -/
theorem loop_walk {A : Arith K V} {dt : K} (hdt : 0 < dt) {n0 count : Nat}
    {n : Nat} {p p' : Proc K V} (ha : p.aRate = true) (hs : Steps p.timeline)
    (hh : Linked A p.last p.timeline)
    (hz : ∀ e ∈ p.timeline, e.stop = 0 → n0 = 0)
    (h : loop A ⟨n0 * dt, dt, count⟩ n p = .ok p') :
    p'.buffer = extend p.buffer count (fun j => denote A dt (n0 + j) p.intrinsic p.last p.timeline) ∧
    (∀ m, n0 + count ≤ m → denote A dt m p'.intrinsic p'.last p'.timeline =
      denote A dt m p.intrinsic p.last p.timeline) ∧
    Linked A p'.last p'.timeline ∧ p'.aRate = true ∧ p'.timeline <:+ p.timeline ∧
    (∀ e ∈ p'.timeline, SortedStop p.timeline → n0 * dt + dt * count ≤ e.stop) ∧
    ∃ done, p.timeline = done ++ p'.timeline ∧
      After A p.intrinsic p.last done p'.intrinsic p'.last p'.timeline ∧
      (∀ e ∈ done, e.stop ≤ n0 * dt + dt * count) := by
  induction n generalizing p with
  | zero => cases h
  | succ n ih =>
    unfold loop at h
    cases hp : p.timeline with
    | nil =>
      simp only [computeEvent, hp, Res.bind, ha, if_true] at h
      cases h
      refine ⟨by simp [denote], by simp [denote], trivial, rfl, by simp, ?_, [], rfl, ⟨rfl, .inr rfl⟩, ?_⟩
      · simp
      · simp
    | cons e rest =>
      have hk := hs e (by rw [hp]; simp)
      have hs' : Steps rest := fun x hx => hs x (by rw [hp]; simp [hx])
      have hz' : ∀ x ∈ rest, x.stop = 0 → n0 = 0 := fun x hx => hz x (by rw [hp]; simp [hx])
      rw [hp] at hh
      -- popping the event `e`
      have pop : ∀ (q : Proc K V) (f : Nat → V), q.aRate = true → q.timeline = rest →
          q.last = some (settle A p.last e) →
          q.intrinsic = (settle A p.last e).value →
          q.buffer = extend p.buffer (min (frameOf dt e.stop - n0) count) f →
          (∀ i, p.buffer.length ≤ i → n0 + i < frameOf dt e.stop → i < count →
            f i = denote A dt (n0 + i) p.intrinsic p.last p.timeline) →
          e.stop ≤ n0 * dt + dt * count →
          loop A ⟨n0 * dt, dt, count⟩ n q = .ok p' →
          p'.buffer = extend p.buffer count (fun j => denote A dt (n0 + j) p.intrinsic p.last (e :: rest)) ∧
          (∀ m, n0 + count ≤ m → denote A dt m p'.intrinsic p'.last p'.timeline =
            denote A dt m p.intrinsic p.last (e :: rest)) ∧
          Linked A p'.last p'.timeline ∧ p'.aRate = true ∧ p'.timeline <:+ (e :: rest) ∧
          (∀ x ∈ p'.timeline, SortedStop (e :: rest) → n0 * dt + dt * count ≤ x.stop) ∧
          ∃ done, e :: rest = done ++ p'.timeline ∧
            After A p.intrinsic p.last done p'.intrinsic p'.last p'.timeline ∧
            (∀ x ∈ done, x.stop ≤ n0 * dt + dt * count) := by
        intro q f qa qt ql qi qb hf hle hq
        obtain ⟨i1, i2, i3, i4, i5, i6, done, i7, i8, i9⟩ := ih qa (by rw [qt]; exact hs')
          (by rw [qt, ql]; exact hh.2) (by rw [qt]; exact hz') hq
        rw [qt, ql, qi] at i1 i2
        rw [qt] at i5 i6 i7
        rw [ql, qi] at i8
        refine ⟨?_, ?_, i3, i4, i5.trans (List.suffix_cons _ _), ?_, e :: done, by rw [i7]; rfl, i8, ?_⟩
        · rw [i1, qb]
          apply extend_extend
          · exact Nat.min_le_right _ _
          · intro i hi hlt
            rw [hf i hi (by omega) (by omega), hp]
          · intro i hi hle hlt
            rw [denote, if_neg (by omega)]
        · intro m hm
          rw [i2 m hm, denote, if_neg]
          have := frameOf_le_of_le_next (n0 := n0) (count := count) hdt (t := e.stop)
            (by simp only [Block.next]; linarith)
          omega
        · intro x hx hsort
          exact i6 x hx (List.pairwise_cons.1 hsort).2
        · intro x hx
          rcases List.mem_cons.1 hx with rfl | hx
          · exact hle
          · exact i9 x hx
      -- staying at the event `e`
      have stay : ∀ (q : Proc K V) (f : Nat → V), q.aRate = true → q.timeline = e :: rest →
          q.last = p.last → (e.isRamp = true ∨ q.intrinsic = p.intrinsic) →
          q.buffer = extend p.buffer (min (frameOf dt e.stop - n0) count) f →
          (∀ i, p.buffer.length ≤ i → n0 + i < frameOf dt e.stop → i < count →
            f i = denote A dt (n0 + i) p.intrinsic p.last p.timeline) →
          (⟨n0 * dt, dt, count⟩ : Block K).next ≤ e.stop →
          q = p' →
          p'.buffer = extend p.buffer count (fun j => denote A dt (n0 + j) p.intrinsic p.last (e :: rest)) ∧
          (∀ m, n0 + count ≤ m → denote A dt m p'.intrinsic p'.last p'.timeline =
            denote A dt m p.intrinsic p.last (e :: rest)) ∧
          Linked A p'.last p'.timeline ∧ p'.aRate = true ∧ p'.timeline <:+ (e :: rest) ∧
          (∀ x ∈ p'.timeline, SortedStop (e :: rest) → n0 * dt + dt * count ≤ x.stop) ∧
          ∃ done, e :: rest = done ++ p'.timeline ∧
            After A p.intrinsic p.last done p'.intrinsic p'.last p'.timeline ∧
            (∀ x ∈ done, x.stop ≤ n0 * dt + dt * count) := by
        rintro q f qa qt ql qi qb hf hnext rfl
        have hcount := count_le_of_next_le hdt hnext
        refine ⟨?_, ?_, ?_, qa, by rw [qt]; exact List.suffix_refl _, ?_, [], by rw [qt]; rfl, ⟨ql, ?_⟩, ?_⟩
        · rw [qb, Nat.min_eq_right (by omega)]
          apply extend_congr
          intro i hi hlt
          rw [hf i hi (by omega) hlt, hp]
        · intro m hm
          rw [qt, ql]
          simp only [denote]
          split
          · rcases qi with qi | qi
            · obtain ⟨l0, hl0, _⟩ := hh.1 qi
              simp [before, qi, hl0]
            · rw [qi]
          · rfl
        · rw [ql, qt]
          exact hh
        · intro x hx hsort
          rw [qt] at hx
          simp only [Block.next] at hnext
          rcases List.mem_cons.1 hx with rfl | hx
          · linarith
          · have := (List.pairwise_cons.1 hsort).1 x hx
            linarith
        · rcases qi with qi | qi
          · exact .inl ⟨e, by rw [qt]; rfl, qi⟩
          · exact .inr qi
        · simp
      -- a ramp
      have ramp : ∀ (f : K → K → V → V → K → V) (l0 : Ev K V), p.last = some l0 → e.isRamp = true →
          (∀ t, f l0.time (e.time - l0.time) l0.value e.value t = l0.ramp A e t) →
          computeEvent A p ⟨n0 * dt, dt, count⟩ = .ok (computeRamp f p ⟨n0 * dt, dt, count⟩ e l0 rest) →
          p'.buffer = extend p.buffer count (fun j => denote A dt (n0 + j) p.intrinsic p.last (e :: rest)) ∧
          (∀ m, n0 + count ≤ m → denote A dt m p'.intrinsic p'.last p'.timeline =
            denote A dt m p.intrinsic p.last (e :: rest)) ∧
          Linked A p'.last p'.timeline ∧ p'.aRate = true ∧ p'.timeline <:+ (e :: rest) ∧
          (∀ x ∈ p'.timeline, SortedStop (e :: rest) → n0 * dt + dt * count ≤ x.stop) ∧
          ∃ done, e :: rest = done ++ p'.timeline ∧
            After A p.intrinsic p.last done p'.intrinsic p'.last p'.timeline ∧
            (∀ x ∈ done, x.stop ≤ n0 * dt + dt * count) := by
        intro f l0 hl0 hr hf hce
        rw [hce] at h
        simp only [computeRamp, ha, if_true, hf, index_eq hdt] at h
        rw [show e.cancelTime.getD e.time = e.stop from rfl] at h
        have hval : ∀ i, p.buffer.length ≤ i → n0 + i < frameOf dt e.stop → i < count →
            l0.ramp A e ((⟨n0 * dt, dt, count⟩ : Block K).frame i) =
            denote A dt (n0 + i) p.intrinsic p.last p.timeline := by
          intro i _ hlt _
          rw [hp, denote, if_pos hlt]
          simp only [before, hr, hl0, Block.frame]
          congr 1
          push_cast
          ring
        by_cases hle : (⟨n0 * dt, dt, count⟩ : Block K).next ≤ e.stop
        · rw [if_pos hle] at h
          simp only [Res.bind, if_true] at h
          cases h
          refine stay _ _ ?_ ?_ ?_ (.inl hr) ?_ hval hle rfl
          · first | exact ha | rfl
          · exact hp
          · rfl
          · rfl
        · rw [if_neg hle] at h
          have hle' : e.stop ≤ n0 * dt + dt * count := by
            have := (not_le.1 hle).le
            simp only [Block.next] at this
            linarith
          cases hc : e.cancelTime with
          | none =>
            rw [hc] at h
            simp only [Res.bind, Bool.false_eq_true, if_false] at h
            refine pop _ _ ?_ ?_ ?_ ?_ ?_ hval hle' h
            · first | exact ha | rfl
            · rfl
            · simp [settle, hc]
            · simp [settle, hc]
            · rfl
          | some c =>
            have hst : e.stop = c := by simp [Ev.stop, hc]
            rw [hc] at h
            simp only [Res.bind, Bool.false_eq_true, if_false] at h
            refine pop _ _ ?_ ?_ ?_ ?_ ?_ hval hle' h
            · first | exact ha | rfl
            · rfl
            · simp [settle, hc, hl0, hst]
            · simp [settle, hc, hl0, hst]
            · rfl
      rcases hk with ⟨hk, hc⟩ | hk | hk
      · have hst : e.stop = e.time := by simp [Ev.stop, hc]
        have hzero : e.at (⟨n0 * dt, dt, count⟩ : Block K) = e.time := by
          unfold Ev.at
          split
          · rename_i h0
            have := hz e (by rw [hp]; simp) (by rw [hst, h0])
            simp [this, h0]
          · rfl
        have hset : settle A p.last e = e := by simp [settle, hc]
        have hval : ∀ i, p.buffer.length ≤ i → n0 + i < frameOf dt e.stop → i < count →
            p.intrinsic = denote A dt (n0 + i) p.intrinsic p.last p.timeline := by
          intro i _ hlt _
          rw [hp, denote, if_pos hlt]
          rcases hk with hk | hk <;> simp [before, Ev.isRamp, hk]
        rw [show computeEvent A p ⟨n0 * dt, dt, count⟩ = computeSetValue p ⟨n0 * dt, dt, count⟩ by
          rcases hk with hk | hk <;> simp only [computeEvent, hp, hk]] at h
        simp only [hp, computeSetValue, ha, if_true, hzero, index_eq hdt] at h
        by_cases hlt : (⟨n0 * dt, dt, count⟩ : Block K).next < e.time
        · rw [if_pos hlt] at h
          simp only [Res.bind, if_true] at h
          cases h
          refine stay _ (fun _ => p.intrinsic) ?_ ?_ ?_ (.inr ?_) ?_ hval (by rw [hst]; exact hlt.le) rfl
          · rfl
          · rfl
          · rfl
          · rfl
          · rw [hst]
        · rw [if_neg hlt] at h
          simp only [Res.bind, Bool.false_eq_true, if_false] at h
          refine pop _ (fun _ => p.intrinsic) ?_ ?_ ?_ ?_ ?_ hval ?_ h
          · rfl
          · rfl
          · rw [hset]
          · rw [hset]
          · rw [hst]
          · have := not_lt.1 hlt
            simp only [Block.next] at this
            rw [hst]
            linarith
      · have hr : e.isRamp = true := by simp [Ev.isRamp, hk]
        obtain ⟨l0, hl0, _⟩ := hh.1 hr
        refine ramp A.lin l0 hl0 hr (fun t => ?_) ?_
        · simp [Ev.ramp, hk]
        · simp only [computeEvent, hp, hk, computeLinear, hl0]
      · have hr : e.isRamp = true := by simp [Ev.isRamp, hk]
        obtain ⟨l0, hl0, hno⟩ := hh.1 hr
        refine ramp A.exp l0 hl0 hr (fun t => ?_) ?_
        · simp [Ev.ramp, hk]
        · simp only [computeEvent, hp, hk, computeExp, hl0, hno hk, Bool.false_eq_true, if_false]

/-- One quantum of an a-rate parameter: the value of each frame is `denote`, which is preserved. -/
theorem computeBuffer_walk {A : Arith K V} {dt : K} (hdt : 0 < dt) {n0 count : Nat} (hcount : 2 ≤ count)
    {p p' : Proc K V} (ha : p.aRate = true) (hs : Steps p.timeline) (hsort : SortedStop p.timeline)
    (hh : Linked A p.last p.timeline) (hz : ∀ e ∈ p.timeline, e.stop = 0 → n0 = 0)
    (h : computeBuffer A p ⟨n0 * dt, dt, count⟩ = .ok p') :
    (∀ j < count, p'.valueAt j = some (denote A dt (n0 + j) p.intrinsic p.last p.timeline)) ∧
    (∀ m, n0 + count ≤ m → denote A dt m p'.intrinsic p'.last p'.timeline =
      denote A dt m p.intrinsic p.last p.timeline) ∧
    Linked A p'.last p'.timeline ∧ p'.aRate = true ∧ p'.timeline <:+ p.timeline ∧
    (∀ e ∈ p'.timeline, (n0 + count : Nat) * dt ≤ e.stop) ∧
    ∃ done, p.timeline = done ++ p'.timeline ∧
      After A p.intrinsic p.last done p'.intrinsic p'.last p'.timeline ∧
      (∀ e ∈ done, e.stop ≤ (n0 + count : Nat) * dt) := by
  have hnext : ((n0 + count : Nat) : K) * dt = n0 * dt + dt * count := by push_cast; ring
  rw [hnext]
  unfold computeBuffer at h
  dsimp only at h
  have hc' : ∀ (c : V) (buf : List V), isConstant { p with current := c, buffer := buf }
    (⟨n0 * dt, dt, count⟩ : Block K) = isConstant p ⟨n0 * dt, dt, count⟩ := fun _ _ => rfl
  rw [hc'] at h
  by_cases hc : isConstant p (⟨n0 * dt, dt, count⟩ : Block K) = true
  · rw [if_pos hc] at h
    simp only [hc, Bool.or_true, if_true] at h
    cases h
    -- the next event is a set value event after the quantum
    have hfirst : ∀ e rest, p.timeline = e :: rest → e.isRamp = false ∧ e.stop = e.time ∧
        n0 * dt + dt * count ≤ e.stop := by
      intro e rest hp
      unfold isConstant at hc
      rw [hp] at hc
      simp only [Bool.and_eq_true, Bool.not_eq_true', Block.next] at hc
      have hst : e.stop = e.time := by
        rcases hs e (by rw [hp]; simp) with ⟨_, h2⟩ | h2 | h2
        · simp [Ev.stop, h2]
        · simp [Ev.isRamp, h2] at hc
        · simp [Ev.isRamp, h2] at hc
      exact ⟨hc.1, hst, by rw [hst]; linarith [of_decide_eq_true hc.2]⟩
    refine ⟨?_, fun _ _ => rfl, hh, ha, List.suffix_refl _, ?_, [], rfl, ⟨rfl, .inr rfl⟩, by simp⟩
    · intro j hj
      simp only [Proc.valueAt, List.length_singleton, if_true, List.getElem?_cons_zero]
      cases hp : p.timeline with
      | nil => rfl
      | cons e rest =>
        obtain ⟨f1, f2, f3⟩ := hfirst e rest hp
        have := count_le_of_next_le (n0 := n0) (count := count) hdt (t := e.stop)
          (by simp only [Block.next]; linarith)
        rw [denote, if_pos (by omega)]
        simp [before, f1]
    · intro e he
      simp only at he
      cases hp : p.timeline with
      | nil => rw [hp] at he; simp at he
      | cons e0 rest =>
        obtain ⟨f1, f2, f3⟩ := hfirst e0 rest hp
        rw [hp] at he hsort
        rcases List.mem_cons.1 he with rfl | he
        · exact f3
        · linarith [(List.pairwise_cons.1 hsort).1 e he]
  · rw [if_neg hc] at h
    simp only [ha, Bool.not_true, Bool.false_or, hc, Bool.false_eq_true, if_false] at h
    have hw := loop_walk (count := count) hdt ?_ ?_ ?_ ?_ h
    · obtain ⟨w1, w2, w3, w4, w5, w6, w7⟩ := hw
      refine ⟨?_, w2, w3, w4, w5, fun e he => w6 e he hsort, w7⟩
      intro j hj
      have hlen : p'.buffer.length = count := by
        rw [w1, length_extend]; simp
      rw [Proc.valueAt, if_neg (by omega), w1]
      simp only [extend, List.nil_append, List.length_nil, Nat.sub_zero]
      rw [List.getElem?_map, List.getElem?_range' hj]
      simp
    · rfl
    · exact hs
    · exact hh
    · exact hz

end

end Verif.Param
