import Verif.Param.SortProps
import Verif.Param.PanicProps

/-!
# C108: the same automation, later

Automation that is scheduled and rendered a while later gives the same values, that much later.
-/

namespace Verif.Param

section
variable {K V : Type} [Field K] [LinearOrder K] [IsStrictOrderedRing K] [FloorSemiring K]

/-- The same event, `s` later. Setting the attribute `value` (`AudioParam::set_value`, param.rs l.403-428) has no time: it
takes place at once, the event is marked with time 0. -/
def Ev.later (s : K) (e : Ev K V) : Ev K V :=
  match e.kind with
  | .setValue => e
  | _ => { e with time := e.time + s, cancelTime := e.cancelTime.map (· + s) }

/-- the same operation, `s` later -/
def Op.later (s : K) : Op K V → Op K V
  | .event e => .event (e.later s)
  | op => op

/-- The formulas depend on the time since the start of the event only. -/
structure Invariant (A : Arith K V) : Prop where
  lin : ∀ s t0 d v0 v1 t, A.lin (t0 + s) d v0 v1 (t + s) = A.lin t0 d v0 v1 t
  exp : ∀ s t0 d v0 v1 t, A.exp (t0 + s) d v0 v1 (t + s) = A.exp t0 d v0 v1 t
  tgt : ∀ s t0 d v0 v1 t, A.tgt (t0 + s) d v0 v1 (t + s) = A.tgt t0 d v0 v1 t
  curve : ∀ s t0 d vs t, A.curve (t0 + s) d vs (t + s) = A.curve t0 d vs t

/-- the event of `set_value`, or an event with a time after 0 -/
def Dated (e : Ev K V) : Prop :=
  match e.kind with
  | .setValue => e.time = 0 ∧ e.cancelTime = none
  | _ => 0 < e.time ∧ ∀ c, e.cancelTime = some c → 0 < c

/-! ## proofs -/

/-- the last event, later -/
def lastLater (s : K) (e : Ev K V) : Ev K V :=
  { e with time := e.time + s, cancelTime := e.cancelTime.map (· + s) }

def Proc.later (s : K) (p : Proc K V) : Proc K V :=
  { p with timeline := p.timeline.map (Ev.later s), last := p.last.map (lastLater s) }

def Block.later (s : K) (b : Block K) : Block K := { b with time := b.time + s }

def Res.map {α β : Type} (f : α → β) : Res α → Res β
  | .ok a => .ok (f a)
  | .panic => .panic
  | .fuel => .fuel

omit [LinearOrder K] [IsStrictOrderedRing K] [FloorSemiring K] in
theorem later_kind (s : K) (e : Ev K V) : (e.later s).kind = e.kind := by
  unfold Ev.later; split <;> rfl

omit [LinearOrder K] [IsStrictOrderedRing K] [FloorSemiring K] in
theorem later_value (s : K) (e : Ev K V) : (e.later s).value = e.value := by
  unfold Ev.later; split <;> rfl

omit [LinearOrder K] [IsStrictOrderedRing K] [FloorSemiring K] in
theorem later_of_ne {s : K} {e : Ev K V} (h : e.kind ≠ .setValue) : e.later s = lastLater s e := by
  unfold Ev.later; split
  · contradiction
  · rfl

omit [LinearOrder K] [IsStrictOrderedRing K] [FloorSemiring K] in
theorem later_isRamp (s : K) (e : Ev K V) : (e.later s).isRamp = e.isRamp := by
  unfold Ev.isRamp; rw [later_kind]

theorem Dated.pos {e : Ev K V} (h : Dated e) (hk : e.kind ≠ .setValue) :
    0 < e.time ∧ ∀ c, e.cancelTime = some c → 0 < c := by
  unfold Dated at h; split at h
  · contradiction
  · exact h

theorem Dated.zero {e : Ev K V} (h : Dated e) (hk : e.kind = .setValue) : e.time = 0 ∧ e.cancelTime = none := by
  unfold Dated at h; rw [hk] at h; exact h

omit [IsStrictOrderedRing K] in
theorem later_index (s : K) (b : Block K) (t : K) : (b.later s).index (t + s) = b.index t := by
  unfold Block.index Block.later
  dsimp only
  rw [add_sub_add_right_eq_sub]

omit [LinearOrder K] [IsStrictOrderedRing K] [FloorSemiring K] in
theorem later_frame (s : K) (b : Block K) (i : Nat) : (b.later s).frame i = b.frame i + s := by
  unfold Block.frame Block.later; ring

omit [LinearOrder K] [IsStrictOrderedRing K] [FloorSemiring K] in
theorem later_next (s : K) (b : Block K) : (b.later s).next = b.next + s := by
  unfold Block.next Block.later; ring

theorem later_at {s : K} (hs : 0 ≤ s) {e : Ev K V} (h : Dated e) (b : Block K) :
    (e.later s).at (b.later s) = e.at b + s := by
  unfold Ev.at
  by_cases hk : e.kind = .setValue
  · have : e.later s = e := by unfold Ev.later; rw [hk]
    rw [this, (h.zero hk).1, if_pos rfl, if_pos rfl]; rfl
  · have hp := (h.pos hk).1
    rw [later_of_ne hk]
    unfold lastLater
    dsimp only
    rw [if_neg (by linarith), if_neg (by linarith)]

theorem later_setValue {s : K} (hs : 0 ≤ s) {p : Proc K V} (hd : ∀ e ∈ p.timeline, Dated e) (b : Block K) :
    computeSetValue (p.later s) (b.later s) = (computeSetValue p b).map fun r => (r.1, r.2.later s) := by
  unfold computeSetValue
  cases hp : p.timeline with
  | nil => simp [Proc.later, hp, Res.map]
  | cons e rest =>
    have he := later_at hs (hd e (by rw [hp]; simp)) b
    have hlast : ({ e.later s with time := e.at b + s } : Ev K V) = lastLater s { e with time := e.at b } := by
      by_cases hk : e.kind = .setValue
      · have : e.later s = e := by unfold Ev.later; rw [hk]
        rw [this]
        unfold lastLater
        simp [((hd e (by rw [hp]; simp)).zero hk).2]
      · rw [later_of_ne hk]; rfl
    simp only [Proc.later, hp, List.map_cons, he, later_next, later_index]
    rw [hlast, later_value]
    have hlt : (b.next + s < e.at b + s) ↔ b.next < e.at b := by constructor <;> intro h <;> linarith
    simp only [hlt]
    have hb : (b.later s).count = b.count := rfl
    rw [hb]
    split
    · simp [Res.map, Proc.later]
    · simp [Res.map, Proc.later]

theorem later_ramp {s : K} {f : K → K → V → V → K → V}
    (hf : ∀ t0 d v0 v1 t, f (t0 + s) d v0 v1 (t + s) = f t0 d v0 v1 t) (p : Proc K V) (b : Block K) {e l : Ev K V}
    (hk : e.kind ≠ .setValue) {rest : List (Ev K V)} (hp : p.timeline = e :: rest) :
    computeRamp f (p.later s) (b.later s) (e.later s) (lastLater s l) (rest.map (Ev.later s)) =
      ((computeRamp f p b e l rest).1, (computeRamp f p b e l rest).2.later s) := by
  rw [later_of_ne hk]
  have hend : ((lastLater s e).cancelTime.getD (lastLater s e).time) = e.cancelTime.getD e.time + s := by
    unfold lastLater; cases e.cancelTime <;> rfl
  have hdur : (lastLater s e).time - (lastLater s l).time = e.time - l.time := by unfold lastLater; dsimp only; ring
  unfold computeRamp
  dsimp only
  rw [hend, hdur]
  simp only [later_index, later_frame, later_next, add_le_add_iff_right]
  have hl : ∀ t, f (lastLater s l).time (e.time - l.time) (lastLater s l).value (lastLater s e).value (t + s) =
      f l.time (e.time - l.time) l.value e.value t := fun t => hf _ _ _ _ _
  simp only [hl]
  have hb : (b.later s).count = b.count := rfl
  rw [hb]
  split
  · simp [Proc.later, hp, later_of_ne hk]
  · cases hc : e.cancelTime with
    | none =>
      have hc' : (lastLater s e).cancelTime = none := by simp [lastLater, hc]
      rw [hc']
      rfl
    | some c =>
      have hc' : (lastLater s e).cancelTime = some (c + s) := by simp [lastLater, hc]
      rw [hc']
      simp only [Option.getD_some, hl]
      rfl

theorem later_target {A : Arith K V} (hA : Invariant A) {s : K} (hs : 0 ≤ s) {p : Proc K V} (hi : Inv p)
    (hd : ∀ e ∈ p.timeline, Dated e) (b : Block K) {tau : K} {e : Ev K V} {rest : List (Ev K V)}
    (hp : p.timeline = e :: rest) (hk : e.kind ≠ .setValue) :
    computeTarget A (p.later s) (b.later s) tau = (computeTarget A p b tau).map fun r => (r.1, r.2.later s) := by
  have hrest : ∀ n more, rest = n :: more → n.kind ≠ .setValue := by
    intro n more hr hn
    have h1 := hi.sorted
    rw [hp, hr] at h1
    have h2 := (List.pairwise_cons.1 h1).1 n (by simp)
    have h3 := ((hd n (by rw [hp, hr]; simp)).zero hn).1
    have h4 := ((hd e (by rw [hp]; simp)).pos hk).1
    linarith
  have hnext : targetNext (b.later s) (rest.map (Ev.later s)) = (targetNext b rest).map (· + s) := by
    cases hr : rest with
    | nil => rfl
    | cons n more =>
      have hn := hrest n more hr
      simp only [List.map_cons, targetNext, later_isRamp]
      rw [later_of_ne hn, later_next]
      simp only [lastLater, add_lt_add_iff_right]
      split
      · rfl
      · split <;> rfl
  have hend : targetEnd (b.later s) (lastLater s e) (rest.map (Ev.later s)) = (targetEnd b e rest).map (· + s) := by
    unfold targetEnd lastLater
    cases hc : e.cancelTime with
    | none => exact hnext
    | some c =>
      simp only [Option.map_some, later_next, add_lt_add_iff_right]
      split
      · rfl
      · exact hnext
  unfold computeTarget
  cases hl : p.last with
  | none => simp [Proc.later, hp, hl, Res.map]
  | some l =>
    simp only [Proc.later, hp, hl, List.map_cons, Option.map_some]
    rw [later_of_ne hk, hend, later_next]
    have hg : ∀ t, A.tgt (lastLater s e).time tau (lastLater s l).value (lastLater s e).value (t + s) =
        A.tgt e.time tau l.value e.value t := fun t => hA.tgt _ _ _ _ _ _
    have hgd : ((targetEnd b e rest).map (· + s)).getD (b.next + s) = (targetEnd b e rest).getD b.next + s := by
      cases targetEnd b e rest <;> rfl
    have hfr : ∀ i, (b.frame i + s - (lastLater s e).time < 0) ↔ (b.frame i - e.time < 0) := by
      intro i; simp only [lastLater, add_sub_add_right_eq_sub]
    have hb : (b.later s).count = b.count := rfl
    simp only [hgd, later_index, later_frame, hfr, hg, hb]
    cases ht : targetEnd b e rest with
    | none =>
      simp only [Option.map_none]
      have hv : (lastLater s e).value = e.value := rfl
      simp only [hv]
      split
      · simp [Res.map, Proc.later, Ev.later, hl]
      · simp [Res.map, Proc.later, hp, hl, later_of_ne hk]
    | some t =>
      simp only [Option.map_some, hg]
      rfl

theorem later_curve {A : Arith K V} (hA : Invariant A) {s : K} {p : Proc K V} (b : Block K) {dur : K} {vs : List V}
    {e : Ev K V} {rest : List (Ev K V)} (hp : p.timeline = e :: rest) (hk : e.kind ≠ .setValue) :
    computeCurve A (p.later s) (b.later s) dur vs = (computeCurve A p b dur vs).map fun r => (r.1, r.2.later s) := by
  unfold computeCurve
  simp only [Proc.later, hp, List.map_cons]
  rw [later_of_ne hk]
  have hend : (lastLater s e).cancelTime.getD ((lastLater s e).time + dur) = e.cancelTime.getD (e.time + dur) + s := by
    unfold lastLater
    cases e.cancelTime with
    | none => simp only [Option.map_none, Option.getD_none]; ring
    | some c => rfl
  have hg : ∀ t, A.curve (lastLater s e).time dur vs (t + s) = A.curve e.time dur vs t := fun t => hA.curve _ _ _ _ _
  have hfr : ∀ i, (b.frame i + s < (lastLater s e).time) ↔ (b.frame i < e.time) := by
    intro i; simp only [lastLater, add_lt_add_iff_right]
  have hb : (b.later s).count = b.count := rfl
  have hci : (lastLater s e).cancelTime.isSome = e.cancelTime.isSome := by simp [lastLater]
  simp only [hend, later_index, later_frame, later_next, hfr, hg, hb, hci, add_le_add_iff_right]
  split
  · rfl
  · split
    · split
      · rfl
      · simp [Res.map, Proc.later, hp, later_of_ne hk]
    · split
      · rfl
      · simp [Res.map, Proc.later, lastLater]

theorem later_event {A : Arith K V} (hA : Invariant A) {s : K} (hs : 0 ≤ s) {p : Proc K V} (hi : Inv p)
    (hd : ∀ e ∈ p.timeline, Dated e) (b : Block K) :
    computeEvent A (p.later s) (b.later s) = (computeEvent A p b).map fun r => (r.1, r.2.later s) := by
  unfold computeEvent
  cases hp : p.timeline with
  | nil =>
    simp [Proc.later, hp, Res.map, Block.later]
  | cons e rest =>
    have htl : (p.later s).timeline = e.later s :: rest.map (Ev.later s) := by simp [Proc.later, hp]
    have hlast : (p.later s).last = p.last.map (lastLater s) := rfl
    rw [htl]
    dsimp only
    rw [later_kind]
    cases hk : e.kind with
    | setValue => exact later_setValue hs hd b
    | setValueAtTime => exact later_setValue hs hd b
    | linear =>
      have hne : e.kind ≠ .setValue := by rw [hk]; simp
      dsimp only
      unfold computeLinear
      rw [htl, hlast, hp]
      cases hl : p.last with
      | none => rfl
      | some l =>
        simp only [Option.map_some, later_ramp (fun _ _ _ _ _ => hA.lin s _ _ _ _ _) p b hne hp, Res.map]
    | exponential =>
      have hne : e.kind ≠ .setValue := by rw [hk]; simp
      dsimp only
      unfold computeExp
      rw [htl, hlast, hp]
      cases hl : p.last with
      | none => rfl
      | some l =>
        simp only [Option.map_some, later_ramp (fun _ _ _ _ _ => hA.exp s _ _ _ _ _) p b hne hp]
        have hv : (lastLater s l).value = l.value := rfl
        rw [hv, later_value]
        split
        · simp only [Res.map, Proc.later, hl]
          rw [later_of_ne hne]
          cases hc : e.cancelTime <;> simp [lastLater, Ev.later, hc]
        · rfl
    | target tau =>
      have hne : e.kind ≠ .setValue := by rw [hk]; simp
      exact later_target hA hs hi hd b hp hne
    | curve dur vs =>
      have hne : e.kind ≠ .setValue := by rw [hk]; simp
      exact later_curve hA b hp hne
    | cancel => rfl
    | cancelHold => rfl

theorem Dated.event {A : Arith K V} {p : Proc K V} (hd : ∀ e ∈ p.timeline, Dated e) {b : Block K} (hn : 0 < b.next)
    {r : Bool × Proc K V} (h : computeEvent A p b = .ok r) : ∀ e ∈ r.2.timeline, Dated e := by
  have htail : ∀ {e rest}, p.timeline = e :: rest → ∀ x ∈ rest, Dated x := fun hp x hx => hd x (by rw [hp]; simp [hx])
  have hramp : ∀ f e l rest, p.timeline = e :: rest → computeRamp f p b e l rest = r → ∀ e ∈ r.2.timeline, Dated e := by
    rintro f e l rest hp rfl
    unfold computeRamp
    dsimp only
    split
    · exact hd
    · split
      · exact htail hp
      · exact htail hp
  have hset : computeSetValue p b = .ok r → ∀ e ∈ r.2.timeline, Dated e := by
    intro h
    unfold computeSetValue at h
    split at h
    · cases h
    · rename_i e rest hp
      dsimp only at h
      split at h
      · cases h; exact hd
      · cases h; exact htail hp
  unfold computeEvent at h
  split at h
  · cases h; exact hd
  · rename_i e rest hp
    split at h
    · exact hset h
    · exact hset h
    · unfold computeLinear at h
      split at h
      · rename_i e' rest' l hp' hl
        exact hramp _ _ _ _ hp' (by cases h; rfl)
      · cases h
    · rename_i hk
      unfold computeExp at h
      split at h
      · rename_i e' rest' l hp' hl
        split at h
        · cases h
          intro x hx
          simp only [List.mem_cons] at hx
          rcases hx with rfl | hx
          · rw [hp] at hp'
            cases hp'
            have hpos := (hd e (by rw [hp]; simp)).pos (by rw [hk]; simp)
            show 0 < _ ∧ _
            refine ⟨?_, by simp⟩
            cases hc : e.cancelTime with
            | none => exact hpos.1
            | some c => exact hpos.2 c hc
          · exact htail hp' x hx
        · exact hramp _ _ _ _ hp' (by cases h; rfl)
      · cases h
    · unfold computeTarget at h
      split at h
      · rename_i e' rest' l hp' hl
        dsimp only at h
        split at h
        · split at h
          · cases h
            intro x hx
            simp only [List.mem_cons] at hx
            rcases hx with rfl | hx
            · exact ⟨hn, by simp⟩
            · exact htail hp' x hx
          · cases h; exact hd
        · cases h; exact htail hp'
      · cases h
    · unfold computeCurve at h
      split at h
      · cases h
      · rename_i e' rest' hp'
        dsimp only at h
        split at h
        · cases h
        · split at h
          · split at h
            · cases h
            · cases h; exact hd
          · split at h
            · cases h
            · cases h; exact htail hp'
    · cases h
    · cases h

theorem later_loop {A : Arith K V} (hA : Invariant A) {s : K} (hs : 0 ≤ s) {b : Block K} (hn : 0 < b.next) (n : Nat)
    {p : Proc K V} (hi : Inv p) (hd : ∀ e ∈ p.timeline, Dated e) :
    loop A (b.later s) n (p.later s) = (loop A b n p).map (Proc.later s) := by
  induction n generalizing p with
  | zero => rfl
  | succ n ih =>
    unfold loop
    rw [later_event hA hs hi hd]
    cases h : computeEvent A p b with
    | panic => rfl
    | fuel => rfl
    | ok r =>
      simp only [Res.map, Res.bind]
      split
      · rfl
      · exact ih (hi.computeEvent h) (Dated.event hd hn h)

theorem Dated.loop {A : Arith K V} {b : Block K} (hn : 0 < b.next) (n : Nat)
    {p p' : Proc K V} (hd : ∀ e ∈ p.timeline, Dated e) (h : loop A b n p = .ok p') : ∀ e ∈ p'.timeline, Dated e := by
  induction n generalizing p with
  | zero => cases h
  | succ n ih =>
    unfold Param.loop at h
    cases hc : Param.computeEvent A p b with
    | panic => rw [hc] at h; cases h
    | fuel => rw [hc] at h; cases h
    | ok r =>
      rw [hc] at h
      simp only [Res.bind] at h
      split at h
      · cases h; exact Dated.event hd hn hc
      · exact ih (Dated.event hd hn hc) h

theorem later_isConstant {s : K} (hs : 0 ≤ s) {p : Proc K V} (hd : ∀ e ∈ p.timeline, Dated e) {b : Block K}
    (hn : 0 < b.next) : isConstant (p.later s) (b.later s) = isConstant p b := by
  unfold isConstant
  cases hp : p.timeline with
  | nil => simp [Proc.later, hp]
  | cons e rest =>
    simp only [Proc.later, hp, List.map_cons, later_isRamp, later_next]
    congr 1
    have he := hd e (by rw [hp]; simp)
    by_cases hk : e.kind = .setValue
    · have : e.later s = e := by unfold Ev.later; rw [hk]
      rw [this, (he.zero hk).1]
      rw [decide_eq_false (by linarith), decide_eq_false (by linarith)]
    · rw [later_of_ne hk]
      simp [lastLater]

theorem later_buffer {A : Arith K V} (hA : Invariant A) {s : K} (hs : 0 ≤ s) {b : Block K} (hn : 0 < b.next)
    {p : Proc K V} (hi : Inv p) (hd : ∀ e ∈ p.timeline, Dated e) :
    computeBuffer A (p.later s) (b.later s) = (computeBuffer A p b).map (Proc.later s) := by
  unfold computeBuffer
  dsimp only
  have h1 := later_isConstant hs hd hn
  have h2 : ∀ buf : List V, isConstant { p.later s with current := A.clamp (p.later s).intrinsic, buffer := buf } (b.later s) =
      isConstant p b := fun buf => h1
  have h3 : ∀ buf : List V, isConstant { p with current := A.clamp p.intrinsic, buffer := buf } b = isConstant p b :=
    fun buf => rfl
  rw [h2, h3, h1]
  split
  · rfl
  · have hlen : (p.later s).timeline.length = p.timeline.length := by simp [Proc.later]
    have := later_loop hA hs hn (2 * p.timeline.length + 1)
      (p := { p with current := A.clamp p.intrinsic, buffer := if (!p.aRate || isConstant p b) = true then [p.intrinsic] else [] })
      ⟨hi.sorted, hi.ok⟩ hd
    simp only [hlen]
    exact this

theorem Dated.buffer {A : Arith K V} {b : Block K} (hn : 0 < b.next)
    {p p' : Proc K V} (hd : ∀ e ∈ p.timeline, Dated e) (h : computeBuffer A p b = .ok p') :
    ∀ e ∈ p'.timeline, Dated e := by
  unfold computeBuffer at h
  dsimp only at h
  split_ifs at h
  all_goals first
    | (cases h; exact hd)
    | exact Dated.loop hn _ (by exact hd) h

/-! events -/

theorem Dated.cases {e : Ev K V} (he : Dated e) (s : K) :
    (e.kind = .setValue ∧ e.time = 0 ∧ e.cancelTime = none ∧ e.later s = e) ∨
    (e.kind ≠ .setValue ∧ 0 < e.time ∧ (∀ c, e.cancelTime = some c → 0 < c) ∧ e.later s = lastLater s e) := by
  by_cases hk : e.kind = .setValue
  · exact .inl ⟨hk, (he.zero hk).1, (he.zero hk).2, by unfold Ev.later; rw [hk]⟩
  · exact .inr ⟨hk, (he.pos hk).1, (he.pos hk).2, later_of_ne hk⟩

theorem later_le {s : K} (hs : 0 ≤ s) {q : Ev K V} (h : Dated q) {t : K} (ht : 0 < t) :
    (q.later s).time ≤ t + s ↔ q.time ≤ t := by
  rcases h.cases s with ⟨_, h1, _, h2⟩ | ⟨_, _, _, h2⟩ <;> rw [h2]
  · rw [h1]; constructor <;> intro _ <;> linarith
  · simp [lastLater]

theorem le_later {s : K} (hs : 0 ≤ s) {q : Ev K V} (h : Dated q) {t : K} (ht : 0 < t) :
    t + s ≤ (q.later s).time ↔ t ≤ q.time := by
  rcases h.cases s with ⟨_, h1, _, h2⟩ | ⟨_, _, _, h2⟩ <;> rw [h2]
  · rw [h1]; constructor <;> intro _ <;> linarith
  · simp [lastLater]

theorem later_lt {s : K} (hs : 0 ≤ s) {q : Ev K V} (h : Dated q) {t : K} (ht : 0 < t) :
    (q.later s).time < t + s ↔ q.time < t := by
  rw [← not_le, ← not_le, le_later hs h ht]

theorem lt_later {s : K} (hs : 0 ≤ s) {q : Ev K V} (h : Dated q) {t : K} (ht : 0 < t) :
    t + s < (q.later s).time ↔ t < q.time := by
  rw [← not_le, ← not_le, later_le hs h ht]

theorem later_time_le {s : K} (hs : 0 ≤ s) {a b : Ev K V} (ha : Dated a) (hb : Dated b) :
    (a.later s).time ≤ (b.later s).time ↔ a.time ≤ b.time := by
  rcases hb.cases s with ⟨_, h1, _, h2⟩ | ⟨_, h1, _, h2⟩ <;> rw [h2]
  · rcases ha.cases s with ⟨_, h3, _, h4⟩ | ⟨_, h3, _, h4⟩ <;> rw [h4]
    rw [h1]
    simp only [lastLater]
    constructor <;> intro _ <;> linarith
  · exact later_le hs ha h1

theorem later_sort {s : K} (hs : 0 ≤ s) {l : List (Ev K V)} (hd : ∀ e ∈ l, Dated e) :
    sort (l.map (Ev.later s)) = (sort l).map (Ev.later s) := by
  unfold sort
  exact (List.map_insertionSort (r := fun a b : Ev K V => a.time ≤ b.time) (s := fun a b : Ev K V => a.time ≤ b.time)
    (Ev.later s) l (fun a ha b hb => (later_time_le hs (hd a ha) (hd b hb)).symm)).symm

theorem any_map_eq {α β : Type} {f : α → β} {p : β → Bool} {q : α → Bool} {l : List α} (h : ∀ x ∈ l, p (f x) = q x) :
    (l.map f).any p = l.any q := by
  induction l with
  | nil => rfl
  | cons x xs ih =>
    simp only [List.map_cons, List.any_cons]
    rw [h x (by simp), ih fun y hy => h y (by simp [hy])]

theorem filter_map_eq {α β : Type} {f : α → β} {p : β → Bool} {q : α → Bool} {l : List α} (h : ∀ x ∈ l, p (f x) = q x) :
    (l.map f).filter p = (l.filter q).map f := by
  induction l with
  | nil => rfl
  | cons x xs ih =>
    have ih := ih fun y hy => h y (by simp [hy])
    simp only [List.map_cons, List.filter_cons]
    rw [h x (by simp), ih]
    split <;> rfl

theorem later_overlaps {s : K} (hs : 0 ≤ s) {l : List (Ev K V)} (hd : ∀ e ∈ l, Dated e) {e : Ev K V} (he : Dated e) :
    overlaps (l.map (Ev.later s)) (e.later s) = overlaps l e := by
  unfold overlaps
  rw [later_kind]
  split
  · rename_i dur vs hk
    have hne : e.kind ≠ .setValue := by rw [hk]; simp
    have hpos := (he.pos hne).1
    apply any_map_eq
    intro q hq
    have h1 : (e.later s).time = e.time + s := by rw [later_of_ne hne]; rfl
    rw [h1]
    by_cases hlt : e.time < q.time
    · have h0 := (lt_later hs (hd q hq) hpos).2 hlt
      have hq0 : (q.later s).time = q.time + s := by
        rcases (hd q hq).cases s with ⟨_, h1, _, h2⟩ | ⟨_, h1, _, h2⟩
        · linarith
        · rw [h2]; rfl
      rw [hq0]
      congr 1
      · simp
      · apply decide_eq_decide.2; constructor <;> intro _ <;> linarith
    · have h0 := mt (lt_later hs (hd q hq) hpos).1 hlt
      rw [decide_eq_false hlt, decide_eq_false h0]; rfl
  · apply any_map_eq
    intro q hq
    rw [later_kind]
    split
    · rename_i dur vs hk
      have hne : q.kind ≠ .setValue := by rw [hk]; simp
      have hpos := ((hd q hq).pos hne).1
      have h1 : (q.later s).time = q.time + s := by rw [later_of_ne hne]; rfl
      rw [h1]
      by_cases hlt : q.time < e.time
      · have h0 := (lt_later hs he hpos).2 hlt
        have hq0 : (e.later s).time = e.time + s := by
          rcases he.cases s with ⟨_, h1, _, h2⟩ | ⟨_, h1, _, h2⟩
          · linarith
          · rw [h2]; rfl
        rw [hq0]
        congr 1
        · simp
        · apply decide_eq_decide.2; constructor <;> intro _ <;> linarith
      · have h0 := mt (lt_later hs he hpos).1 hlt
        rw [decide_eq_false hlt, decide_eq_false h0]; rfl
    · rfl

theorem later_implicit {s : K} {p : Proc K V} (e : Ev K V) :
    implicit (p.later s) (e.later s) = (implicit p e).map (Ev.later s) := by
  unfold implicit
  dsimp only
  rw [later_kind]
  have h1 : (p.later s).timeline = [] ↔ p.timeline = [] := by simp [Proc.later]
  have h2 : (p.later s).last.isNone = p.last.isNone := by simp [Proc.later]
  simp only [h1, h2]
  have h3 : Ev.later s ({ kind := .setValue, value := p.intrinsic, time := 0 } : Ev K V) =
    { kind := .setValue, value := p.intrinsic, time := 0 } := rfl
  have h4 : (p.later s).intrinsic = p.intrinsic := rfl
  rw [h4]
  split
  · split <;> repeat' split
    all_goals simp [h3]
  · rfl

theorem Dated.implicit {p : Proc K V} {e x : Ev K V} (hx : x ∈ implicit p e) : Dated x := by
  unfold Param.implicit at hx
  dsimp only at hx
  repeat' split at hx
  all_goals simp at hx
  all_goals (subst hx; exact ⟨rfl, rfl⟩)

theorem later_insert {s : K} (hs : 0 ≤ s) {p : Proc K V} (hd : ∀ e ∈ p.timeline, Dated e) {e : Ev K V} (he : Dated e) :
    insert (p.later s) (e.later s) = (insert p e).map (Proc.later s) := by
  unfold insert
  have h1 : (p.later s).timeline = p.timeline.map (Ev.later s) := rfl
  rw [h1, later_overlaps hs hd he]
  split
  · rfl
  · have h2 : setIntrinsic (p.later s) (e.later s) = setIntrinsic p e := by
      unfold setIntrinsic; rw [later_kind, later_value]; rfl
    have h3 : sort (p.timeline.map (Ev.later s) ++ implicit (p.later s) (e.later s) ++ [e.later s]) =
        (sort (p.timeline ++ implicit p e ++ [e])).map (Ev.later s) := by
      rw [later_implicit, ← later_sort hs]
      · simp
      · intro x hx
        simp only [List.mem_append, List.mem_singleton] at hx
        rcases hx with (hx | hx) | rfl
        · exact hd x hx
        · exact Dated.implicit hx
        · exact he
    rw [h2, h3]
    rfl

theorem Dated.insert {p p' : Proc K V} (hd : ∀ e ∈ p.timeline, Dated e) {e : Ev K V} (he : Dated e)
    (h : insert p e = .ok p') : ∀ x ∈ p'.timeline, Dated x := by
  unfold Param.insert at h
  split at h
  · cases h
  · cases h
    intro x hx
    have hx := mem_sort.1 hx
    simp only [List.mem_append, List.mem_singleton] at hx
    rcases hx with (hx | hx) | rfl
    · exact hd x hx
    · exact Dated.implicit hx
    · exact he

/-- the events with the cancel time of `cancelHold` -/
def held (tl : List (Ev K V)) (tc : K) : List (Ev K V) :=
  match tl.filter fun q => tc < q.time with
  | e2 :: more => (tl.filter fun q => q.time ≤ tc) ++ (if e2.isRamp then { e2 with cancelTime := some tc } else e2) :: more
  | [] => match (tl.filter fun q => q.time ≤ tc).getLast? with
    | none => tl.filter fun q => q.time ≤ tc
    | some e1 => (tl.filter fun q => q.time ≤ tc).dropLast ++ [match e1.kind with
      | .target _ => { e1 with cancelTime := some tc }
      | .curve dur _ => if tc ≤ e1.time + dur then { e1 with cancelTime := some tc } else e1
      | _ => e1]

omit [IsStrictOrderedRing K] [FloorSemiring K] in
theorem cancelHold_held (tl : List (Ev K V)) (tc : K) :
    cancelHold tl tc = (held tl tc).filter fun q => q.cancelTime.getD q.time ≤ tc := rfl

theorem Dated.mark {e : Ev K V} (he : Dated e) (hk : e.kind ≠ .setValue) {tc : K} (ht : 0 < tc) :
    Dated { e with cancelTime := some tc } := by
  have := he.pos hk
  unfold Dated
  dsimp only
  split
  · contradiction
  · exact ⟨this.1, fun c hc => by cases hc; exact ht⟩

theorem Dated.held {tl : List (Ev K V)} (hd : ∀ e ∈ tl, Dated e) {tc : K} (ht : 0 < tc) : ∀ e ∈ held tl tc, Dated e := by
  unfold Param.held
  have hf : ∀ (f : Ev K V → Bool) x, x ∈ tl.filter f → Dated x := fun f x hx => hd x (List.mem_filter.1 hx).1
  split
  · rename_i e2 more h
    intro x hx
    simp only [List.mem_append, List.mem_cons] at hx
    rcases hx with hx | hx | hx
    · exact hf _ x hx
    · have h2 := hf _ e2 (h ▸ List.mem_cons_self)
      split at hx
      · rename_i hr
        rw [hx]
        exact h2.mark (by intro hk; simp [Ev.isRamp, hk] at hr) ht
      · exact hx ▸ h2
    · exact hf _ x (h ▸ List.mem_cons_of_mem _ hx)
  · split
    · exact hf _
    · rename_i e1 h
      intro x hx
      simp only [List.mem_append, List.mem_singleton] at hx
      have h1 := hf _ e1 (List.mem_of_getLast? h)
      rcases hx with hx | hx
      · exact hf _ x ((List.dropLast_sublist _).subset hx)
      · split at hx
        · rename_i hk
          rw [hx]; exact h1.mark (by rw [hk]; simp) ht
        · rename_i hk
          split at hx
          · rw [hx]; exact h1.mark (by rw [hk]; simp) ht
          · exact hx ▸ h1
        · exact hx ▸ h1

omit [LinearOrder K] [IsStrictOrderedRing K] [FloorSemiring K] in
theorem later_mark {s tc : K} {e : Ev K V} (hk : e.kind ≠ .setValue) :
    Ev.later s { e with cancelTime := some tc } = { e.later s with cancelTime := some (tc + s) } := by
  rw [later_of_ne hk, later_of_ne (e := { e with cancelTime := some tc }) hk]
  rfl

theorem later_held {s : K} (hs : 0 ≤ s) {tl : List (Ev K V)} (hd : ∀ e ∈ tl, Dated e) {tc : K} (ht : 0 < tc) :
    held (tl.map (Ev.later s)) (tc + s) = (held tl tc).map (Ev.later s) := by
  unfold held
  have h1 : ((tl.map (Ev.later s)).filter fun q => decide (q.time ≤ tc + s)) =
      (tl.filter fun q => decide (q.time ≤ tc)).map (Ev.later s) :=
    filter_map_eq fun x hx => decide_eq_decide.2 (later_le hs (hd x hx) ht)
  have h2 : ((tl.map (Ev.later s)).filter fun q => decide (tc + s < q.time)) =
      (tl.filter fun q => decide (tc < q.time)).map (Ev.later s) :=
    filter_map_eq fun x hx => decide_eq_decide.2 (lt_later hs (hd x hx) ht)
  rw [h1, h2]
  cases ha : tl.filter fun q => decide (tc < q.time) with
  | cons e2 more =>
    simp only [List.map_cons, List.map_append, later_isRamp]
    congr 2
    split
    · rename_i hr
      exact (later_mark (by intro hk; simp [Ev.isRamp, hk] at hr)).symm
    · rfl
  | nil =>
    simp only [List.map_nil, List.getLast?_map]
    cases hb : (tl.filter fun q => decide (q.time ≤ tc)).getLast? with
    | none => rfl
    | some e1 =>
      simp only [Option.map_some, List.map_append, List.map_cons, List.map_nil, List.map_dropLast]
      congr 2
      rw [later_kind]
      have hm := hd e1 (List.mem_filter.1 (List.mem_of_getLast? hb)).1
      split
      · rename_i hk
        rw [later_mark (by rw [hk]; simp)]; simp [later_kind]
      · rename_i dur vs hk
        have hne : e1.kind ≠ .setValue := by rw [hk]; simp
        have ht1 : (e1.later s).time = e1.time + s := by rw [later_of_ne hne]; rfl
        have hle : tc + s ≤ (e1.later s).time + dur ↔ tc ≤ e1.time + dur := by
          rw [ht1]; constructor <;> intro _ <;> linarith
        simp only [hle]
        split
        · rw [later_mark hne]; simp [later_kind]
        · rfl
      · rfl

theorem later_hold {s : K} (hs : 0 ≤ s) {tl : List (Ev K V)} (hd : ∀ e ∈ tl, Dated e) {tc : K} (ht : 0 < tc) :
    cancelHold (tl.map (Ev.later s)) (tc + s) = (cancelHold tl tc).map (Ev.later s) := by
  rw [cancelHold_held, cancelHold_held, later_held hs hd ht]
  refine filter_map_eq fun x hx => decide_eq_decide.2 ?_
  rcases (Dated.held hd ht x hx).cases s with ⟨_, h1, h2, h3⟩ | ⟨_, h1, h2, h3⟩
  · rw [h3, h2, h1]; simp only [Option.getD_none]; constructor <;> intro _ <;> linarith
  · rw [h3]
    unfold lastLater
    cases hc : x.cancelTime with
    | none => simp
    | some c => simp

theorem later_handle {s : K} (hs : 0 ≤ s) {p : Proc K V} (hd : ∀ e ∈ p.timeline, Dated e) {e : Ev K V} (he : Dated e) :
    handle (p.later s) (e.later s) = (handle p e).map (Proc.later s) := by
  unfold handle
  rw [later_kind]
  split
  · rename_i hk
    have hne : e.kind ≠ .setValue := by rw [hk]; simp
    have hpos := (he.pos hne).1
    have h1 : (e.later s).time = e.time + s := by rw [later_of_ne hne]; rfl
    have h2 : ((p.later s).timeline.filter fun q => decide (q.time < (e.later s).time)) =
        (p.timeline.filter fun q => decide (q.time < e.time)).map (Ev.later s) := by
      rw [h1]
      exact filter_map_eq fun x hx => decide_eq_decide.2 (later_lt hs (hd x hx) hpos)
    rw [h2]
    cases hp : p.timeline with
    | nil => simp [Proc.later, hp, Res.map]
    | cons c rest =>
      have hc : (p.later s).timeline = c.later s :: rest.map (Ev.later s) := by simp [Proc.later, hp]
      have hd2 : decide ((e.later s).time ≤ (c.later s).time) = decide (e.time ≤ c.time) := by
        rw [h1]; exact decide_eq_decide.2 (le_later hs (hd c (by rw [hp]; simp)) hpos)
      rw [hc]
      dsimp only
      rw [later_isRamp, hd2]
      split
      · cases hl : p.last with
        | none => simp [Proc.later, hl, Res.map]
        | some l => simp [Proc.later, hl, Res.map, lastLater]
      · simp [Proc.later, Res.map]
  · rename_i hk
    have hne : e.kind ≠ .setValue := by rw [hk]; simp
    have hpos := (he.pos hne).1
    have h1 : (e.later s).time = e.time + s := by rw [later_of_ne hne]; rfl
    have h2 : (p.later s).timeline = p.timeline.map (Ev.later s) := rfl
    rw [h1, h2, later_sort hs hd, later_hold hs (fun x hx => hd x (mem_sort.1 hx)) hpos]
    rfl
  · exact later_insert hs hd he

theorem Dated.handle {p p' : Proc K V} (hd : ∀ e ∈ p.timeline, Dated e) {e : Ev K V} (he : Dated e)
    (h : handle p e = .ok p') : ∀ x ∈ p'.timeline, Dated x := by
  have hf : ∀ (f : Ev K V → Bool) x, x ∈ p.timeline.filter f → Dated x := fun f x hx => hd x (List.mem_filter.1 hx).1
  unfold Param.handle at h
  split at h
  · dsimp only at h
    split at h
    · cases h; exact hd
    · split at h
      · split at h
        · cases h
        · cases h; exact hf _
      · cases h; exact hf _
  · rename_i hk
    cases h
    intro x hx
    dsimp only at hx
    rw [cancelHold_held] at hx
    exact Dated.held (fun x hx => hd x (mem_sort.1 hx)) (he.pos (by rw [hk]; simp)).1 x (List.mem_filter.1 hx).1
  · exact Dated.insert hd he h

/-! the whole run -/

/-- the same state, `m` frames later -/
def Sys.later (dt : K) (m : Nat) (x : Sys K V) : Sys K V := { p := x.p.later (m * dt), frame := x.frame + m }

theorem Invariant.step {A : Arith K V} (hA : Invariant A) {dt : K} (hdt : 0 < dt) {count : Nat} (hc : 0 < count) (m : Nat)
    {x : Sys K V} (hi : Inv x.p) (hd : ∀ e ∈ x.p.timeline, Dated e) {op : Op K V} (ho : ∀ e, op = .event e → Dated e) :
    Param.step A dt count (x.later dt m) (op.later (m * dt)) = (Param.step A dt count x op).map (Sys.later dt m) := by
  have hs : (0 : K) ≤ m * dt := mul_nonneg (Nat.cast_nonneg _) hdt.le
  cases op with
  | event e =>
    simp only [Param.step, Op.later, Sys.later]
    rw [later_handle hs hd (ho e rfl)]
    cases handle x.p e <;> rfl
  | rate a => rfl
  | block =>
    have hb : (⟨((x.frame + m : Nat) : K) * dt, dt, count⟩ : Block K) = Block.later (m * dt) ⟨x.frame * dt, dt, count⟩ := by
      simp only [Block.later, Block.mk.injEq, and_true]
      push_cast; ring
    simp only [Param.step, Op.later, Sys.later]
    rw [hb, later_buffer hA hs ?_ hi hd]
    · cases computeBuffer A x.p ⟨x.frame * dt, dt, count⟩ with
      | ok p => simp only [Res.map, Res.bind, Sys.later]; congr 2; omega
      | panic => rfl
      | fuel => rfl
    · unfold Block.next
      have h1 : (0 : K) ≤ x.frame * dt := mul_nonneg (Nat.cast_nonneg _) hdt.le
      have h2 : (0 : K) < count * dt := mul_pos (Nat.cast_pos.2 hc) hdt
      simp only
      linarith

theorem Dated.step {A : Arith K V} {dt : K} (hdt : 0 < dt) {count : Nat} (hc : 0 < count)
    {x y : Sys K V} (hd : ∀ e ∈ x.p.timeline, Dated e) {op : Op K V} (ho : ∀ e, op = .event e → Dated e)
    (h : Param.step A dt count x op = .ok y) : ∀ e ∈ y.p.timeline, Dated e := by
  cases op with
  | event e =>
    simp only [Param.step] at h
    cases hh : Param.handle x.p e with
    | panic => rw [hh] at h; cases h
    | fuel => rw [hh] at h; cases h
    | ok p => rw [hh] at h; cases h; exact Dated.handle hd (ho e rfl) hh
  | rate a => cases h; exact hd
  | block =>
    simp only [Param.step] at h
    cases hh : computeBuffer A x.p ⟨x.frame * dt, dt, count⟩ with
    | panic => rw [hh] at h; cases h
    | fuel => rw [hh] at h; cases h
    | ok p =>
      rw [hh] at h; cases h
      refine Dated.buffer ?_ hd hh
      unfold Block.next
      have h1 : (0 : K) ≤ x.frame * dt := mul_nonneg (Nat.cast_nonneg _) hdt.le
      have h2 : (0 : K) < count * dt := mul_pos (Nat.cast_pos.2 hc) hdt
      simp only
      linarith

theorem Invariant.run {A : Arith K V} (hA : Invariant A) {dt : K} (hdt : 0 < dt) {count : Nat} (hc : 0 < count) (m : Nat)
    {ops : List (Op K V)} {x : Sys K V} (hi : Inv x.p) (hd : ∀ e ∈ x.p.timeline, Dated e) (hf : Fresh ops)
    (ho : ∀ e, Op.event e ∈ ops → Dated e) :
    Param.run A dt count (x.later dt m) (ops.map (Op.later (m * dt))) = (Param.run A dt count x ops).map (Sys.later dt m) := by
  induction ops generalizing x with
  | nil => rfl
  | cons op ops ih =>
    have ho1 : ∀ e, op = .event e → Dated e := fun e he => ho e (by simp [he])
    simp only [List.map_cons, Param.run]
    rw [hA.step hdt hc m hi hd ho1]
    cases h : Param.step A dt count x op with
    | panic => rfl
    | fuel => rfl
    | ok y =>
      simp only [Res.map, Res.bind]
      refine ih ?_ (Dated.step hdt hc hd ho1 h) (fun e he => hf e (by simp [he])) (fun e he => ho e (by simp [he]))
      refine Inv.run (ops := [op]) hi (fun e he => hf e ?_) (s' := y)
        (by show (Param.step A dt count x op).bind _ = _; rw [h]; rfl)
      simp only [List.mem_singleton] at he
      simp [he]

/-- the same state but for the results of the last quantum -/
def Alike (p q : Proc K V) : Prop :=
  p.intrinsic = q.intrinsic ∧ p.aRate = q.aRate ∧ p.timeline = q.timeline ∧ p.last = q.last

theorem Alike.eq {p q : Proc K V} (h : Alike p q) : p = { q with buffer := p.buffer, current := p.current } := by
  obtain ⟨h1, h2, h3, h4⟩ := h
  cases p; cases q; simp_all

theorem alike_handle (p : Proc K V) (bf : List V) (c : V) (e : Ev K V) :
    handle { p with buffer := bf, current := c } e =
      (handle p e).map fun q => { q with buffer := bf, current := c } := by
  unfold handle insert
  dsimp only
  have h1 : implicit { p with buffer := bf, current := c } e = implicit p e := rfl
  have h2 : setIntrinsic { p with buffer := bf, current := c } e = setIntrinsic p e := rfl
  rw [h1, h2]
  split
  · cases hp : p.timeline with
    | nil => simp [Res.map, hp]
    | cons x xs =>
      dsimp only
      split
      · cases hl : p.last <;> simp [Res.map]
      · rfl
  · rfl
  · split <;> rfl

theorem alike_buffer (A : Arith K V) (p : Proc K V) (bf : List V) (c : V) (b : Block K) :
    computeBuffer A { p with buffer := bf, current := c } b = computeBuffer A p b := rfl

/-- What the last quantum left behind has no effect on the values of the next. -/
theorem alike_run (A : Arith K V) (dt : K) (count : Nat) (ops : List (Op K V)) (p : Proc K V) (n : Nat) (bf : List V) (c : V) :
    run A dt count { p := { p with buffer := bf, current := c }, frame := n } (ops ++ [.block]) =
      run A dt count { p := p, frame := n } (ops ++ [.block]) := by
  induction ops generalizing p n with
  | nil => rfl
  | cons op ops ih =>
    simp only [List.cons_append, run]
    cases op with
    | event e =>
      simp only [step]
      rw [alike_handle]
      cases handle p e with
      | ok q => exact ih q n
      | panic => rfl
      | fuel => rfl
    | rate a => exact ih { p with aRate := a } n
    | block => rfl

end

/-! ## the property -/

section
variable {K V : Type} [Field K] [LinearOrder K] [IsStrictOrderedRing K] [FloorSemiring K]

/-- What happens to a parameter, with the calls of the user. -/
inductive Doing (K V : Type) where
  | call (c : Call K V)
  | rate (aRate : Bool)
  | block

/-- the time argument of a scheduling method -/
def Call.date : Call K V → Option K
  | .setValue _ => none
  | .setValueAtTime _ t => some t
  | .linear _ t => some t
  | .exponential _ t => some t
  | .target _ t _ => some t
  | .cancel t => some t
  | .cancelHold t => some t
  | .curve _ t _ => some t

/-- the same call with a time argument that is `s` later -/
def Call.later (s : K) : Call K V → Call K V
  | .setValue v => .setValue v
  | .setValueAtTime v t => .setValueAtTime v (t + s)
  | .linear v t => .linear v (t + s)
  | .exponential v t => .exponential v (t + s)
  | .target v t tau => .target v (t + s) tau
  | .cancel t => .cancel (t + s)
  | .cancelHold t => .cancelHold (t + s)
  | .curve vs t d => .curve vs (t + s) d

def Doing.later (s : K) : Doing K V → Doing K V
  | .call c => .call (c.later s)
  | a => a

/-- The operations on the parameter; calls with invalid arguments panic at the caller and send nothing. -/
def ops (A : Arith K V) (z : V) (acts : List (Doing K V)) : List (Op K V) :=
  acts.filterMap fun
    | .call c => (c.event A z).map .event
    | .rate a => some (.rate a)
    | .block => some .block

omit [FloorSemiring K] in
theorem event_later {A : Arith K V} {z : V} {s : K} (hs : 0 ≤ s) {c : Call K V} (hc : ∀ t, c.date = some t → 0 < t) :
    (c.later s).event A z = (c.event A z).map (Ev.later s) := by
  have key : ∀ t, c.date = some t → (¬ t + s < 0) ∧ ¬ t < 0 := fun t h => by
    have := hc t h
    constructor <;> linarith
  cases c with
  | setValue v => rfl
  | setValueAtTime v t => simp [Call.later, Call.event, key t rfl, Ev.later]
  | linear v t => simp [Call.later, Call.event, key t rfl, Ev.later]
  | exponential v t =>
    simp only [Call.later, Call.event, key t rfl, if_false]
    split <;> simp [Ev.later]
  | target v t tau =>
    simp only [Call.later, Call.event, key t rfl, if_false]
    split
    · rfl
    · split <;> simp [Ev.later]
  | cancel t => simp [Call.later, Call.event, key t rfl, Ev.later]
  | cancelHold t => simp [Call.later, Call.event, key t rfl, Ev.later]
  | curve vs t d =>
    simp only [Call.later, Call.event, key t rfl, if_false]
    split
    · rfl
    · split <;> simp [Ev.later]

theorem event_dated {A : Arith K V} {z : V} {c : Call K V} (hc : ∀ t, c.date = some t → 0 < t) {e : Ev K V}
    (h : c.event A z = some e) : Dated e := by
  cases c <;> simp only [Call.event] at h <;> repeat' split at h
  all_goals first
    | (cases h; done)
    | (cases h; exact ⟨rfl, rfl⟩)
    | (cases h; exact ⟨hc _ rfl, fun _ hx => by cases hx⟩)

theorem ops_later {A : Arith K V} {z : V} {s : K} (hs : 0 ≤ s) {acts : List (Doing K V)}
    (hc : ∀ c, Doing.call c ∈ acts → ∀ t, c.date = some t → 0 < t) :
    ops A z (acts.map (Doing.later s)) = (ops A z acts).map (Op.later s) := by
  induction acts with
  | nil => rfl
  | cons a acts ih =>
    have ih := ih fun c h => hc c (by simp [h])
    unfold ops at ih ⊢
    simp only [List.map_cons, List.filterMap_cons]
    cases a with
    | call c =>
      simp only [Doing.later]
      rw [event_later hs (hc c (by simp))]
      cases c.event A z with
      | none => exact ih
      | some e => simp only [Option.map_some, List.map_cons]; rw [ih]; rfl
    | rate a => simp only [Doing.later, List.map_cons]; rw [ih]; rfl
    | block => simp only [Doing.later, List.map_cons]; rw [ih]; rfl

theorem mem_ops {A : Arith K V} {z : V} {acts : List (Doing K V)} {e : Ev K V} (h : Op.event e ∈ ops A z acts) :
    ∃ c, Doing.call c ∈ acts ∧ c.event A z = some e := by
  unfold ops at h
  obtain ⟨a, ha, h⟩ := List.mem_filterMap.1 h
  cases a with
  | call c =>
    simp only [Option.map_eq_some_iff] at h
    obtain ⟨e', h1, h2⟩ := h
    cases h2
    exact ⟨c, ha, h1⟩
  | rate a => simp at h
  | block => simp at h

/-- waiting on a parameter without events -/
theorem run_idle (A : Arith K V) (dt : K) (count : Nat) (v c : V) (n k : Nat) (more : List (Op K V)) :
    ∃ bf c', run A dt count { p := { intrinsic := v, current := c, buffer := bf0 }, frame := n }
        (List.replicate k .block ++ more) =
      run A dt count { p := { intrinsic := v, current := c', buffer := bf }, frame := n + k * count } more := by
  induction k generalizing n c bf0 with
  | zero => exact ⟨bf0, c, by simp⟩
  | succ k ih =>
    obtain ⟨bf, c', h⟩ := ih (n := n + count) (c := A.clamp v) (bf0 := [v])
    refine ⟨bf, c', ?_⟩
    have h1 : step A dt count { p := { intrinsic := v, current := c, buffer := bf0 }, frame := n } .block =
        .ok { p := { intrinsic := v, current := A.clamp v, buffer := [v] }, frame := n + count } := by
      simp [step, computeBuffer, isConstant, Res.bind]
    rw [List.replicate_succ, List.cons_append, run, h1]
    simp only [Res.bind]
    rw [h]
    congr 2
    ring

/-- C108: take any history of a parameter: calls of the scheduling methods with times after 0, changes of the value and of
the automation rate, and rendered quanta; it ends with a quantum. Wait for `k` quanta, then repeat the history with all
times later by as much: the parameter panics when it panicked before, and otherwise gives the same value in every frame of
the last quantum, `k` quanta later, and has the same attribute `value`. -/
theorem C108_later_partial {A : Arith K V} (hA : Invariant A) {dt : K} (hdt : 0 < dt) {count : Nat} (hc : 0 < count)
    (k : Nat) (v c z : V) {acts : List (Doing K V)} (ha : ∀ c, Doing.call c ∈ acts → ∀ t, c.date = some t → 0 < t) :
    let start : Sys K V := { p := { intrinsic := v, current := c } }
    let s : K := (k * count : Nat) * dt
    let first := run A dt count start (ops A z acts ++ [.block])
    let again := run A dt count start (List.replicate k .block ++ (ops A z (acts.map (Doing.later s)) ++ [.block]))
    (first = .panic → again = .panic) ∧
    (∀ x, first = .ok x → ∃ y, again = .ok y ∧ (∀ i, y.p.valueAt i = x.p.valueAt i) ∧
      y.p.current = x.p.current ∧ y.frame = x.frame + k * count) := by
  intro start s first again
  have hs : (0 : K) ≤ s := mul_nonneg (Nat.cast_nonneg _) hdt.le
  obtain ⟨bf, c', h1⟩ := run_idle (bf0 := []) A dt count v c 0 k (ops A z (acts.map (Doing.later s)) ++ [.block])
  have h2 : again = run A dt count { p := { intrinsic := v, current := c }, frame := k * count }
      (ops A z (acts.map (Doing.later s)) ++ [.block]) := by
    have := alike_run A dt count (ops A z (acts.map (Doing.later s))) { intrinsic := v, current := c } (0 + k * count) bf c'
    rw [Nat.zero_add] at this h1
    exact h1.trans this
  have h3 := hA.run hdt hc (k * count) (x := start) (ops := ops A z acts ++ [.block]) ⟨List.Pairwise.nil, by simp [start]⟩
    (by simp [start])
    (fun e he => by
      simp only [List.mem_append, List.mem_singleton] at he
      rcases he with he | he
      · obtain ⟨c, _, h⟩ := mem_ops he; exact event_sent h
      · cases he)
    (fun e he => by
      simp only [List.mem_append, List.mem_singleton] at he
      rcases he with he | he
      · obtain ⟨c, hm, h⟩ := mem_ops he; exact event_dated (ha c hm) h
      · cases he)
  have h4 : again = first.map (Sys.later dt (k * count)) := by
    rw [h2, ← h3, ops_later hs ha]
    simp only [List.map_append, List.map_cons, List.map_nil, Op.later]
    congr 1
    simp [Sys.later, start, Proc.later]
  refine ⟨fun h => by rw [h4, h]; rfl, fun x hx => ⟨x.later dt (k * count), by rw [h4, hx]; rfl, fun i => rfl, rfl, rfl⟩⟩

end

section exact
variable {K : Type} [Field K] [LinearOrder K] [IsStrictOrderedRing K] [FloorRing K]

/-- The formulas of the automation, l.64-120, depend on the time since the start only. -/
theorem invariant_exact (ex : K → K) (pw : K → K → K) (mn mx : K) : Invariant (exact ex pw mn mx) := by
  constructor <;> intros <;> simp only [exact, add_sub_add_right_eq_sub]

end exact

/-- the value in frame `i` of the last quantum -/
def valueIn {K V : Type} (r : Res (Sys K V)) (i : Nat) : Option V :=
  match r with
  | .ok x => x.p.valueAt i
  | _ => none

/-- C108 is false for the time 0: a call with time 0 after the first quantum means "now" (param.rs l.1056-1062), not the
time 0. After one quantum of 2 frames at 1 Hz, `set_value_at_time(0, 0)` and a ramp to 6 at time 4 give 0 and 3 in the next
quantum; the same two seconds later gives 3 and 9/2. -/
theorem C108_negated_now :
    let A := exact (K := ℚ) id (fun x _ => x) (-100) 100
    let start : Sys ℚ ℚ := { p := { intrinsic := 0, current := 0 } }
    let acts : List (Doing ℚ ℚ) := [.block, .call (.setValueAtTime 0 0), .call (.linear 6 4)]
    let first := run A 1 2 start (ops A 0 acts ++ [.block])
    let again := run A 1 2 start (List.replicate 1 .block ++ (ops A 0 (acts.map (Doing.later 2)) ++ [.block]))
    valueIn first 0 = some 0 ∧ valueIn first 1 = some 3 ∧ valueIn again 0 = some 3 ∧ valueIn again 1 = some (9 / 2) := by
  decide +kernel

/-- C108 in a case: a value at time 1/2, a ramp to 6 at time 4, cancelled and held at time 3 when half of it is over; all
of it 2 seconds later. -/
example :
    let A := exact (K := ℚ) id (fun x _ => x) (-100) 100
    let start : Sys ℚ ℚ := { p := { intrinsic := 0, current := 0 } }
    let acts : List (Doing ℚ ℚ) := [.call (.setValueAtTime 2 (1 / 2)), .call (.linear 9 4), .block, .call (.cancelHold 3), .block]
    let first := run A 1 2 start (ops A 0 acts ++ [.block])
    let again := run A 1 2 start (List.replicate 1 .block ++ (ops A 0 (acts.map (Doing.later 2)) ++ [.block]))
    (∀ c, Doing.call c ∈ acts → ∀ t, c.date = some t → 0 < t) ∧
    valueIn first 0 = some 7 ∧ valueIn again 0 = some 7 := by
  refine ⟨?_, by decide +kernel⟩
  intro c hc t ht
  simp at hc
  rcases hc with rfl | rfl | rfl <;> (simp [Call.date] at ht; subst ht; norm_num)

end Verif.Param
