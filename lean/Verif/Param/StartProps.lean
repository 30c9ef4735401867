import Verif.Param.PanicProps
import Mathlib.Analysis.SpecialFunctions.Exp

/-!
# C29: events have no effect before their start time
-/

namespace Verif.Param

section
variable {K V : Type} [Field K] [LinearOrder K] [IsStrictOrderedRing K] [FloorSemiring K]

theorem prefix_extend (buf : List V) (stop : Nat) (f : Nat → V) : buf <+: extend buf stop f :=
  ⟨_, rfl⟩

/-- Values that are computed are final (up to the flushing of subnormal values). -/
theorem computeEvent_prefix {A : Arith K V} (hfl : ∀ v, A.flush v = v) {b : Block K} {p : Proc K V}
    {r : Bool × Proc K V} (h : computeEvent A p b = .ok r) : p.buffer <+: r.2.buffer := by
  have hext : ∀ stop f, p.buffer <+: (if p.aRate then extend p.buffer stop f else p.buffer) := by
    intro stop f
    split
    · exact prefix_extend _ _ _
    · exact List.prefix_rfl
  have hramp : ∀ f e l rest, computeRamp f p b e l rest = r → p.buffer <+: r.2.buffer := by
    rintro f e l rest rfl
    unfold computeRamp
    dsimp only
    split
    · exact hext _ _
    · split <;> exact hext _ _
  have hset : computeSetValue p b = .ok r → p.buffer <+: r.2.buffer := by
    intro h
    unfold computeSetValue at h
    split at h
    · cases h
    · dsimp only at h
      split at h <;> cases h <;> exact hext _ _
  unfold computeEvent at h
  split at h
  · cases h; exact hext _ _
  · split at h
    · exact hset h
    · exact hset h
    · unfold computeLinear at h
      split at h
      · injection h with h; exact hramp _ _ _ _ h
      · cases h
    · unfold computeExp at h
      split at h
      · split at h
        · cases h; exact List.prefix_rfl
        · injection h with h; exact hramp _ _ _ _ h
      · cases h
    · unfold computeTarget at h
      have hmap : ∀ l : List V, l.map A.flush = l := fun l => by
        conv_rhs => rw [← List.map_id l]
        exact List.map_congr_left fun v _ => hfl v
      split at h
      · dsimp only at h
        rw [hmap] at h
        split at h
        · split at h
          · cases h
            simp only [ite_self]
            exact hext _ _
          · cases h; exact hext _ _
        · cases h; exact hext _ _
      · cases h
    · unfold computeCurve at h
      split at h
      · cases h
      · dsimp only at h
        split at h
        · cases h
        · split at h
          · split at h <;> cases h
            exact List.prefix_append _ _
          · split at h
            · cases h
            · cases h; exact List.prefix_append _ _
    · cases h
    · cases h

theorem loop_prefix {A : Arith K V} (hfl : ∀ v, A.flush v = v) {b : Block K} {n : Nat} {p p' : Proc K V}
    (h : loop A b n p = .ok p') : p.buffer <+: p'.buffer := by
  induction n generalizing p with
  | zero => cases h
  | succ n ih =>
    unfold loop at h
    cases he : computeEvent A p b with
    | panic => rw [he] at h; cases h
    | fuel => rw [he] at h; cases h
    | ok r =>
      rw [he] at h
      simp only [Res.bind] at h
      have := computeEvent_prefix hfl he
      split at h
      · cases h; exact this
      · exact this.trans (ih h)

theorem Block.lt_index {b : Block K} (hdt : 0 < b.dt) {i : Nat} {t : K} (h : b.frame i + b.dt / 2 < t) :
    i < b.index t := by
  unfold Block.frame at h
  unfold Block.index
  rw [← Nat.succ_le_iff]
  apply Nat.le_floor
  have h1 : t - b.time ≤ max (t - b.time) 0 := le_max_left _ _
  have h2 : (i : K) + 1 / 2 < max (t - b.time) 0 / b.dt := by
    rw [lt_div_iff₀ hdt]; linarith
  push_cast
  linarith

theorem getElem?_extend {buf : List V} {stop i : Nat} {f : Nat → V} (h1 : buf.length ≤ i) (h2 : i < stop) :
    (extend buf stop f)[i]? = some (f i) := by
  unfold extend
  rw [List.getElem?_append_right h1, List.getElem?_map, List.getElem?_range' (by omega)]
  simp only [Option.map_some, Nat.one_mul]
  congr 2
  omega

theorem getElem?_mapM_range' {f : Nat → Option V} {s n i : Nat} {l : List V} {v : V}
    (h : (List.range' s n).mapM f = some l) (h1 : s ≤ i) (h2 : i < s + n) (hf : f i = some v) :
    l[i - s]? = some v := by
  induction n generalizing s l with
  | zero => omega
  | succ n ih =>
    rw [List.range'_succ, List.mapM_cons] at h
    cases hs : f s with
    | none => rw [hs] at h; cases h
    | some a =>
      cases hr : (List.range' (s + 1) n).mapM f with
      | none => rw [hs, hr] at h; cases h
      | some m =>
        rw [hs, hr] at h
        cases h
        by_cases hi : i = s
        · subst hi
          rw [hf] at hs
          cases hs
          simp
        · have := ih hr (by omega) (by omega)
          rw [show i - s = (i - (s + 1)) + 1 by omega]
          simpa using this

/-- Rendering of frames before the start of a target or curve event. -/
theorem before_start {A : Arith K V} {b : Block K} (hdt : 0 < b.dt) {p : Proc K V} (hi : Inv p)
    (ha : p.aRate = true) {e : Ev K V} {rest : List (Ev K V)} (hp : p.timeline = e :: rest)
    (hk : (∃ tau, e.kind = .target tau) ∨ ∃ d vs, e.kind = .curve d vs)
    (hnr : (∃ tau, e.kind = .target tau) → ∀ n more, rest = n :: more → n.isRamp = false)
    {r : Bool × Proc K V} (hfl : ∀ v, A.flush v = v) (h : computeEvent A p b = .ok r)
    {i : Nat} (hbi : p.buffer.length ≤ i) (hic : i < b.count) (hlt : b.frame i + b.dt / 2 < e.time) :
    r.2.buffer[i]? = some p.intrinsic := by
  have hok := hi.ok e (by rw [hp]; simp)
  have hs := hi.sorted
  rw [hp] at hs
  have hfr : b.frame i < e.time := by linarith
  unfold computeEvent at h
  rw [hp] at h
  dsimp only at h
  rcases hk with ⟨tau, hk⟩ | ⟨d, vs, hk⟩
  · rw [hk] at h
    dsimp only at h
    simp only [EvOk, hk] at hok
    have hend : i < min (b.index ((targetEnd b e rest).getD b.next)) b.count := by
      have hnextcase : i < b.index ((targetNext b rest).getD b.next) := by
        cases rest with
        | nil => exact lt_of_lt_of_le hic (b.count_le_index hdt le_rfl)
        | cons n more =>
          have hr := hnr ⟨tau, hk⟩ n more rfl
          simp only [targetNext, hr, Bool.false_eq_true, if_false]
          split
          · exact Block.lt_index hdt (lt_of_lt_of_le hlt ((List.pairwise_cons.1 hs).1 n (by simp)))
          · exact lt_of_lt_of_le hic (b.count_le_index hdt le_rfl)
      rw [lt_min_iff]
      refine ⟨?_, hic⟩
      unfold targetEnd
      cases hc : e.cancelTime with
      | none => exact hnextcase
      | some c =>
        dsimp only
        split
        · exact Block.lt_index hdt (lt_of_lt_of_le hlt (hok c hc))
        · exact hnextcase
    unfold computeTarget at h
    rw [hp] at h
    cases hl : p.last with
    | none => rw [hl] at h; cases h
    | some l =>
      rw [hl] at h
      dsimp only at h
      rw [if_pos ha] at h
      have hg := getElem?_extend (f := fun i => if b.frame i - e.time < 0 then p.intrinsic
        else A.tgt e.time tau l.value e.value (b.frame i)) hbi hend
      rw [if_pos (by linarith)] at hg
      have hmap : ∀ l : List V, l.map A.flush = l := fun l => by
        conv_rhs => rw [← List.map_id l]
        exact List.map_congr_left fun v _ => hfl v
      rw [hmap] at h
      split at h
      · split at h
        · cases h
          simp only [ite_self]
          exact hg
        · cases h; exact hg
      · cases h; exact hg
  · rw [hk] at h
    dsimp only at h
    simp only [EvOk, hk] at hok
    have hend : i < min (b.index (e.cancelTime.getD (e.time + d))) b.count := by
      rw [lt_min_iff]
      refine ⟨Block.lt_index hdt (lt_of_lt_of_le hlt ?_), hic⟩
      cases hc : e.cancelTime with
      | none => simp only [Option.getD_none]; linarith [hok.1]
      | some c => exact hok.2.2 c hc
    unfold computeCurve at h
    rw [hp] at h
    dsimp only at h
    rw [if_pos ha] at h
    split at h
    · cases h
    · rename_i s hsam
      have hg := getElem?_mapM_range' (v := p.intrinsic) hsam hbi (by omega) (by rw [if_pos hfr])
      have hg' : (p.buffer ++ s)[i]? = some p.intrinsic := by
        rw [List.getElem?_append_right hbi]; exact hg
      split at h
      · split at h <;> cases h
        exact hg'
      · split at h
        · cases h
        · cases h; exact hg'

/-- C29, within a quantum: as long as the event is the next one, the frames of a quantum before its start
keep the value the parameter has at the beginning of the quantum. Missing: what the value is at the
beginning of the *next* quantum, see `C29_negated_target` and `C29_negated_curve`; a target directly
followed by a ramp, see `C29_negated_ramp`; the last half frame before the start if another event follows
immediately. -/
theorem C29_quantum_partial {A : Arith K V} (hfl : ∀ v, A.flush v = v) {b : Block K} (hdt : 0 < b.dt)
    {p p' : Proc K V} (hi : Inv p) (ha : p.aRate = true) {e : Ev K V} {rest : List (Ev K V)}
    (hp : p.timeline = e :: rest)
    (hk : (∃ tau, e.kind = .target tau) ∨ ∃ d vs, e.kind = .curve d vs)
    (hnr : (∃ tau, e.kind = .target tau) → ∀ n more, rest = n :: more → n.isRamp = false)
    (h : computeBuffer A p b = .ok p')
    {i : Nat} (hic : i < b.count) (hlt : b.frame i + b.dt / 2 < e.time) :
    p'.valueAt i = some p.intrinsic := by
  have hlen := C24_length hdt h
  unfold computeBuffer at h
  dsimp only at h
  have hc' : ∀ (c : V) (buf : List V), isConstant { p with current := c, buffer := buf } b =
      isConstant p b := fun _ _ => rfl
  rw [hc'] at h
  by_cases hk' : isConstant p b = true
  · rw [if_pos hk'] at h
    cases h
    simp [Proc.valueAt, hk']
  · rw [if_neg hk'] at h
    have hkf : isConstant p b = false := by simpa using hk'
    rw [ha, hkf] at hlen
    simp only [Bool.not_false, Bool.and_true, if_true] at hlen
    have hget : p'.buffer[i]? = some p.intrinsic := by
      unfold loop at h
      have hbuf : (if (!p.aRate || isConstant p b) = true then [p.intrinsic] else []) = [] := by
        rw [ha, hkf]; rfl
      rw [hbuf] at h
      cases he : computeEvent A { p with current := A.clamp p.intrinsic, buffer := [] } b with
      | panic => rw [he] at h; cases h
      | fuel => rw [he] at h; cases h
      | ok r =>
        have hg := before_start hdt (p := { p with current := A.clamp p.intrinsic, buffer := [] })
          ⟨hi.sorted, hi.ok⟩ ha hp hk hnr hfl he (by simp) hic hlt
        rw [he] at h
        simp only [Res.bind] at h
        split at h
        · cases h; exact hg
        · obtain ⟨t, ht⟩ := loop_prefix hfl h
          rw [← ht, List.getElem?_append_left]
          · exact hg
          · exact (List.getElem?_eq_some_iff.1 hg).1
    unfold Proc.valueAt
    split
    · rename_i h1
      have : i = 0 := by omega
      subst this
      exact hget
    · exact hget

/-- Quanta before the start of the only event change nothing. -/
theorem run_wait {A : Arith K V} {dt : K} {count m : Nat} {s s' : Sys K V} {e : Ev K V}
    {rest : List (Ev K V)} (hp : s.p.timeline = e :: rest) (hr : e.isRamp = false)
    (hle : ((s.frame + m * count : Nat) : K) * dt ≤ e.time) (hdt : 0 < dt)
    (h : run A dt count s (List.replicate m .block) = .ok s') :
    s'.frame = s.frame + m * count ∧ s'.p.timeline = e :: rest ∧ s'.p.intrinsic = s.p.intrinsic ∧
      s'.p.last = s.p.last ∧ s'.p.aRate = s.p.aRate := by
  induction m generalizing s with
  | zero => cases h; exact ⟨by simp, hp, rfl, rfl, rfl⟩
  | succ m ih =>
    rw [List.replicate_succ] at h
    unfold run at h
    have hcon : isConstant s.p ⟨s.frame * dt, dt, count⟩ = true := by
      unfold isConstant
      rw [hp]
      simp only [hr, Bool.not_false, Bool.true_and, Block.next]
      apply decide_eq_true
      refine le_trans ?_ hle
      have : (0 : K) ≤ (m : K) * count * dt := by positivity
      push_cast
      nlinarith
    have hcb : computeBuffer A s.p ⟨s.frame * dt, dt, count⟩ =
        .ok { s.p with current := A.clamp s.p.intrinsic, buffer := [s.p.intrinsic] } := by
      unfold computeBuffer
      dsimp only
      have hc' : ∀ (c : V) (buf : List V) b, isConstant { s.p with current := c, buffer := buf } b =
        isConstant s.p b := fun _ _ _ => rfl
      rw [hc', hcon]
      simp
    simp only [step, hcb, Res.bind] at h
    obtain ⟨g1, g2, g3, g4, g5⟩ := ih (s := { p := { s.p with current := A.clamp s.p.intrinsic, buffer := [s.p.intrinsic] }, frame := s.frame + count }) hp (by
      refine le_trans (le_of_eq ?_) hle
      push_cast
      ring) h
    exact ⟨by rw [g1]; ring, g2, g3, g4, g5⟩

/-- C29 for a value curve alone: the parameter keeps its value up to (half a frame before) the start of the
curve, for any number of quanta. Missing: other events (`C29_negated_curve`). -/
theorem C29_curve_partial {A : Arith K V} (hfl : ∀ v, A.flush v = v) {dt : K} (hdt : 0 < dt) {count : Nat}
    {v c : V} {e : Ev K V} (he : Sent e) {d : K} {vs : List V} (hk : e.kind = .curve d vs)
    {k j : Nat} (hj : j < count) (hlt : ((k * count + j : Nat) : K) * dt + dt / 2 < e.time) {s : Sys K V}
    (h : run A dt count { p := { intrinsic := v, current := c } }
      (.event e :: List.replicate (k + 1) .block) = .ok s) :
    s.p.valueAt j = some v := by
  have hh : handle ({ intrinsic := v, current := c } : Proc K V) e =
      .ok { intrinsic := v, current := c, timeline := [e] } := by
    unfold handle
    simp [hk, insert, overlaps, implicit, setIntrinsic, sort]
  rw [List.replicate_succ'] at h
  unfold run at h
  simp only [step, hh, Res.bind] at h
  rw [run_append] at h
  cases hr : run A dt count { p := { intrinsic := v, current := c, timeline := [e] } }
      (List.replicate k .block) with
  | panic => rw [hr] at h; cases h
  | fuel => rw [hr] at h; cases h
  | ok t =>
    rw [hr] at h
    have hle : ((k * count : Nat) : K) * dt ≤ e.time := by
      have : (0 : K) ≤ (j : K) * dt := by positivity
      push_cast at hlt ⊢
      nlinarith
    obtain ⟨g1, g2, g3, g4, g5⟩ := run_wait (e := e) (rest := []) rfl (by simp [Ev.isRamp, hk])
      (by simpa using hle) hdt hr
    simp only [Res.bind, run, step] at h
    cases hb : computeBuffer A t.p ⟨t.frame * dt, dt, count⟩ with
    | panic => rw [hb] at h; cases h
    | fuel => rw [hb] at h; cases h
    | ok p' =>
      rw [hb] at h
      cases h
      have hinv : Inv t.p := by
        refine ⟨by rw [g2]; simp [Sorted], fun x hx => ?_⟩
        rw [g2] at hx
        simp at hx
        subst hx
        unfold Sent at he
        rw [hk] at he
        simp only [EvOk, hk]
        exact ⟨he.2.2.1, he.2.2.2, by rw [he.1]; simp⟩
      have := C29_quantum_partial hfl hdt hinv (by rw [g5]) g2 (.inr ⟨d, vs, hk⟩)
        (fun ⟨tau, ht⟩ => by rw [hk] at ht; cases ht) hb hj (by
          simp only [Block.frame, g1]
          push_cast at hlt ⊢
          linarith)
      rw [this, g3]

/-- The state after the first quantum with a target event alone that starts later. -/
theorem target_first {A : Arith K V} {dt : K} (hdt : 0 < dt) {count : Nat} (hcount : 0 < count)
    {v v1 c : V} {T tau : K} (hT : ((2 * count : Nat) : K) * dt ≤ T) :
    ∃ s : Sys K V, run A dt count { p := { intrinsic := v, current := c } }
        [.event { kind := .target tau, value := v1, time := T }, .block] = .ok s ∧ s.frame = count ∧
      s.p.aRate = true ∧
      ((s.p.intrinsic = A.tgt T tau v v1 (count * dt) ∧
          s.p.timeline = [{ kind := .target tau, value := v1, time := T }]) ∨
        (A.snap v1 (A.tgt T tau v v1 (count * dt)) = true ∧ s.p.intrinsic = v1 ∧
          s.p.timeline = [{ kind := .setValueAtTime, value := v1, time := count * dt }])) := by
  have hcd : (0 : K) < count * dt := by
    have : (0 : K) < count := by exact_mod_cast hcount
    positivity
  have hT0 : 0 ≤ T := by
    refine le_trans ?_ hT
    positivity
  have hh : handle ({ intrinsic := v, current := c } : Proc K V) { kind := .target tau, value := v1, time := T } =
      .ok { intrinsic := v, current := c,
            timeline := [{ kind := .setValue, value := v, time := 0 },
              { kind := .target tau, value := v1, time := T }] } := by
    unfold handle
    simp only [insert, overlaps, implicit, setIntrinsic, List.any_nil, Bool.false_eq_true, if_false, if_true,
      List.nil_append]
    rw [sort_append_singleton (by simp [Sorted])]
    simp [hT0, not_lt.2 hT0]
  have hnc : ¬ dt * (count : K) + 0 * dt ≤ 0 := by nlinarith
  have hset : computeEvent A (⟨v, true, [{ kind := .setValue, value := v, time := 0 },
      { kind := .target tau, value := v1, time := T }], none, [], A.clamp v⟩ : Proc K V)
      ⟨((0 : Nat) : K) * dt, dt, count⟩ = .ok (false, ⟨v, true, [{ kind := .target tau, value := v1, time := T }],
        some { kind := .setValue, value := v, time := ((0 : Nat) : K) * dt }, [], A.clamp v⟩) := by
    have hidx : (⟨((0 : Nat) : K) * dt, dt, count⟩ : Block K).index (((0 : Nat) : K) * dt) = 0 := by
      simp only [Block.index, sub_self, max_self, zero_div, zero_add]
      rw [Nat.floor_eq_zero]
      norm_num
    simp only [computeEvent, computeSetValue, Ev.at, if_true]
    rw [hidx]
    have : ¬ (⟨((0 : Nat) : K) * dt, dt, count⟩ : Block K).next < ((0 : Nat) : K) * dt := by
      simp only [Block.next, Nat.cast_zero, zero_mul, add_zero]
      nlinarith
    rw [if_neg this]
    simp [extend]
  have hnx : (⟨((0 : Nat) : K) * dt, dt, count⟩ : Block K).next = count * dt := by
    simp only [Block.next, Nat.cast_zero, zero_mul, add_zero]; ring
  have hte : targetEnd (⟨((0 : Nat) : K) * dt, dt, count⟩ : Block K)
      ({ kind := .target tau, value := v1, time := T } : Ev K V) [] = none := rfl
  have hcons : isConstant ({ intrinsic := v, current := A.clamp v, timeline := [{ kind := .setValue, value := v, time := 0 },
      { kind := .target tau, value := v1, time := T }] } : Proc K V) ⟨((0 : Nat) : K) * dt, dt, count⟩ = false := by
    simp only [isConstant, hnx, Ev.isRamp, Bool.not_false, Bool.true_and, decide_eq_false_iff_not, not_le]
    exact hcd
  obtain ⟨q, hq, h1, h2⟩ : ∃ q, computeEvent A (⟨v, true, [{ kind := .target tau, value := v1, time := T }],
      some { kind := .setValue, value := v, time := ((0 : Nat) : K) * dt }, [], A.clamp v⟩ : Proc K V)
      ⟨((0 : Nat) : K) * dt, dt, count⟩ = .ok (true, q) ∧ q.aRate = true ∧
      ((q.intrinsic = A.tgt T tau v v1 (count * dt) ∧
          q.timeline = [{ kind := .target tau, value := v1, time := T }]) ∨
        (A.snap v1 (A.tgt T tau v v1 (count * dt)) = true ∧ q.intrinsic = v1 ∧
          q.timeline = [{ kind := .setValueAtTime, value := v1, time := count * dt }])) := by
    simp only [computeEvent, computeTarget, hte, Option.getD_none, hnx]
    by_cases hsn : A.snap v1 (A.tgt T tau v v1 (count * dt)) = true
    · rw [if_pos hsn]
      exact ⟨_, rfl, rfl, .inr ⟨hsn, rfl, rfl⟩⟩
    · rw [if_neg hsn]
      exact ⟨_, rfl, rfl, .inl ⟨rfl, rfl⟩⟩
  have hcb : computeBuffer A (⟨v, true, [{ kind := .setValue, value := v, time := 0 },
      { kind := .target tau, value := v1, time := T }], none, [], c⟩ : Proc K V)
      ⟨((0 : Nat) : K) * dt, dt, count⟩ = .ok q := by
    have hcons' : ∀ (c : V) (buf : List V), isConstant (⟨v, true, [{ kind := .setValue, value := v, time := 0 },
        { kind := .target tau, value := v1, time := T }], none, buf, c⟩ : Proc K V)
        ⟨((0 : Nat) : K) * dt, dt, count⟩ = false := fun _ _ => hcons
    unfold computeBuffer
    dsimp only
    rw [hcons', hcons']
    simp only [Bool.not_true, Bool.or_self, Bool.false_eq_true, if_false, List.length_cons, List.length_nil]
    unfold loop
    rw [hset]
    simp only [Res.bind, Bool.false_eq_true, if_false]
    unfold loop
    rw [hq]
    simp only [Res.bind, if_true]
  simp only [run, step, hh, Res.bind]
  rw [hcb]
  exact ⟨_, rfl, by simp, h1, h2⟩

end

section exact
variable {K : Type} [Field K] [LinearOrder K] [IsStrictOrderedRing K] [FloorRing K] [FloorSemiring K]

/-- C29 is false for `set_target_at_time` alone: if the start time is at least two quanta in the future,
the value is wrong in the whole second quantum already, whatever the arguments (`ex` has the property of `exp`
that matters here). -/
theorem C29_negated_target {ex : K → K} (hex : ∀ x, 0 < x → 1 < ex x) {pw : K → K → K} {mn mx : K}
    {dt : K} (hdt : 0 < dt) {count : Nat} (hcount : 0 < count) {v v1 c : K} (hv : v ≠ v1) {T tau : K}
    (htau : 0 < tau) (hT : ((2 * count : Nat) : K) * dt ≤ T) :
    ∃ s : Sys K K, run (exact ex pw mn mx) dt count { p := { intrinsic := v, current := c } }
        [.event { kind := .target tau, value := v1, time := T }, .block, .block] = .ok s ∧
      ∀ j < count, ((count + j : Nat) : K) * dt < T ∧ ∃ x, s.p.valueAt j = some x ∧ x ≠ v := by
  obtain ⟨t, ht, hf, ha, hcase⟩ := target_first (A := exact ex pw mn mx) hdt hcount (v := v) (v1 := v1)
    (c := c) (tau := tau) hT
  have hcd : (0 : K) < count * dt := by
    have : (0 : K) < count := by exact_mod_cast hcount
    positivity
  have htime : ∀ j < count, ((count + j : Nat) : K) * dt < T := by
    intro j hj
    refine lt_of_lt_of_le ?_ hT
    apply mul_lt_mul_of_pos_right _ hdt
    exact_mod_cast (by omega : count + j < 2 * count)
  have hrun : run (exact ex pw mn mx) dt count { p := { intrinsic := v, current := c } }
      [.event { kind := .target tau, value := v1, time := T }, .block, .block] =
      step (exact ex pw mn mx) dt count t .block := by
    rw [show [Op.event { kind := .target tau, value := v1, time := T }, .block, .block] =
      [Op.event { kind := .target tau, value := v1, time := T }, .block] ++ [.block] from rfl, run_append, ht]
    simp only [Res.bind, run]
    cases step (exact ex pw mn mx) dt count t .block <;> rfl
  rw [hrun]
  have hnx : (⟨t.frame * dt, dt, count⟩ : Block K).next = ((2 * count : Nat) : K) * dt := by
    rw [hf]; simp only [Block.next]; push_cast; ring
  rcases hcase with ⟨h1, h2⟩ | ⟨-, h1, h2⟩
  · have hcon : isConstant t.p ⟨t.frame * dt, dt, count⟩ = true := by
      unfold isConstant
      rw [h2, hnx]
      simpa [Ev.isRamp] using hT
    have hc' : ∀ (c : K) (buf : List K) b, isConstant { t.p with current := c, buffer := buf } b =
      isConstant t.p b := fun _ _ _ => rfl
    simp only [step, computeBuffer]
    rw [hc', hc', hcon]
    simp only [Bool.or_true, if_true, Res.bind]
    refine ⟨_, rfl, fun j hj => ⟨htime j hj, t.p.intrinsic, by simp [Proc.valueAt], ?_⟩⟩
    rw [h1]
    simp only [exact]
    have hx : 0 < -((count * dt - T) / tau) := by
      rw [neg_pos]
      apply div_neg_of_neg_of_pos _ htau
      push_cast at hT
      nlinarith
    have := hex _ hx
    intro heq
    have h0 : (v - v1) * (ex (-((count * dt - T) / tau)) - 1) = 0 := by linear_combination heq
    rcases mul_eq_zero.1 h0 with h0 | h0
    · exact hv (sub_eq_zero.1 h0)
    · linarith
  · have hcon : isConstant t.p ⟨t.frame * dt, dt, count⟩ = false := by
      unfold isConstant
      rw [h2, hnx]
      simp only [Ev.isRamp, Bool.not_false, Bool.true_and, decide_eq_false_iff_not, not_le]
      push_cast
      nlinarith
    have hc' : ∀ (c : K) (buf : List K) b, isConstant { t.p with current := c, buffer := buf } b =
      isConstant t.p b := fun _ _ _ => rfl
    have hat : ({ kind := .setValueAtTime, value := v1, time := count * dt } : Ev K K).at
        ⟨t.frame * dt, dt, count⟩ = count * dt := by
      simp [Ev.at, hf]
    have hidx : (⟨t.frame * dt, dt, count⟩ : Block K).index (count * dt) = 0 := by
      rw [hf]
      simp only [Block.index, sub_self, max_self, zero_div, zero_add]
      rw [Nat.floor_eq_zero]
      norm_num
    have hlt : ¬ (⟨t.frame * dt, dt, count⟩ : Block K).next < count * dt := by
      rw [hnx]; push_cast; nlinarith
    simp only [step, computeBuffer]
    rw [hc', hc', hcon]
    simp only [ha, h2, Bool.not_true, Bool.or_self, Bool.false_eq_true, if_false, List.length_cons,
      List.length_nil, loop, computeEvent, computeSetValue, hat, hidx, Res.bind, if_true, if_neg hlt]
    refine ⟨_, rfl, fun j hj => ⟨htime j hj, v1, ?_, fun h => hv h.symm⟩⟩
    simp only [Proc.valueAt]
    have hb : extend (extend ([] : List K) (min 0 count) fun _ => t.p.intrinsic) count (fun _ => v1) =
        List.replicate count v1 := by
      simp only [Nat.zero_min]
      simp only [extend, List.length_nil, Nat.sub_zero, List.range'_zero, List.map_nil, List.append_nil,
        List.nil_append, List.map_const', List.length_range']
    rw [hb]
    split
    · simp [hcount]
    · simp [hj]

/-- the hypotheses are met by the exponential function -/
example : ∀ x : ℝ, 0 < x → 1 < Real.exp x := fun _ h => Real.one_lt_exp_iff.2 h

end exact

/-- C29 is false for `set_value_curve_at_time` after another event: the curve starts at frame 10, but in the
second quantum (frames 4 to 7) the value is 5 already. -/
theorem C29_negated_curve :
    (demo 1 [setAt 1 1, curveAt [0, 10] 10 4, .block]).map (·.buffer) = some [0, 1, 1, 1] ∧
    (demo 1 [setAt 1 1, curveAt [0, 10] 10 4, .block, .block]).map (·.buffer) = some [5] := by
  decide +kernel

/-- C29 is false for a target that is followed by a ramp: the target starts at frame 10, but the value changes
from frame 0 on (here `exp` is 0, so that the target is jumped to; with the exponential function it is
`exp 10` in place of 0). -/
theorem C29_negated_ramp :
    (demo 1 [setAt 1 0, targetAt 0 10 1, linAt 20 20, .block]).map (·.buffer) = some [0, 1, 2, 3] := by
  decide +kernel

/-- hypotheses of `C29_curve_partial` met -/
example : (demo 1 [curveAt [3, 10] 6 4, .block]).map (·.buffer) = some [0] ∧
    (demo 1 [curveAt [3, 10] 6 4, .block, .block]).map (·.buffer) = some [0, 0, 3, 19/4] := by
  decide +kernel

end Verif.Param
