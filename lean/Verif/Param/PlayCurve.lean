import Verif.Param.TargetProps

/-!
# C88: `set_value_curve_at_time` plays the curve

Specification: the values are equally spaced points from the start time `T` to the end `T + D`, connected by
straight lines; the last value is kept afterwards.
-/

namespace Verif.Param

section
variable {K : Type} [Field K] [LinearOrder K] [IsStrictOrderedRing K] [FloorRing K] [FloorSemiring K]

/-- `x` is the value at time `t` of the curve with the given values between `T` and `T + D`. -/
def OnCurve (T D : K) (vs : List K) (t x : K) : Prop :=
  T + D ≤ t ∧ vs.getLast? = some x ∨
  ∃ (k : Nat) (a b : K), vs[k]? = some a ∧ vs[k + 1]? = some b ∧
    T + k * (D / (vs.length - 1 : Nat)) ≤ t ∧ t ≤ T + (k + 1) * (D / (vs.length - 1 : Nat)) ∧
    x = a + (b - a) * ((t - (T + k * (D / (vs.length - 1 : Nat)))) / (D / (vs.length - 1 : Nat)))

/-- The specification determines the value. -/
theorem OnCurve.unique {T D : K} {vs : List K} (hD : 0 < D) {t x y : K}
    (hx : OnCurve T D vs t x) (hy : OnCurve T D vs t y) : x = y := by
  have hpos : ∀ k : Nat, ∀ b : K, vs[k + 1]? = some b → 0 < ((vs.length - 1 : Nat) : K) := by
    intro k b hb
    have := (List.getElem?_eq_some_iff.1 hb).1
    exact_mod_cast (by omega : 0 < vs.length - 1)
  have hedge : ∀ {x y : K} {k : Nat} {a b : K}, vs.getLast? = some x → T + D ≤ t → vs[k]? = some a →
      vs[k + 1]? = some b → t ≤ T + (k + 1) * (D / (vs.length - 1 : Nat)) →
      y = a + (b - a) * ((t - (T + k * (D / (vs.length - 1 : Nat)))) / (D / (vs.length - 1 : Nat))) →
      x = y := by
    intro x y k a b hl hT ha hb ht hy
    have hn := hpos k b hb
    have hlt := (List.getElem?_eq_some_iff.1 hb).1
    set w := D / ((vs.length - 1 : Nat) : K) with hw
    have hwp : 0 < w := div_pos hD hn
    have hDw : D = ((vs.length - 1 : Nat) : K) * w := by rw [hw]; field_simp
    have hk1 : ((vs.length - 1 : Nat) : K) ≤ (k : K) + 1 := by
      by_contra hcon
      push Not at hcon
      nlinarith
    have hk2 : vs.length - 1 ≤ k + 1 := by exact_mod_cast hk1
    have hke : vs.length - 1 = k + 1 := by omega
    have hDk : D = ((k : K) + 1) * w := by rw [hDw, hke]; push_cast; ring
    have hte : t - (T + k * w) = w := by linarith
    rw [hte, div_self hwp.ne'] at hy
    rw [List.getLast?_eq_getElem?, hke, hb] at hl
    cases hl
    rw [hy]; ring
  rcases hx with ⟨h1, h2⟩ | ⟨k, a, b, ha, hb, h1, h2, h3⟩
  · rcases hy with ⟨g1, g2⟩ | ⟨m, c, d, hc, hd, g1, g2, g3⟩
    · rw [h2] at g2; cases g2; rfl
    · exact hedge h2 h1 hc hd g2 g3
  · rcases hy with ⟨g1, g2⟩ | ⟨m, c, d, hc, hd, g1, g2, g3⟩
    · exact (hedge g2 g1 ha hb h2 h3).symm
    · have hn := hpos k b hb
      set w := D / ((vs.length - 1 : Nat) : K) with hw
      have hwp : 0 < w := div_pos hD hn
      have hkm : (k : K) ≤ (m : K) + 1 := by
        by_contra hcon; push Not at hcon; nlinarith
      have hmk : (m : K) ≤ (k : K) + 1 := by
        by_contra hcon; push Not at hcon; nlinarith
      have hkm' : k ≤ m + 1 := by exact_mod_cast hkm
      have hmk' : m ≤ k + 1 := by exact_mod_cast hmk
      rcases Nat.lt_trichotomy k m with h | h | h
      · have : m = k + 1 := by omega
        subst this
        rw [hb] at hc; cases hc
        push_cast at g1 g3
        have ht : t = T + (k + 1) * w := le_antisymm h2 g1
        rw [h3, g3, show t - (T + k * w) = w by rw [ht]; ring,
          show t - (T + (k + 1) * w) = 0 by rw [ht]; ring, div_self hwp.ne', zero_div]
        ring
      · subst h
        rw [ha] at hc; rw [hb] at hd; cases hc; cases hd
        rw [h3, g3]
      · have : k = m + 1 := by omega
        subst this
        rw [hd] at ha; cases ha
        push_cast at h1 h3
        have ht : t = T + (m + 1) * w := le_antisymm g2 h1
        rw [h3, g3, show t - (T + m * w) = w by rw [ht]; ring,
          show t - (T + (m + 1) * w) = 0 by rw [ht]; ring, div_self hwp.ne', zero_div]
        ring

/-- The formula of the code meets the specification. -/
theorem onCurve_of_sample {ex : K → K} {pw : K → K → K} {mn mx T D : K} {vs : List K} (hD : 0 < D)
    {t x : K} (hT : T ≤ t) (h : (exact ex pw mn mx).curve T D vs t = some x) : OnCurve T D vs t x := by
  unfold exact at h
  simp only at h
  split at h
  · rename_i hd
    exact .inl ⟨by linarith, h⟩
  · rename_i hd
    refine .inr ?_
    split at h
    · rename_i a b ha hb
      have hlt := (List.getElem?_eq_some_iff.1 hb).1
      have hn : 0 < ((vs.length - 1 : Nat) : K) := by exact_mod_cast (by omega : 0 < vs.length - 1)
      have hpos : 0 ≤ ((vs.length - 1 : Nat) : K) * (t - T) / D :=
        div_nonneg (mul_nonneg hn.le (by linarith)) hD.le
      refine ⟨_, a, b, ha, hb, ?_, ?_, ?_⟩
      · have := Nat.floor_le hpos
        rw [le_div_iff₀ hD] at this
        have h2 : (⌊((vs.length - 1 : Nat) : K) * (t - T) / D⌋₊ : K) * (D / (vs.length - 1 : Nat)) ≤ t - T := by
          rw [mul_div_assoc', div_le_iff₀ hn]; linarith
        linarith
      · have := Nat.lt_floor_add_one (((vs.length - 1 : Nat) : K) * (t - T) / D)
        rw [div_lt_iff₀ hD] at this
        have h2 : t - T ≤ ((⌊((vs.length - 1 : Nat) : K) * (t - T) / D⌋₊ : K) + 1) * (D / (vs.length - 1 : Nat)) := by
          rw [mul_div_assoc', le_div_iff₀ hn]; linarith
        linarith
      · simp only [Option.some.injEq] at h
        rw [← h]
        have hfl : ((⌊((vs.length - 1 : Nat) : K) * (t - T) / D⌋ : Int) : K) =
            ((⌊((vs.length - 1 : Nat) : K) * (t - T) / D⌋₊ : Nat) : K) := by
          have : ⌊((vs.length - 1 : Nat) : K) * (t - T) / D⌋ =
              ((⌊((vs.length - 1 : Nat) : K) * (t - T) / D⌋₊ : Nat) : Int) := by
            rw [Int.floor_eq_iff]
            exact ⟨by exact_mod_cast Nat.floor_le hpos, by exact_mod_cast Nat.lt_floor_add_one _⟩
          rw [this]; simp
        rw [hfl]
        field_simp
        ring
    · cases h

/-- Between two quanta: the curve is waiting or playing, or it is finished. -/
inductive Playing (T D : K) (vs : List K) (now : K) (rest : List (Ev K K)) (p : Proc K K) : Prop
  | running (z : K) (htl : p.timeline = { kind := .curve D vs, value := z, time := T } :: rest)
      (hnow : now ≤ T + D) (hv : p.aRate = false → T < now → OnCurve T D vs now p.intrinsic)
  | done (htl : p.timeline = rest) (hv : vs.getLast? = some p.intrinsic) (hnow : T + D ≤ now)

/-- What a curve does in a block. -/
theorem event_curve {A : Arith K K} {b : Block K} {p : Proc K K} {T D z : K} {vs : List K}
    {rest : List (Ev K K)} (hp : p.timeline = { kind := .curve D vs, value := z, time := T } :: rest)
    {r : Bool × Proc K K} (h : computeEvent A p b = .ok r) :
    ∃ s, (if p.aRate then
          (List.range' p.buffer.length (min (b.index (T + D)) b.count - p.buffer.length)).mapM
            (fun i => if b.frame i < T then some p.intrinsic else A.curve T D vs (b.frame i))
        else some []) = some s ∧
      ((b.next ≤ T + D ∧ ∃ v, A.curve T D vs b.next = some v ∧
          r = (true, { p with buffer := p.buffer ++ s, intrinsic := v })) ∨
       (T + D < b.next ∧ ∃ v, vs.getLast? = some v ∧
          r = (false, { p with buffer := p.buffer ++ s, intrinsic := v, timeline := rest, last := some { kind := .curve D vs, time := T + D, value := v } }))) := by
  unfold computeEvent at h
  rw [hp] at h
  dsimp only at h
  unfold computeCurve at h
  rw [hp] at h
  dsimp only [Option.getD_none] at h
  generalize hsam : (if p.aRate then
          (List.range' p.buffer.length (min (b.index (T + D)) b.count - p.buffer.length)).mapM
            (fun i => if b.frame i < T then some p.intrinsic else A.curve T D vs (b.frame i))
        else some []) = sam at h ⊢
  cases sam with
  | none => cases h
  | some s =>
    refine ⟨s, rfl, ?_⟩
    dsimp only at h
    by_cases hle : b.next ≤ T + D
    · rw [if_pos hle] at h
      cases hc : A.curve T D vs b.next with
      | none => rw [hc] at h; cases h
      | some v =>
        rw [hc] at h
        cases h
        exact .inl ⟨hle, v, rfl, by rw [hp]⟩
    · rw [if_neg hle] at h
      simp only [Option.isSome_none, Bool.false_eq_true, if_false] at h
      cases hc : vs.getLast? with
      | none => rw [hc] at h; cases h
      | some v =>
        rw [hc] at h
        cases h
        exact .inr ⟨not_le.1 hle, v, rfl, rfl⟩

/-- A quantum before the next event. -/
theorem Playing.block {ex : K → K} {pw : K → K → K} {mn mx : K} {b : Block K} (hdt : 0 < b.dt)
    (hc : 0 < b.count) (ht : 0 ≤ b.time) {T D : K} {vs : List K} (hD : 0 < D) {rest : List (Ev K K)}
    {p q : Proc K K} (hf : Playing T D vs b.time rest p) (hu : Until b.next rest)
    (h : computeBuffer (exact ex pw mn mx) p b = .ok q) :
    Playing T D vs b.next rest q ∧ q.aRate = p.aRate := by
  have hlt := b.time_lt_next hdt hc
  rcases hf with ⟨z, htl, hnow, hv⟩ | ⟨htl, hv, hnow⟩
  · by_cases hk : b.next ≤ T
    · have hcon : isConstant p b = true := by
        unfold isConstant
        rw [htl]
        simp [Ev.isRamp, hk]
      rw [computeBuffer_const hcon] at h
      cases h
      exact ⟨.running z htl (by linarith) (fun _ hT => absurd hk (not_le.2 hT)), rfl⟩
    · have hnc : isConstant p b = false := by
        unfold isConstant
        rw [htl]
        simpa [Ev.isRamp] using hk
      rw [computeBuffer_loop hnc] at h
      unfold loop at h
      cases he : computeEvent (exact ex pw mn mx) { p with current := (exact ex pw mn mx).clamp p.intrinsic, buffer := if p.aRate then [] else [p.intrinsic] } b with
      | panic => rw [he] at h; cases h
      | fuel => rw [he] at h; cases h
      | ok r =>
        rw [he] at h
        simp only [Res.bind] at h
        obtain ⟨s, -, ⟨hle, v, hg, rfl⟩ | ⟨hgt, v, hl, rfl⟩⟩ := event_curve
          (p := { p with current := (exact ex pw mn mx).clamp p.intrinsic, buffer := if p.aRate then [] else [p.intrinsic] }) htl he
        · simp only [if_true] at h
          cases h
          exact ⟨.running z htl hle fun _ hT => onCurve_of_sample hD hT.le hg, rfl⟩
        · simp only [Bool.false_eq_true, if_false] at h
          rw [htl] at h
          simp only [List.length_cons, Nat.mul_succ] at h
          unfold loop at h
          obtain ⟨buf, hq⟩ := event_hold (A := exact ex pw mn mx) (b := b) hdt ht
            (p := { p with current := (exact ex pw mn mx).clamp p.intrinsic, buffer := (if p.aRate then [] else [p.intrinsic]) ++ s, intrinsic := v, timeline := rest, last := some { kind := .curve D vs, time := T + D, value := v } }) hu
          rw [hq] at h
          simp only [Res.bind, if_true] at h
          cases h
          exact ⟨.done rfl hl hgt.le, rfl⟩
  · have hcon : isConstant p b = true := by
      unfold isConstant
      rw [htl]
      cases rest with
      | nil => rfl
      | cons n more =>
        obtain ⟨hk, hn⟩ := hu n more rfl
        simp [Ev.isRamp, hk, hn.le]
    rw [computeBuffer_const hcon] at h
    cases h
    exact ⟨.done htl hv (by linarith), rfl⟩

/-- Frames of a quantum. -/
theorem Playing.frame {ex : K → K} {pw : K → K → K} {mn mx : K} {b : Block K} (hdt : 0 < b.dt)
    (ht : 0 ≤ b.time) {T D : K} {vs : List K} (hD : 0 < D) (hvs : 2 ≤ vs.length) {rest : List (Ev K K)}
    {p q : Proc K K} (hf : Playing T D vs b.time rest p)
    (h : computeBuffer (exact ex pw mn mx) p b = .ok q) {i : Nat} (hic : i < b.count) (hT : T ≤ b.frame i)
    (hend : b.frame i + b.dt / 2 < T + D ∨ T + D ≤ b.frame i)
    (hu : Until (b.frame i + b.dt / 2) rest) (hr : p.aRate = true ∨ i = 0 ∧ T < b.time) :
    ∃ x, q.valueAt i = some x ∧ OnCurve T D vs (b.frame i) x := by
  have hfl : ∀ v, (exact ex pw mn mx).flush v = v := fun _ => rfl
  have htf : b.time ≤ b.frame i := by
    unfold Block.frame
    have : (0 : K) ≤ i * b.dt := by positivity
    linarith
  have hfn : b.frame i < b.next := by
    unfold Block.frame Block.next
    have : (i : K) < b.count := by exact_mod_cast hic
    nlinarith
  by_cases hk : isConstant p b = true
  · rw [computeBuffer_const hk] at h
    cases h
    refine ⟨p.intrinsic, by simp [Proc.valueAt], ?_⟩
    rcases hf with ⟨z, htl, hnow, hv⟩ | ⟨htl, hv, hnow⟩
    · unfold isConstant at hk
      rw [htl] at hk
      simp [Ev.isRamp] at hk
      exact absurd (hk.trans hT) (not_le.2 hfn)
    · exact .inl ⟨hnow.trans htf, hv⟩
  · rw [computeBuffer_loop (by simpa using hk)] at h
    by_cases ha : p.aRate = true
    · rw [if_pos ha] at h
      rcases hf with ⟨z, htl, hnow, hv⟩ | ⟨htl, hv, hnow⟩
      · cases he : computeEvent (exact ex pw mn mx) { p with current := (exact ex pw mn mx).clamp p.intrinsic, buffer := [] } b with
        | panic => unfold loop at h; rw [he] at h; cases h
        | fuel => unfold loop at h; rw [he] at h; cases h
        | ok r =>
          obtain ⟨s, hs, hcase⟩ := event_curve
            (p := { p with current := (exact ex pw mn mx).clamp p.intrinsic, buffer := [] }) htl he
          rw [if_pos ha] at hs
          by_cases hi : i < b.index (T + D)
          · have hx := curveTotal_exact ex pw mn mx T D vs (b.frame i) hD hvs
            rw [Option.isSome_iff_exists] at hx
            obtain ⟨x, hx⟩ := hx
            have hg := getElem?_mapM_range' (v := x) hs (Nat.zero_le i) (by
              simp only [List.length_nil]
              rw [Nat.zero_add, Nat.sub_zero]
              exact lt_min hi hic) (by rw [if_neg (not_lt.2 hT)]; exact hx)
            simp only [List.length_nil, Nat.sub_zero] at hg
            refine ⟨x, valueAt_of_get (loop_get hfl he ?_ h), onCurve_of_sample hD hT hx⟩
            rcases hcase with ⟨-, v, -, rfl⟩ | ⟨-, v, -, rfl⟩ <;> simpa using hg
          · have hge : T + D ≤ b.frame i := by
              rcases hend with hend | hend
              · exact absurd (Block.lt_index hdt hend) hi
              · exact hend
            rcases hcase with ⟨hle, -⟩ | ⟨hgt, v, hl, rfl⟩
            · exact absurd (hge.trans_lt hfn) (not_lt.2 hle)
            · unfold loop at h
              rw [he] at h
              simp only [Res.bind, Bool.false_eq_true, if_false] at h
              rw [htl] at h
              simp only [List.length_cons, Nat.mul_succ] at h
              have hlen := length_mapM hs
              simp only [List.length_range', List.length_nil, Nat.sub_zero] at hlen
              obtain ⟨r, hr', hx⟩ := event_hold_frame (A := exact ex pw mn mx) hdt ht
                (p := { p with current := (exact ex pw mn mx).clamp p.intrinsic, buffer := [] ++ s, intrinsic := v, timeline := rest, last := some { kind := .curve D vs, time := T + D, value := v } })
                ha (i := i) (by simp only [List.nil_append, hlen]; omega) hic hu
              exact ⟨v, valueAt_of_get (loop_get hfl hr' hx h), .inl ⟨hge, hl⟩⟩
      · obtain ⟨r, hr', hx⟩ := event_hold_frame (A := exact ex pw mn mx) hdt ht
          (p := { p with current := (exact ex pw mn mx).clamp p.intrinsic, buffer := [] })
          ha (Nat.zero_le _) hic (by rw [show _ = rest from htl]; exact hu)
        exact ⟨_, valueAt_of_get (loop_get hfl hr' hx h), .inl ⟨hnow.trans htf, hv⟩⟩
    · rw [if_neg ha] at h
      rcases hr with hr | ⟨hi, hr⟩
      · exact absurd hr ha
      · subst hi
        obtain ⟨t, ht'⟩ := loop_prefix hfl h
        have hx : q.buffer[0]? = some p.intrinsic := by rw [← ht']; rfl
        have h0 : b.frame 0 = b.time := by simp [Block.frame]
        rw [h0]
        refine ⟨_, valueAt_of_get hx, ?_⟩
        rcases hf with ⟨z, htl, hnow, hv⟩ | ⟨htl, hv, hnow⟩
        · exact hv (by simpa using ha) hr
        · exact .inl ⟨hnow, hv⟩

/-- Any number of quanta. -/
theorem Playing.blocks {ex : K → K} {pw : K → K → K}
    {mn mx dt : K} (hdt : 0 < dt) {count : Nat} (hc : 0 < count) {T D : K} {vs : List K} (hD : 0 < D)
    {rest : List (Ev K K)} {k : Nat} {s s' : Sys K K} (hf : Playing T D vs (s.frame * dt) rest s.p)
    (hu : Until ((s.frame + k * count : Nat) * dt) rest)
    (h : run (exact ex pw mn mx) dt count s (List.replicate k .block) = .ok s') :
      s'.frame = s.frame + k * count ∧ s'.p.aRate = s.p.aRate ∧
      Playing T D vs (s'.frame * dt) rest s'.p := by
  induction k generalizing s with
  | zero => cases h; exact ⟨by simp, rfl, hf⟩
  | succ k ih =>
    have hnx : (⟨s.frame * dt, dt, count⟩ : Block K).next = ((s.frame + count : Nat) : K) * dt := by
      simp only [Block.next]; push_cast; ring
    rw [List.replicate_succ] at h
    simp only [run, step] at h
    cases hb : computeBuffer (exact ex pw mn mx) s.p ⟨s.frame * dt, dt, count⟩ with
    | panic => rw [hb] at h; cases h
    | fuel => rw [hb] at h; cases h
    | ok q =>
      rw [hb] at h
      simp only [Res.bind] at h
      obtain ⟨hf', ha⟩ := Playing.block (b := ⟨s.frame * dt, dt, count⟩) hdt hc (by positivity) hD hf (hu.mono (by
          rw [hnx]
          apply mul_le_mul_of_nonneg_right _ hdt.le
          exact_mod_cast (by rw [Nat.add_mul]; omega))) hb
      rw [hnx] at hf'
      obtain ⟨h2, h3, h4⟩ := ih (s := ⟨q, s.frame + count⟩) hf' (by
        dsimp only
        rw [show s.frame + count + k * count = s.frame + (k + 1) * count by ring]
        exact hu) h
      exact ⟨by rw [h2]; dsimp only; ring, h3.trans ha, h4⟩

/-- The frames of a curve that is the next event. -/
theorem curve_frames {ex : K → K} {pw : K → K → K} {mn mx dt : K} (hdt : 0 < dt) {count : Nat}
    (hc : 0 < count) {T D z : K} {vs : List K} (hD : 0 < D) (hvs : 2 ≤ vs.length) {s : Sys K K}
    {sets : List (Ev K K)} (htl : s.p.timeline = { kind := .curve D vs, value := z, time := T } :: sets)
    (hk : ∀ e ∈ sets, e.kind = .setValueAtTime) (hnow : s.p.aRate = true ∨ s.frame * dt ≤ T)
    (hpast : s.frame * dt ≤ T + D) {k j : Nat} (hj : j < count)
    {t : K} (ht : t = ((s.frame + k * count + j : Nat) : K) * dt) (hstart : T ≤ t)
    (hend : t + dt / 2 < T + D ∨ T + D ≤ t) (hstop : ∀ e ∈ sets, t + dt / 2 < e.time)
    (hr : s.p.aRate = true ∨ j = 0 ∧ T < t) {s' : Sys K K}
    (h : run (exact ex pw mn mx) dt count s (List.replicate (k + 1) .block) = .ok s') :
    ∃ x, s'.p.valueAt j = some x ∧ OnCurve T D vs t x := by
  have hf : Playing T D vs (s.frame * dt) sets s.p :=
    .running z htl hpast fun ha hlt => by
      rcases hnow with h' | h'
      · rw [ha] at h'; cases h'
      · exact absurd h' (not_le.2 hlt)
  have hu : Until (t + dt / 2) sets := fun n more hn => by
    have hmem : n ∈ sets := by rw [hn]; simp
    exact ⟨hk n hmem, hstop n hmem⟩
  rw [List.replicate_succ', run_append] at h
  cases hb1 : run (exact ex pw mn mx) dt count s (List.replicate k .block) with
  | panic => rw [hb1] at h; cases h
  | fuel => rw [hb1] at h; cases h
  | ok s1 =>
    rw [hb1] at h
    obtain ⟨h2, h3, h4⟩ := Playing.blocks hdt hc hD (k := k) hf (hu.mono (by
          rw [ht]
          push_cast
          have : (0 : K) ≤ j * dt := by positivity
          nlinarith)) hb1
    simp only [Res.bind, run, step] at h
    have hfr : (⟨s1.frame * dt, dt, count⟩ : Block K).frame j = t := by
      rw [ht, h2]
      simp only [Block.frame]
      push_cast
      ring
    cases hb : computeBuffer (exact ex pw mn mx) s1.p ⟨s1.frame * dt, dt, count⟩ with
    | panic => rw [hb] at h; cases h
    | fuel => rw [hb] at h; cases h
    | ok q =>
      rw [hb] at h
      cases h
      rw [← hfr]
      refine Playing.frame hdt (by positivity) hD hvs h4 hb hj (by rw [hfr]; exact hstart)
        (by rw [hfr]; exact hend) (by rw [hfr]; exact hu) ?_
      rcases hr with hr | ⟨hj0, hr⟩
      · exact .inl (h3.trans hr)
      · refine .inr ⟨hj0, ?_⟩
        rw [← hfr] at hr
        subst hj0
        simpa [Block.frame] using hr

/-- The messages of a call of `set_value_curve_at_time` on a parameter with no other automation, and of later
calls of `set_value_at_time` for times after the curve. -/
theorem run_curve {A : Arith K K} {dt : K} {count : Nat} {s : Sys K K} (hi : s.p.timeline = [])
    {T D z : K} {vs : List K} (hD : 0 < D) {sets : List (Ev K K)}
    (hs : sets.Pairwise fun a b => a.time ≤ b.time) (hT : ∀ e ∈ sets, T + D ≤ e.time)
    (hk : ∀ e ∈ sets, e.kind = .setValueAtTime) :
    run A dt count s (.event { kind := .curve D vs, value := z, time := T } :: sets.map .event) =
      .ok { s with p := { s.p with timeline := { kind := .curve D vs, value := z, time := T } :: sets } } := by
  have hh : handle s.p { kind := .curve D vs, value := z, time := T } =
      .ok { s.p with timeline := [{ kind := .curve D vs, value := z, time := T }] } := by
    unfold handle
    simp [insert, overlaps, implicit, setIntrinsic, hi, sort]
  unfold run
  simp only [step, hh, Res.bind]
  have key : ∀ (todo seen : List (Ev K K)) (p : Proc K K),
      p.timeline = { kind := .curve D vs, value := z, time := T } :: seen → seen ++ todo = sets →
      run A dt count { s with p := p } (todo.map .event) = .ok { s with p := { p with timeline :=
        { kind := .curve D vs, value := z, time := T } :: sets } } := by
    intro todo
    induction todo with
    | nil =>
      intro seen p hp hst
      rw [List.append_nil] at hst
      subst hst
      simp only [List.map_nil, run, ← hp]
    | cons e todo ih =>
      intro seen p hp hst
      have hmem : e ∈ sets := by rw [← hst]; simp
      have hek : e.kind = .setValueAtTime := hk e hmem
      have hsrt : Sorted (p.timeline ++ [e]) := by
        rw [hp]
        unfold Sorted
        rw [List.cons_append, List.pairwise_cons]
        have hsub : (seen ++ [e]).Sublist sets := by
          rw [← hst]
          exact List.Sublist.append_left (List.singleton_sublist.2 (by simp)) _
        refine ⟨fun a ha => ?_, hs.sublist hsub⟩
        have := hT a (hsub.subset ha)
        dsimp only
        linarith
      have hov : overlaps p.timeline e = false := by
        unfold overlaps
        rw [hek]
        simp only [List.any_eq_false]
        intro x hx
        rw [hp] at hx
        rcases List.mem_cons.1 hx with rfl | hx
        · have := hT e hmem
          simp [this]
        · have := hk x (by rw [← hst]; simp [hx])
          rw [this]
          simp
      have hne : p.timeline ≠ [] := by rw [hp]; simp
      have hh : handle p e = .ok { p with timeline := p.timeline ++ [e] } := by
        unfold handle
        rw [hek]
        dsimp only
        unfold insert
        rw [if_neg (by rw [hov]; simp)]
        simp only [implicit, hne, if_false, List.append_nil, setIntrinsic, hek]
        rw [sort_eq hsrt]
      simp only [List.map_cons, run, step, hh, Res.bind]
      have := ih (seen ++ [e]) { p with timeline := p.timeline ++ [e] } (by
        dsimp only
        rw [hp]
        simp) (by rw [← hst]; simp)
      exact this
  exact key sets [] _ rfl rfl

/-- C88: after `set_value_curve_at_time` on a parameter without other pending automation (in any state
otherwise), possibly followed by calls of `set_value_at_time` for times after the curve, every frame from
the start of the curve up to the next event has the value of the curve, and the last value after its end
(up to half a frame before the end, and from the end on). Missing: start times in the past
(`C88_negated_past`); a curve that is not alone (`C29_negated_curve`); the rounding of the position
(`C57_negated`); frames less than half a frame before the end, which may have the last value already. -/
theorem C88_plays_partial {ex : K → K} {pw : K → K → K} {mn mx dt : K} (hdt : 0 < dt) {count : Nat}
    (hc : 0 < count) {T D z : K} {vs : List K} (hD : 0 < D) (hvs : 2 ≤ vs.length) {s : Sys K K}
    (hi : s.p.timeline = []) {sets : List (Ev K K)} (hs : sets.Pairwise fun a b => a.time ≤ b.time)
    (hT : ∀ e ∈ sets, T + D ≤ e.time) (hk : ∀ e ∈ sets, e.kind = .setValueAtTime)
    (hnow : s.frame * dt ≤ T) {k j : Nat} (hj : j < count)
    {t : K} (ht : t = ((s.frame + k * count + j : Nat) : K) * dt) (hstart : T ≤ t)
    (hend : t + dt / 2 < T + D ∨ T + D ≤ t) (hstop : ∀ e ∈ sets, t + dt / 2 < e.time)
    (hr : s.p.aRate = true ∨ j = 0 ∧ T < t) {s' : Sys K K}
    (h : run (exact ex pw mn mx) dt count s
      ((.event { kind := .curve D vs, value := z, time := T } :: sets.map .event) ++
        List.replicate (k + 1) .block) = .ok s') :
    ∃ x, s'.p.valueAt j = some x ∧ OnCurve T D vs t x := by
  rw [run_append, run_curve hi hD hs hT hk] at h
  simp only [Res.bind] at h
  exact curve_frames (s := { s with p := { s.p with timeline := { kind := .curve D vs, value := z, time := T } :: sets } })
    hdt hc hD hvs rfl hk (.inr hnow) (by dsimp only; linarith) hj ht hstart hend hstop hr h

/-- C88 is false if the start time is in the past, even if it is 0, which stands for "now" in
`set_value_at_time`: the part of the curve before the current time is cut off; in particular the curve does
not begin with its first value. -/
theorem C88_negated_past {ex : K → K} {pw : K → K → K} {mn mx dt : K} (hdt : 0 < dt) {count : Nat}
    (hc : 0 < count) {T D z : K} {vs : List K} (hD : 0 < D) (hvs : 2 ≤ vs.length) {s : Sys K K}
    (hi : s.p.timeline = []) (hpast : T < s.frame * dt) (hnot : s.frame * dt + dt / 2 < T + D)
    (ha : s.p.aRate = true) {s' : Sys K K}
    (h : run (exact ex pw mn mx) dt count s
      [.event { kind := .curve D vs, value := z, time := T }, .block] = .ok s') :
    ∃ x, s'.p.valueAt 0 = some x ∧ OnCurve T D vs (s.frame * dt) x ∧
      ∀ a b, vs[0]? = some a → vs[1]? = some b → a ≠ b →
        s.frame * dt ≤ T + D / (vs.length - 1 : Nat) → x ≠ a := by
  have := run_append (A := exact ex pw mn mx) (dt := dt) (count := count) s
    [.event { kind := .curve D vs, value := z, time := T }] [.block]
  rw [show ([.event { kind := .curve D vs, value := z, time := T }] : List (Op K K)) =
    .event { kind := .curve D vs, value := z, time := T } :: ([] : List (Ev K K)).map .event from rfl,
    run_curve hi hD (by simp) (by simp) (by simp)] at this
  rw [show ([.event { kind := .curve D vs, value := z, time := T }, .block] : List (Op K K)) =
    (.event { kind := .curve D vs, value := z, time := T } :: ([] : List (Ev K K)).map .event) ++ [.block]
    from rfl, this] at h
  simp only [Res.bind] at h
  obtain ⟨x, hx, hon⟩ := curve_frames
    (s := { s with p := { s.p with timeline := [{ kind := .curve D vs, value := z, time := T }] } })
    hdt hc hD hvs rfl (by simp) (.inl ha) (by dsimp only; linarith) (k := 0) (j := 0) hc (t := s.frame * dt) (by simp)
    hpast.le (.inl hnot) (by simp) (.inl ha) h
  refine ⟨x, hx, hon, fun a b ha' hb hab hseg => ?_⟩
  have hn : 0 < ((vs.length - 1 : Nat) : K) := by exact_mod_cast (by omega : 0 < vs.length - 1)
  have hw : 0 < D / ((vs.length - 1 : Nat) : K) := div_pos hD hn
  have := OnCurve.unique hD hon (.inr ⟨0, a, b, ha', hb, by simpa using hpast.le, by simpa using hseg, rfl⟩)
  intro heq
  rw [heq] at this
  have h0 : (b - a) * ((s.frame * dt - (T + (0 : Nat) * (D / (vs.length - 1 : Nat)))) / (D / (vs.length - 1 : Nat))) = 0 := by
    linear_combination -this
  rcases mul_eq_zero.1 h0 with h0 | h0
  · exact hab (by linear_combination -h0)
  · rcases div_eq_zero_iff.1 h0 with h0 | h0
    · simp at h0
      linarith
    · exact hw.ne' h0

end

/-- `exp` replaced by a function with the same properties that can be evaluated. -/
def qExp (x : ℚ) : ℚ := if 0 ≤ x then 1 + x else 1 / (1 - x)

/-- frames of the parameter with value 3 after some operations: quanta of 4 frames, 1 s per frame -/
def qFrames (a : Bool) (frame : Nat) (ops : List (Op ℚ ℚ)) : Option (List (Option ℚ)) :=
  match run (exact qExp (fun x _ => x) (-100) 100) 1 4
    { p := { intrinsic := 3, current := 3, aRate := a }, frame := frame } ops with
  | .ok s => some ((List.range 4).map s.p.valueAt)
  | _ => none

/-- `C87_follows_partial`: from 3 to 11 with start at frame 6 and a time constant of 2; a value is set at
frame 15. -/
example : qFrames true 4 [targetAt 11 6 2, setAt 0 15, .block] =
      some [some 3, some 3, some 3, some (17/3)] ∧
    qFrames true 4 [targetAt 11 6 2, setAt 0 15, .block, .block, .block] =
      some [some 9, some (83/9), some (47/5), some 0] ∧
    qFrames false 4 [targetAt 11 6 2, setAt 0 15, .block, .block] =
      some [some 7, some 7, some 7, some 7] := by decide +kernel

/-- The function used in the example meets the hypotheses. -/
example : (∀ x, 0 < qExp x) ∧ Monotone qExp := by
  have hpos : ∀ x, 0 < qExp x := by
    intro x
    unfold qExp
    split
    · linarith
    · exact div_pos one_pos (by linarith)
  refine ⟨hpos, fun x y h => ?_⟩
  unfold qExp
  split <;> split
  · linarith
  · linarith
  · rename_i h1 h2
    rw [div_le_iff₀ (by linarith)]
    push Not at h1
    nlinarith
  · exact div_le_div_of_nonneg_left zero_le_one (by linarith) (by linarith)

/-- So does the exponential function. -/
example : (∀ x : ℝ, 0 < Real.exp x) ∧ Monotone Real.exp := ⟨Real.exp_pos, Real.exp_monotone⟩

/-- `C87_negated_past`: at frame 8, `set_target_at_time 11 0 2` jumps from 3 to 11 - 8/5. -/
example : qFrames true 8 [targetAt 11 0 2, .block] =
      some [some (47/5), some (105/11), some (29/3), some (127/13)] := by decide +kernel

/-- `C88_plays_partial`: the curve 0, 8, 4 from frame 6 to frame 14; a value is set at frame 19. -/
example : qFrames true 4 [curveAt [0, 8, 4] 6 8, setAt 1 19, .block] =
      some [some 3, some 3, some 0, some 2] ∧
    qFrames true 4 [curveAt [0, 8, 4] 6 8, setAt 1 19, .block, .block, .block] =
      some [some 6, some 5, some 4, some 4] ∧
    qFrames true 4 [curveAt [0, 8, 4] 6 8, setAt 1 19, .block, .block, .block, .block] =
      some [some 4, some 4, some 4, some 1] := by decide +kernel

/-- `C88_negated_past`: at frame 8, a curve 0, 8 of 16 s from time 0 begins with 4. -/
example : qFrames true 8 [curveAt [0, 8] 0 16, .block] =
      some [some 4, some (9/2), some 5, some (11/2)] := by decide +kernel

end Verif.Param
