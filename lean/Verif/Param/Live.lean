import Verif.Param.Envelope

/-!
# Automation that is scheduled while the parameter is rendered

The envelopes of `Verif.Param.Envelope` with events that arrive between quanta, and a ramp that is scheduled
while an exponential approach is running.
-/

namespace Verif.Param

section

variable {K : Type} [Field K] [LinearOrder K] [IsStrictOrderedRing K] [FloorRing K] [FloorSemiring K]

/-! ## Specification -/

/-- The events that are scheduled. -/
def scheduled : List (Op K K) → List (Ev K K)
  | [] => []
  | .event e :: ops => e :: scheduled ops
  | _ :: ops => scheduled ops

/-- The quanta that are rendered. -/
def quanta : List (Op K K) → Nat
  | [] => 0
  | .block :: ops => quanta ops + 1
  | _ :: ops => quanta ops

/-- Every event is scheduled before its time, the automation rate is not changed. -/
def Timely (dt : K) (count : Nat) : Nat → List (Op K K) → Prop
  | _, [] => True
  | f, .event e :: ops => f * dt ≤ e.time ∧ Timely dt count f ops
  | f, .block :: ops => Timely dt count (f + count) ops
  | _, .rate _ :: _ => False

/-! ## An event arrives -/

theorem Envelope.prefix {L M : List (Ev K K)} (h : Envelope (L ++ M)) : Envelope L :=
  ⟨fun e he => h.kinds e (by simp [he]), fun e he => h.plain e (by simp [he]), (List.pairwise_append.1 h.sorted).1,
    h.chain.left_of_append⟩

theorem Envelope.kind {L : List (Ev K K)} (h : Envelope L) {e : Ev K K} (he : e ∈ L) :
    e.kind = .setValueAtTime ∨ e.isRamp = true ∨ e.Targets := by
  rcases h.kinds e he with h | h | ⟨tau, -, h⟩
  · exact .inl h
  · exact .inr (.inl h)
  · exact .inr (.inr ⟨tau, h⟩)

theorem handle_empty {p : Proc K K} {e : Ev K K} (hi : p.timeline = [])
    (he : e.kind = .setValueAtTime ∨ e.isRamp = true ∨ e.Targets) :
    handle p e = .ok { p with timeline := sort (implicit p e ++ [e]) } := by
  have hov : overlaps p.timeline e = false := by
    rw [hi]; unfold overlaps; split <;> rfl
  have hsint : setIntrinsic p e = p.intrinsic := by
    unfold setIntrinsic
    rcases he with h | h | ⟨tau, h⟩
    · simp [h]
    · unfold Ev.isRamp at h
      split at h <;> simp_all
    · simp [h]
  have hins : insert p e = .ok { p with timeline := sort (implicit p e ++ [e]) } := by
    unfold insert
    rw [hov, hsint, hi]
    simp
  rw [← hins]
  unfold handle
  rcases he with h | h | ⟨tau, h⟩
  · simp only [h]
  · unfold Ev.isRamp at h
    split at h
    · rename_i h'; simp only [h']
    · rename_i h'; simp only [h']
    · cases h
  · simp only [h]

theorem head_append {α : Type} {l : List α} (h : l ≠ []) (m : List α) : (l ++ m).head? = l.head? := by
  cases l with
  | nil => exact absurd rfl h
  | cons a l => rfl

/-- An event that is scheduled in time is the last one of the envelope from now on. -/
theorem Waiting.append {ex : K → K} {v now : K} (hnow : 0 ≤ now) {L : List (Ev K K)} {p : Proc K K} {f : Ev K K}
    (hw : Waiting ex v L now p) (hL : Envelope (L ++ [f])) (hf : now ≤ f.time) (h2 : 2 ≤ L.length) :
    ∃ q, handle p f = .ok q ∧ q.aRate = p.aRate ∧ Waiting ex v (L ++ [f]) now q := by
  have hk := hL.kind (e := f) (by simp)
  have hsorted := hL.sorted
  have hsf : ∀ x ∈ L, x.time ≤ f.time := fun x hx =>
    (List.pairwise_append.1 hsorted).2.2 x hx f (by simp)
  have key : ∀ (a : Ev K K) (ys : List (Ev K K)), p.timeline = a :: ys → a.Plain → a.time ≤ f.time →
      (∀ y ∈ ys, a.time ≤ y.time) → (∃ xs e, L = xs ++ e :: ys) →
      handle p f = .ok { p with timeline := a :: (ys ++ [f]) } := by
    intro a ys htl ha1 ha2 ha3 ⟨xs, e, hLy⟩
    have := handle_later (p := p) (e := f) ?_ (by rw [htl]; simp) hk ?_
    · rw [this, htl]; simp
    · intro x hx
      rw [htl] at hx
      rcases List.mem_cons.1 hx with rfl | hx
      · exact ha1
      · exact .inr (hL.kind (by rw [hLy]; simp [hx]))
    · rw [htl]
      refine List.pairwise_cons.2 ⟨?_, ?_⟩
      · intro y hy
        rcases List.mem_append.1 hy with hy | hy
        · exact ha3 y hy
        · simp at hy; rw [hy]; exact ha2
      · rw [hLy] at hsorted
        simp only [List.append_assoc, List.cons_append] at hsorted
        exact (List.pairwise_cons.1 (List.pairwise_append.1 hsorted).2.1).2
  rcases hw with ⟨xs, e, ys, w, hLe, hE, htl, hn, hne, hi', hS, ha⟩ |
    ⟨e0, v0, tau, e, ys, hLe, hk0, hc0, htl, hk', het, hev, hlt0, h00, hr, ha⟩ |
    ⟨xs, e, ys, w, hLe, hE, htl, hn, hnt, hl, hi, hS, ha⟩ |
    ⟨xs, e, ys, w, l, tau, hLe, hE, hke, htl, hl, hv, hS, ha⟩ |
    ⟨xs, e, ys, w, tau, hLe, hE, hke, htl, hv, hn, hS, ha⟩
  · have hne' : ys ≠ [] := by
      obtain ⟨n, hn1, -⟩ := hne
      rintro rfl
      simp at hn1
    refine ⟨_, key _ ys htl (.inl rfl) (hnow.trans hf) (fun y hy => hnow.trans (ha y hy)) ⟨xs, e, hLe⟩, rfl, ?_⟩
    refine .again xs e (ys ++ [f]) w (by rw [hLe]; simp) hE rfl hn (by rw [head_append hne']; exact hne) hi' hS ?_
    intro n hn'
    rcases List.mem_append.1 hn' with hn' | hn'
    · exact ha n hn'
    · simp at hn'; rw [hn']; exact hf
  · have hne' : ys ≠ [] := by
      obtain ⟨n, hn1, -⟩ := hr
      rintro rfl
      simp at hn1
    have ha' : ∀ n ∈ ys ++ [f], now ≤ n.time := by
      intro n hn'
      rcases List.mem_append.1 hn' with hn' | hn'
      · exact ha n hn'
      · simp at hn'; rw [hn']; exact hf
    rcases htl with ⟨htl, hl⟩ | htl
    · refine ⟨_, key _ ys htl (.inr (.inr (.inr ⟨tau, hk0⟩))) (hlt0.trans hf) (fun y hy => hlt0.trans (ha y hy))
        ⟨[], e, hLe⟩, rfl, ?_⟩
      exact .turn e0 v0 tau e (ys ++ [f]) (by rw [hLe]; simp) hk0 hc0 (.inl ⟨rfl, hl⟩) hk' het hev hlt0 h00
        (by rw [head_append hne']; exact hr) ha'
    · have hh := handle_later (p := p) (e := f) ?_ (by rw [htl]; simp) hk ?_
      · refine ⟨_, hh, rfl, ?_⟩
        exact .turn e0 v0 tau e (ys ++ [f]) (by rw [hLe]; simp) hk0 hc0 (.inr (by rw [htl]; simp)) hk' het hev hlt0 h00
          (by rw [head_append hne']; exact hr) ha'
      · intro x hx
        rw [htl] at hx
        rcases List.mem_cons.1 hx with rfl | hx
        · exact .inl rfl
        · rcases List.mem_cons.1 hx with rfl | hx
          · exact .inr (.inr (.inr ⟨tau, hk0⟩))
          · exact .inr (hL.kind (by rw [hLe]; simp [hx]))
      · rw [htl]
        refine List.pairwise_cons.2 ⟨?_, List.pairwise_cons.2 ⟨fun y hy => hlt0.trans (ha' y hy), ?_⟩⟩
        · intro y hy
          rcases List.mem_cons.1 hy with rfl | hy
          · exact h00
          · exact hnow.trans (ha' y hy)
        · rw [hLe] at hsorted
          simp only [List.cons_append] at hsorted
          exact (List.pairwise_cons.1 hsorted).2
  · cases ys with
    | nil =>
      have hint : p.intrinsic = e.value := hi (by simp)
      have hs1 : Sorted ([f] : List (Ev K K)) := by simp [Sorted]
      rcases hk with hkf | hkf | ⟨tau', hkf⟩
      · have himp : implicit p f = [] := by unfold implicit; simp [hkf]
        have hh := handle_empty htl (.inl hkf)
        rw [himp, List.nil_append, sort_eq hs1] at hh
        refine ⟨_, hh, rfl, ?_⟩
        refine .held xs e [f] w (by rw [hLe]; simp) hE rfl hn ?_ ?_ (fun _ => hint) hS (by simpa using hf)
        · intro n hn'
          simp only [List.head?_cons, Option.some.injEq] at hn'
          rintro ⟨tau', h'⟩
          rw [← hn', hkf] at h'
          cases h'
        · intro hr
          have := hr f rfl
          simp [Ev.isRamp, hkf] at this
      · have hnt' : ¬ e.Targets := (hL.link (xs := xs) (ys := []) (by rw [hLe]; simp) hkf).1
        have hxs : xs ++ ([] : List (Ev K K)) ≠ [] := by
          rw [hLe] at h2
          intro hcon
          simp at hcon
          rw [hcon] at h2
          simp at h2
        obtain ⟨l, hl1, hl2, hl3⟩ := hl (by simp) hnt' hxs
        have himp : implicit p f = [] := by
          unfold implicit
          unfold Ev.isRamp at hkf
          split at hkf
          · rename_i h'; simp [h', hl1]
          · rename_i h'; simp [h', hl1]
          · cases hkf
        have hh := handle_empty htl (.inr (.inl hkf))
        rw [himp, List.nil_append, sort_eq hs1] at hh
        refine ⟨_, hh, rfl, ?_⟩
        refine .held xs e [f] w (by rw [hLe]; simp) hE rfl hn ?_ (fun _ _ _ => ⟨l, hl1, hl2, hl3⟩) (fun _ => hint)
          hS (by simpa using hf)
        intro n hn' ht
        simp only [List.head?_cons, Option.some.injEq] at hn'
        rw [← hn'] at ht
        rw [ht.not_ramp] at hkf
        cases hkf
      · have himp : implicit p f = [{ kind := .setValue, value := p.intrinsic, time := 0 }] := by
          unfold implicit; simp [hkf, htl]
        have hs2 : Sorted ([{ kind := .setValue, value := p.intrinsic, time := 0 }, f] : List (Ev K K)) := by
          simpa [Sorted] using hnow.trans hf
        have hh := handle_empty htl (.inr (.inr ⟨tau', hkf⟩))
        rw [himp, List.singleton_append, sort_eq hs2] at hh
        refine ⟨_, hh, rfl, ?_⟩
        refine .again xs e [f] w (by rw [hLe]; simp) hE (by rw [hint]) hn ⟨f, rfl, ?_, .inr ⟨tau', hkf⟩⟩ hint hS
          (by simpa using hf)
        intro hr
        simp [Ev.isRamp, hkf] at hr
    | cons n ys =>
      have hLn : L = (xs ++ [e]) ++ n :: ys := by rw [hLe]; simp
      refine ⟨_, key n ys htl (.inr (hL.kind (by rw [hLe]; simp))) (hsf n (by rw [hLe]; simp))
        (hL.prefix.after hLn) ⟨_, _, hLn⟩, rfl, ?_⟩
      refine .held xs e (n :: (ys ++ [f])) w (by rw [hLe]; simp) hE rfl hn hnt ?_ hi hS ?_
      · intro h1 h3 _
        exact hl h1 h3 (by simp)
      · intro m hm
        rcases List.mem_cons.1 hm with rfl | hm
        · exact ha m (by simp)
        · rcases List.mem_append.1 hm with hm | hm
          · exact ha m (by simp [hm])
          · simp at hm; rw [hm]; exact hf
  · refine ⟨_, key e ys htl (.inr (.inr (.inr ⟨tau, hke⟩))) (hsf e (by rw [hLe]; simp)) (hL.prefix.after hLe)
      ⟨xs, e, hLe⟩, rfl, ?_⟩
    refine .active xs e (ys ++ [f]) w l tau (by rw [hLe]; simp) hE hke rfl hl hv hS ?_
    intro n hn'
    rcases List.mem_append.1 hn' with hn' | hn'
    · exact ha n hn'
    · simp at hn'; rw [hn']; exact hf
  · refine ⟨_, key _ ys htl (.inr (.inl rfl)) hf (fun y hy => ha y hy) ⟨xs, e, hLe⟩, rfl, ?_⟩
    refine .snapped xs e (ys ++ [f]) w tau (by rw [hLe]; simp) hE hke rfl hv hn hS ?_
    intro n hn'
    rcases List.mem_append.1 hn' with hn' | hn'
    · exact ha n hn'
    · simp at hn'; rw [hn']; exact hf

/-- Any sequence of scheduling calls in time and quanta. -/
theorem Waiting.ops {ex : K → K} (hm : Monotone ex) (hpos : ∀ x, 0 < ex x) {pw : K → K → K}
    {mn mx dt : K} (hdt : 0 < dt) {count : Nat} (hc : 2 ≤ count) {v : K} {ops : List (Op K K)}
    {L : List (Ev K K)} (hL : Envelope (L ++ scheduled ops)) (hlen : 2 ≤ L.length) {s s' : Sys K K}
    (h0 : ∀ e, L.head? = some e → e.time ≤ s.frame * dt) (hin : Timely dt count s.frame ops)
    (har : s.p.aRate = true) (hw : Waiting ex v L (s.frame * dt) s.p)
    (h : run (exact ex pw mn mx) dt count s ops = .ok s') :
    s'.frame = s.frame + quanta ops * count ∧ s'.p.aRate = true ∧
      Waiting ex v (L ++ scheduled ops) (s'.frame * dt) s'.p := by
  induction ops generalizing s L with
  | nil =>
    cases h
    exact ⟨by simp [quanta], har, by simpa [scheduled] using hw⟩
  | cons o ops ih =>
    rw [run] at h
    cases o with
    | rate r => exact hin.elim
    | event e =>
      simp only [scheduled, quanta] at hL ⊢
      have hL' : Envelope (L ++ [e] ++ scheduled ops) := by simpa using hL
      obtain ⟨q, hq1, hq2, hq3⟩ := hw.append (by positivity) hL'.prefix hin.1 hlen
      simp only [step, hq1, Res.bind] at h
      have := ih (s := { s with p := q }) hL' (by simp; omega) (fun x hx => h0 x (by
        rw [← hx, head_append (by rintro rfl; simp at hlen)])) hin.2 (hq2.trans har) hq3 h
      simpa using this
    | block =>
      simp only [scheduled, quanta] at hL ⊢
      cases hb : computeBuffer (exact ex pw mn mx) s.p ⟨s.frame * dt, dt, count⟩ with
      | panic => simp only [step, hb] at h; cases h
      | fuel => simp only [step, hb] at h; cases h
      | ok q =>
        simp only [step, hb, Res.bind] at h
        have hnx : (⟨s.frame * dt, dt, count⟩ : Block K).next = ((s.frame + count : Nat) : K) * dt := by
          simp only [Block.next]; push_cast; ring
        obtain ⟨b1, b2, -⟩ := Waiting.block (b := ⟨s.frame * dt, dt, count⟩)
          ⟨hm, hpos, hdt, by dsimp only; omega, by positivity, hL.prefix, h0⟩ hc har hw hb
        rw [hnx] at b2
        obtain ⟨i1, i2, i3⟩ := ih (s := ⟨q, s.frame + count⟩) hL hlen (fun e he => (h0 e he).trans (by
          dsimp only
          apply mul_le_mul_of_nonneg_right _ hdt.le
          exact_mod_cast Nat.le_add_right _ _)) hin b1 b2 h
        exact ⟨by rw [i1]; dsimp only; ring, i2, i3⟩

/-- The frames of the next quantum. -/
theorem Waiting.next {ex : K → K} (hm : Monotone ex) (hpos : ∀ x, 0 < ex x) {pw : K → K → K}
    {mn mx dt : K} (hdt : 0 < dt) {count : Nat} (hc : 2 ≤ count) {v : K} {L : List (Ev K K)} (hL : Envelope L)
    {s s' : Sys K K} (h0 : ∀ e, L.head? = some e → e.time ≤ s.frame * dt) (har : s.p.aRate = true)
    (hw : Waiting ex v L (s.frame * dt) s.p) {j : Nat} (hj : j < count)
    (h : run (exact ex pw mn mx) dt count s [.block] = .ok s') :
    ∃ x, s'.p.valueAt j = some x ∧
      PlaysAt ex pw v L dt (s.frame * dt) ((s.frame + j : Nat) * dt) x := by
  simp only [run, step] at h
  cases hb : computeBuffer (exact ex pw mn mx) s.p ⟨s.frame * dt, dt, count⟩ with
  | panic => rw [hb] at h; cases h
  | fuel => rw [hb] at h; cases h
  | ok q =>
    rw [hb] at h
    cases h
    obtain ⟨-, -, hv⟩ := Waiting.block (b := ⟨s.frame * dt, dt, count⟩)
      ⟨hm, hpos, hdt, by dsimp only; omega, by positivity, hL, h0⟩ hc har hw hb
    obtain ⟨x, x1, x2⟩ := hv j hj
    refine ⟨x, x1, ?_⟩
    have hfr : (⟨s.frame * dt, dt, count⟩ : Block K).frame j = ((s.frame + j : Nat) : K) * dt := by
      simp only [Block.frame]
      push_cast
      ring
    rwa [hfr] at x2

/-- C96 for events that are scheduled while the parameter is rendered, each one before its time: in every
quantum the envelope of the events scheduled so far is played. As there, a-rate, events in the order of their
times, no ramp directly after a target. -/
theorem C96_live_partial {ex : K → K} (hm : Monotone ex) (hpos : ∀ x, 0 < ex x) {pw : K → K → K}
    {mn mx dt : K} (hdt : 0 < dt) {count : Nat} (hc : 2 ≤ count) {s s' : Sys K K} (hi : s.p.timeline = [])
    (har : s.p.aRate = true) {e : Ev K K} {ops : List (Op K K)}
    (hL : Envelope (start s.p.intrinsic (s.frame * dt) :: e :: scheduled ops))
    (hin : Timely dt count s.frame ops)
    (hfirst : e.isRamp = true → s.p.last = none) {j : Nat} (hj : j < count)
    (h : run (exact ex pw mn mx) dt count s (.event e :: ops ++ [.block]) = .ok s') :
    ∃ x, s'.p.valueAt j = some x ∧
      PlaysAt ex pw s.p.intrinsic (start s.p.intrinsic (s.frame * dt) :: e :: scheduled ops) dt
        ((s.frame + quanta ops * count : Nat) * dt) ((s.frame + quanta ops * count + j : Nat) * dt) x := by
  have hL2 : Envelope ([start s.p.intrinsic (s.frame * dt), e] ++ scheduled ops) := hL
  obtain ⟨s1, h1, h2, h3, h4⟩ := run_envelope (ex := ex) (A := exact ex pw mn mx) (count := count) hdt hi
    (L := [e]) hL2.prefix (by simpa using hfirst)
  rw [← List.singleton_append, List.append_assoc, run_append] at h
  simp only [List.map_cons, List.map_nil] at h1
  rw [h1] at h
  simp only [Res.bind] at h
  rw [run_append] at h
  cases hr : run (exact ex pw mn mx) dt count s1 ops with
  | panic => rw [hr] at h; cases h
  | fuel => rw [hr] at h; cases h
  | ok s2 =>
    rw [hr] at h
    simp only [Res.bind] at h
    have h0 : ∀ x, [start s.p.intrinsic (s.frame * dt), e].head? = some x → x.time ≤ s1.frame * dt := by
      intro x hx
      simp only [List.head?_cons, Option.some.injEq] at hx
      subst hx
      rw [h2]
      exact le_rfl
    obtain ⟨b1, b2, b3⟩ := Waiting.ops hm hpos hdt hc hL2 (by simp) h0 (by rw [h2]; exact hin) (h3.trans har)
      (by rw [h2]; exact h4) hr
    have hle : (s1.frame : K) * dt ≤ s2.frame * dt := by
      rw [b1]
      apply mul_le_mul_of_nonneg_right _ hdt.le
      exact_mod_cast Nat.le_add_right _ _
    obtain ⟨x, x1, x2⟩ := Waiting.next hm hpos hdt hc hL2 (fun x hx => (h0 x (by simpa using hx)).trans hle) b2 b3 hj h
    rw [b1, h2] at x2
    exact ⟨x, x1, x2⟩

/-! ## A ramp while an approach is running -/

/-- The state some quanta after a call of `set_target_at_time`. -/
theorem run_following {ex : K → K} (hm : Monotone ex) (hpos : ∀ x, 0 < ex x) {pw : K → K → K}
    {mn mx dt : K} (hdt : 0 < dt) {count : Nat} (hc : 0 < count) {s s' : Sys K K} (hi : s.p.timeline = [])
    (har : s.p.aRate = true) {v1 T tau : K} (htau : 0 < tau) (hT : 0 ≤ T) {k : Nat}
    (h : run (exact ex pw mn mx) dt count s (.event { kind := .target tau, value := v1, time := T } ::
      List.replicate k .block) = .ok s') :
    s'.frame = s.frame + k * count ∧ s'.p.aRate = true ∧
      Following ex s.p.intrinsic v1 T tau (s'.frame * dt) [] s'.p := by
  have h0 := run_target (A := exact ex pw mn mx) (dt := dt) (count := count) hi (v1 := v1) (tau := tau) hT
    (sets := []) (by simp) (by simp)
  simp only [List.map_nil] at h0
  rw [← List.singleton_append, run_append, h0] at h
  simp only [Res.bind] at h
  obtain ⟨s1, h1, h2, h3, h4⟩ := Following.blocks hm hpos (pw := pw) (mn := mn) (mx := mx) hdt hc htau
    (s := { s with p := { s.p with timeline := [{ kind := .setValue, value := s.p.intrinsic, time := 0 },
      { kind := .target tau, value := v1, time := T }] } }) (k := k) (rest := [])
    ⟨.pre rfl rfl, fun ha => by rw [har] at ha; cases ha⟩ (fun n more hn => by cases hn)
  rw [h] at h1
  cases h1
  exact ⟨h2, h3.trans har, h4⟩

/-- C97: a ramp that is scheduled while an exponential approach is running starts at the value the approach
has reached and at the current time (the beginning of the next quantum), so that the curve has no step; more
events, that may again be scheduled while the parameter is rendered, follow as in C96. Missing: an approach
that is so close to its target that it counts as reached (`C97_negated_reached`). -/
theorem C97_turn_partial {ex : K → K} (hm : Monotone ex) (hpos : ∀ x, 0 < ex x) {pw : K → K → K}
    {mn mx dt : K} (hdt : 0 < dt) {count : Nat} (hc : 2 ≤ count) {s s' : Sys K K} (hi : s.p.timeline = [])
    (har : s.p.aRate = true) {v1 T tau : K} (htau : 0 < tau) (hT : 0 ≤ T) {k : Nat} {now y : K}
    (hnow : now = (s.frame + k * count : Nat) * dt) (hrun : T ≤ now)
    (hy : y = approach ex s.p.intrinsic v1 T tau now) (hfar : ¬ Near v1 y) {f : Ev K K} (hf : f.isRamp = true)
    {ops : List (Op K K)} (hL : Envelope (start y now :: f :: scheduled ops))
    (hin : Timely dt count (s.frame + k * count) ops) {j : Nat} (hj : j < count)
    (h : run (exact ex pw mn mx) dt count s ((.event { kind := .target tau, value := v1, time := T } ::
      List.replicate k .block) ++ (.event f :: ops ++ [.block])) = .ok s') :
    ∃ x, s'.p.valueAt j = some x ∧ PlaysAt ex pw y (start y now :: f :: scheduled ops) dt
      ((s.frame + (k + quanta ops) * count : Nat) * dt) ((s.frame + (k + quanta ops) * count + j : Nat) * dt) x := by
  rw [run_append] at h
  cases hr : run (exact ex pw mn mx) dt count s (.event { kind := .target tau, value := v1, time := T } ::
      List.replicate k .block) with
  | panic => rw [hr] at h; cases h
  | fuel => rw [hr] at h; cases h
  | ok s1 =>
    rw [hr] at h
    simp only [Res.bind] at h
    obtain ⟨f1, f2, f3, -⟩ := run_following hm hpos hdt (by omega) hi har htau hT hr
    have hnow' : now = s1.frame * dt := by rw [hnow, f1]
    rw [← hnow'] at f3
    have hft : now ≤ f.time := (List.pairwise_cons.1 hL.sorted).1 f (by simp)
    have hkf := hL.kind (e := f) (by simp)
    have hL2 : Envelope ([start y now, f] ++ scheduled ops) := hL
    have hw : ∃ q, handle s1.p f = .ok q ∧ q.aRate = s1.p.aRate ∧
        Waiting ex y [start y now, f] now q := by
      have last : ∀ tl : List (Ev K K), s1.p.timeline = tl → tl ≠ [] → (∀ x ∈ tl, x.Plain) → Sorted tl →
          (∀ x ∈ tl, x.time ≤ f.time) →
          handle s1.p f = .ok { s1.p with timeline := tl ++ [f] } := by
        intro tl htl hne hp hs hle
        rw [← htl]
        refine handle_later (by rw [htl]; exact hp) (by rw [htl]; exact hne) hkf ?_
        rw [htl]
        exact List.pairwise_append.2 ⟨hs, by simp, fun a ha b hb => by simp at hb; rw [hb]; exact hle a ha⟩
      rcases f3 with ⟨htl, hv⟩ | ⟨l, htl, hl, hv⟩ | ⟨htl, hv, hn⟩ | ⟨htl, hv, hn⟩
      · refine ⟨_, last _ htl (by simp) ?_ ?_ ?_, rfl, ?_⟩
        · intro x hx
          simp only [List.mem_cons, List.not_mem_nil, or_false] at hx
          rcases hx with rfl | rfl
          · exact .inl rfl
          · exact .inr (.inr (.inr ⟨tau, rfl⟩))
        · simpa [Sorted] using hT
        · intro x hx
          simp only [List.mem_cons, List.not_mem_nil, or_false] at hx
          rcases hx with rfl | rfl
          · exact (hT.trans hrun).trans hft
          · exact hrun.trans hft
        · exact .turn { kind := .target tau, value := v1, time := T } s.p.intrinsic tau (start y now) [f] rfl rfl rfl
            (.inr rfl) (by rintro ⟨t, ht⟩; cases ht) rfl hy hrun hT ⟨f, rfl, hf⟩ (by simpa using hft)
      · refine ⟨_, last _ htl (by simp) ?_ (by simp [Sorted]) ?_, rfl, ?_⟩
        · intro x hx
          simp only [List.mem_singleton] at hx
          subst hx
          exact .inr (.inr (.inr ⟨tau, rfl⟩))
        · intro x hx
          simp only [List.mem_singleton] at hx
          subst hx
          exact hrun.trans hft
        · exact .turn { kind := .target tau, value := v1, time := T } s.p.intrinsic tau (start y now) [f] rfl rfl rfl
            (.inl ⟨rfl, l, hl, hv⟩) (by rintro ⟨t, ht⟩; cases ht) rfl hy hrun hT ⟨f, rfl, hf⟩ (by simpa using hft)
      · exact absurd (hy ▸ hn) hfar
      · exact absurd (hy ▸ hn) hfar
    obtain ⟨q, q1, q2, q3⟩ := hw
    rw [List.cons_append, run] at h
    simp only [step, q1, Res.bind] at h
    rw [run_append] at h
    cases hr2 : run (exact ex pw mn mx) dt count { p := q, frame := s1.frame } ops with
    | panic => rw [hr2] at h; cases h
    | fuel => rw [hr2] at h; cases h
    | ok s2 =>
      rw [hr2] at h
      simp only [Res.bind] at h
      have h0 : ∀ x, [start y now, f].head? = some x → x.time ≤ s1.frame * dt := by
        intro x hx
        simp only [List.head?_cons, Option.some.injEq] at hx
        subst hx
        rw [← hnow']
        exact le_rfl
      obtain ⟨b1, b2, b3⟩ := Waiting.ops (s := { p := q, frame := s1.frame }) hm hpos hdt hc hL2 (by simp) h0
        (by dsimp only; rw [f1]; exact hin) (q2.trans f2) (by dsimp only; rw [← hnow']; exact q3) hr2
      dsimp only at b1
      have hle : (s1.frame : K) * dt ≤ s2.frame * dt := by
        rw [b1]
        apply mul_le_mul_of_nonneg_right _ hdt.le
        exact_mod_cast Nat.le_add_right _ _
      obtain ⟨x, x1, x2⟩ := Waiting.next hm hpos hdt hc hL2 (fun x hx => (h0 x (by simpa using hx)).trans hle) b2 b3
        hj h
      have hfr : s2.frame = s.frame + (k + quanta ops) * count := by rw [b1, f1]; ring
      rw [hfr] at x2
      exact ⟨x, x1, x2⟩

/-- A release by a linear ramp, spelled out: from the time of the call on, the value goes in a straight line from
the value of the approach at that time to the end of the ramp, and stays there. -/
theorem C97_linear_partial {ex : K → K} (hm : Monotone ex) (hpos : ∀ x, 0 < ex x) {pw : K → K → K}
    {mn mx dt : K} (hdt : 0 < dt) {count : Nat} (hc : 2 ≤ count) {s s' : Sys K K} (hi : s.p.timeline = [])
    (har : s.p.aRate = true) {v1 T tau v2 t2 : K} (htau : 0 < tau) (hT : 0 ≤ T) {k m : Nat} {now y t : K}
    (hnow : now = (s.frame + k * count : Nat) * dt) (hrun : T ≤ now) (h2 : now < t2)
    (hy : y = approach ex s.p.intrinsic v1 T tau now) (hfar : ¬ Near v1 y) {j : Nat} (hj : j < count)
    (ht : t = (s.frame + (k + m) * count + j : Nat) * dt)
    (h : run (exact ex pw mn mx) dt count s ((.event { kind := .target tau, value := v1, time := T } ::
      List.replicate k .block) ++ (.event { kind := .linear, value := v2, time := t2 } ::
        List.replicate m .block ++ [.block])) = .ok s') :
    ∃ x, s'.p.valueAt j = some x ∧ (t + dt / 2 < t2 → x = y + (v2 - y) * ((t - now) / (t2 - now))) ∧
      (t2 ≤ t → x = v2) := by
  have hsc : ∀ m, scheduled (List.replicate m (.block : Op K K)) = [] := by
    intro m; induction m with
    | zero => rfl
    | succ m ih => rw [List.replicate_succ]; exact ih
  have hqu : ∀ m, quanta (List.replicate m (.block : Op K K)) = m := by
    intro m; induction m with
    | zero => rfl
    | succ m ih => rw [List.replicate_succ, quanta, ih]
  have hti : ∀ m f, Timely dt count f (List.replicate m (.block : Op K K)) := by
    intro m; induction m with
    | zero => intro f; trivial
    | succ m ih => intro f; rw [List.replicate_succ]; exact ih _
  obtain ⟨x, hx, hp⟩ := C97_turn_partial hm hpos hdt hc hi har htau hT hnow hrun hy hfar
    (f := { kind := .linear, value := v2, time := t2 }) rfl (ops := List.replicate m .block)
    (by
      rw [hsc]
      refine ⟨by simp [start, Ev.isRamp], by simp [start], by simpa [Sorted, start] using h2.le, ?_⟩
      simp [start, Ev.Targets]) (hti _ _) hj h
  rw [hsc, hqu, ← ht] at hp
  refine ⟨x, hx, fun h3 => ?_, fun h3 => ?_⟩
  · obtain ⟨w, -, hseg⟩ := hp [] (start y now) [{ kind := .linear, value := v2, time := t2 }] rfl (by
      simp only [start]
      rw [hnow, ht]
      apply mul_le_mul_of_nonneg_right _ hdt.le
      have : s.frame + k * count ≤ s.frame + (k + m) * count + j := by nlinarith [Nat.zero_le (m * count)]
      exact_mod_cast this) (by simpa using h3)
    exact hseg (by simp [Ev.Targets])
  · obtain ⟨w, -, hseg⟩ := hp [start y now] { kind := .linear, value := v2, time := t2 } [] rfl h3 (by simp)
    exact hseg (by simp)

end

/-- C97 is false for an approach that counts as reached: from 0 to 1, reached in the first quantum (until frame
4); a ramp to 2 until time 20 that is scheduled at time 12, when the value has been 1 for a long time, does not
start at 1, but at 3/2, where a ramp that starts at time 4 would be. -/
theorem C97_negated_reached :
    (demoQ [.event { kind := .target 1, value := 1, time := 0 }, .block, .block, .block]).bind
        (fun p => p.valueAt 3) = some 1 ∧
      (demoQ [.event { kind := .target 1, value := 1, time := 0 }, .block, .block, .block,
        .event { kind := .linear, value := 2, time := 20 }, .block]).bind (fun p => p.valueAt 0) = some (3 / 2) := by
  decide +kernel

/-- The hypotheses of C97 hold for an approach from 0 to 1 with time constant 100 that is interrupted by a
ramp. -/
example : (demoQ ((.event { kind := .target 100, value := 1, time := 0 } :: List.replicate 3 .block) ++
        (.event { kind := .linear, value := 2, time := 20 } :: List.replicate 1 .block ++ [.block]))).bind
      (fun p => p.valueAt 1) = some (5 / 4) ∧ ¬ Near 1 (approach exQ 0 1 0 100 12) :=
  ⟨by decide +kernel, by norm_num [Near, approach, exQ]⟩

/-- An envelope that is scheduled live: a set value event, a ramp to it one quantum later, an approach. -/
example : Timely (1 : ℚ) 4 0 [.block, .event { kind := .linear, value := 2, time := 8 }, .block,
    .event { kind := .target 1, value := 0, time := 9 }] ∧
    Envelope (start (0 : ℚ) 0 :: { kind := .setValueAtTime, value := 1, time := 2 } :: scheduled [.block,
      .event { kind := .linear, value := 2, time := 8 }, .block,
      .event { kind := .target 1, value := 0, time := 9 }]) := by
  refine ⟨by norm_num [Timely], ?_⟩
  exact ⟨by simp [scheduled, start, Ev.isRamp], by simp [scheduled, start],
    by norm_num [scheduled, start, Sorted], by simp [scheduled, start, Ev.Targets, Ev.isRamp]⟩

end Verif.Param
