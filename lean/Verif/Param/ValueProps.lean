import Verif.Param.PlayCurve

/-!
# C89: what `AudioParam::value` returns

`value` (param.rs l.388-390) reads an atomic that is written by the control thread in `set_value_raw`
(l.407-414) and by the render thread at the beginning of `compute_buffer` (l.1520-1523; `Proc.current` in the
model). The comment at `value` promises the first sample of the last rendered quantum.
-/

namespace Verif.Param

section
variable {K V : Type} [Field K] [LinearOrder K] [IsStrictOrderedRing K] [FloorSemiring K]

/-- The value at the end of a quantum is the one the running automation has at time `t`. -/
def Coherent (A : Arith K V) (t : K) (p : Proc K V) : Prop :=
  ∀ e rest, p.timeline = e :: rest →
    (e.kind = .linear → ∃ l, p.last = some l ∧
      p.intrinsic = A.lin l.time (e.time - l.time) l.value e.value t) ∧
    (e.kind = .exponential → ∃ l, p.last = some l ∧ A.noRamp l.value e.value = false ∧
      p.intrinsic = A.exp l.time (e.time - l.time) l.value e.value t) ∧
    (∀ tau, e.kind = .target tau → e.time ≤ t → ∃ l, p.last = some l ∧
      p.intrinsic = A.tgt e.time tau l.value e.value t) ∧
    (∀ d vs, e.kind = .curve d vs → e.time ≤ t → A.curve e.time d vs t = some p.intrinsic)

theorem coherent_of_kind {A : Arith K V} {t : K} {p : Proc K V} {e : Ev K V} {rest : List (Ev K V)}
    (hp : p.timeline = e :: rest) (hk : e.kind = .setValue ∨ e.kind = .setValueAtTime) :
    Coherent A t p := by
  intro x r hx
  rw [hp] at hx
  cases hx
  rcases hk with hk | hk <;>
  · rw [hk]
    exact ⟨fun h => (nomatch h), fun h => (nomatch h), fun _ h _ => (nomatch h), fun _ _ h _ => (nomatch h)⟩

theorem computeRamp_exit {f : K → K → V → V → K → V} {p : Proc K V} {b : Block K} {e l : Ev K V}
    {rest : List (Ev K V)} {q : Proc K V} (hp : p.timeline = e :: rest) (hl : p.last = some l)
    (h : computeRamp f p b e l rest = (true, q)) :
    q.timeline = e :: rest ∧ q.last = some l ∧
      q.intrinsic = f l.time (e.time - l.time) l.value e.value b.next := by
  unfold computeRamp at h
  dsimp only at h
  split at h
  · cases h; exact ⟨hp, hl, rfl⟩
  · split at h <;> cases h

theorem computeEvent_exit {A : Arith K V} {p q : Proc K V} {b : Block K}
    (h : computeEvent A p b = .ok (true, q)) : Coherent A b.next q := by
  unfold computeEvent at h
  split at h
  · rename_i hp
    cases h
    intro e rest hx
    rw [show p.timeline = e :: rest from hx] at hp
    cases hp
  · rename_i e rest hp
    have hset : (e.kind = .setValue ∨ e.kind = .setValueAtTime) → computeSetValue p b = .ok (true, q) →
        Coherent A b.next q := by
      intro hk h
      unfold computeSetValue at h
      rw [hp] at h
      dsimp only at h
      split at h <;> cases h
      exact coherent_of_kind (e := e) (rest := rest) rfl hk
    split at h
    · rename_i hk; exact hset (.inl hk) h
    · rename_i hk; exact hset (.inr hk) h
    · rename_i hk
      unfold computeLinear at h
      rw [hp] at h
      split at h
      · rename_i e' rest' l hx hl
        cases hx
        injection h with h
        obtain ⟨h1, h2, h3⟩ := computeRamp_exit hp hl h
        intro x r hx
        rw [h1] at hx
        cases hx
        rw [hk]
        exact ⟨fun _ => ⟨l, h2, h3⟩, fun h => (nomatch h), fun _ h _ => (nomatch h), fun _ _ h _ => (nomatch h)⟩
      · cases h
    · rename_i hk
      unfold computeExp at h
      rw [hp] at h
      split at h
      · rename_i e' rest' l hx hl
        cases hx
        split at h
        · cases h
        · rename_i hn
          injection h with h
          obtain ⟨h1, h2, h3⟩ := computeRamp_exit hp hl h
          intro x r hx
          rw [h1] at hx
          cases hx
          rw [hk]
          exact ⟨fun h => (nomatch h), fun _ => ⟨l, h2, by simpa using hn, h3⟩, fun _ h _ => (nomatch h), fun _ _ h _ => (nomatch h)⟩
      · cases h
    · rename_i tau hk
      unfold computeTarget at h
      rw [hp] at h
      split at h
      · rename_i e' rest' l hx hl
        cases hx
        dsimp only at h
        split at h
        · split at h
          · cases h
            exact coherent_of_kind rfl (.inr rfl)
          · cases h
            intro x r hx
            cases hx
            rw [hk]
            exact ⟨fun h => (nomatch h), fun h => (nomatch h), fun _ h _ => by cases h; exact ⟨l, hl, rfl⟩, fun _ _ h _ => (nomatch h)⟩
        · cases h
      · cases h
    · rename_i d vs hk
      unfold computeCurve at h
      rw [hp] at h
      dsimp only at h
      split at h
      · cases h
      · split at h
        · split at h
          · cases h
          · rename_i v hv
            cases h
            intro x r hx
            cases hx
            rw [hk]
            exact ⟨fun h => (nomatch h), fun h => (nomatch h), fun _ h _ => (nomatch h), fun _ _ h _ => by cases h; exact hv⟩
        · split at h <;> cases h
    · cases h
    · cases h

theorem loop_exit {A : Arith K V} {b : Block K} {n : Nat} {p q : Proc K V} (h : loop A b n p = .ok q) :
    Coherent A b.next q := by
  induction n generalizing p with
  | zero => cases h
  | succ n ih =>
    unfold loop at h
    cases he : computeEvent A p b with
    | panic => rw [he] at h; cases h
    | fuel => rw [he] at h; cases h
    | ok r =>
      obtain ⟨stop, r⟩ := r
      rw [he] at h
      simp only [Res.bind] at h
      split at h
      · rename_i hs
        subst hs
        cases h
        exact computeEvent_exit he
      · exact ih h

theorem computeEvent_current {A : Arith K V} {p : Proc K V} {b : Block K} {r : Bool × Proc K V}
    (h : computeEvent A p b = .ok r) : r.2.current = p.current := by
  have hset : computeSetValue p b = .ok r → r.2.current = p.current := by
    intro h
    unfold computeSetValue at h
    split at h
    · cases h
    · dsimp only at h
      split at h <;> cases h <;> rfl
  have hramp : ∀ f e l rest, computeRamp f p b e l rest = r → r.2.current = p.current := by
    rintro f e l rest rfl
    unfold computeRamp
    dsimp only
    split
    · rfl
    · split <;> rfl
  unfold computeEvent at h
  split at h
  · cases h; rfl
  · split at h
    · exact hset h
    · exact hset h
    · unfold computeLinear at h
      split at h
      · injection h with h; exact hramp _ _ _ _ h
      · cases h
    · unfold computeExp at h
      split at h
      · split at h
        · cases h; rfl
        · injection h with h; exact hramp _ _ _ _ h
      · cases h
    · unfold computeTarget at h
      split at h
      · dsimp only at h
        split at h
        · split at h <;> cases h <;> rfl
        · cases h; rfl
      · cases h
    · unfold computeCurve at h
      split at h
      · cases h
      · dsimp only at h
        split at h
        · cases h
        · split at h
          · split at h <;> cases h
            rfl
          · split at h <;> cases h
            rfl
    · cases h
    · cases h

theorem loop_current {A : Arith K V} {b : Block K} {n : Nat} {p q : Proc K V} (h : loop A b n p = .ok q) :
    q.current = p.current := by
  induction n generalizing p with
  | zero => cases h
  | succ n ih =>
    unfold loop at h
    cases he : computeEvent A p b with
    | panic => rw [he] at h; cases h
    | fuel => rw [he] at h; cases h
    | ok r =>
      rw [he] at h
      simp only [Res.bind] at h
      have := computeEvent_current he
      split at h
      · cases h; exact this
      · exact (ih h).trans this

/-- Nothing happens up to time `t`: the next event is a value to be set after `t`, a ramp that ends after `t`, a
target that is not ended by another event up to `t`, or a curve that ends after `t`. -/
def Quiet (t : K) : List (Ev K V) → Prop
  | [] => True
  | e :: rest => match e.kind with
    | .setValue => t < e.time
    | .setValueAtTime => t < e.time
    | .target _ => (∀ c, e.cancelTime = some c → t < c) ∧
        ∀ n more, rest = n :: more → n.isRamp = false ∧ t < n.time
    | .curve d _ => t < e.cancelTime.getD (e.time + d)
    | _ => t < e.cancelTime.getD e.time

theorem Block.frame_zero (b : Block K) : b.frame 0 = b.time := by simp [Block.frame]

/-- The first frame of a quantum. -/
theorem first_frame {A : Arith K V} (hfl : ∀ v, A.flush v = v) {b : Block K} (hdt : 0 < b.dt)
    (hcount : 0 < b.count) (ht : 0 ≤ b.time) {p q : Proc K V} (ha : p.aRate = true)
    (hc : Coherent A b.time p) (hq : Quiet (b.time + b.dt / 2) p.timeline) {n : Nat}
    (h : loop A b n { p with current := A.clamp p.intrinsic, buffer := [] } = .ok q) :
    q.buffer[0]? = some p.intrinsic := by
  have hf0 := b.frame_zero
  cases n with
  | zero => cases h
  | succ n =>
    have key : ∀ r, computeEvent A { p with current := A.clamp p.intrinsic, buffer := [] } b = .ok r →
        r.2.buffer[0]? = some p.intrinsic := by
      intro r he
      have hidx : ∀ t : K, b.time + b.dt / 2 < t → 0 < min (b.index t) b.count := fun t hlt =>
        lt_min (Block.lt_index hdt (by rw [hf0]; exact hlt)) hcount
      have hget : ∀ (stop : Nat) (f : Nat → V), 0 < stop → f 0 = p.intrinsic →
          (extend ([] : List V) stop f)[0]? = some p.intrinsic := fun stop f hs hf => by
        rw [getElem?_extend (Nat.zero_le _) hs, hf]
      have hpos : 0 < b.time + b.dt / 2 := by positivity
      unfold computeEvent at he
      dsimp only at he
      cases hp : p.timeline with
      | nil =>
        rw [hp] at he
        dsimp only at he
        rw [if_pos ha] at he
        cases he
        exact hget _ _ hcount rfl
      | cons e rest =>
        rw [hp] at he hq
        dsimp only at he
        have hco := hc e rest hp
        unfold Quiet at hq
        dsimp only at hq
        have hset : b.time + b.dt / 2 < e.time →
            computeSetValue { p with current := A.clamp p.intrinsic, buffer := [], timeline := e :: rest } b = .ok r →
            r.2.buffer[0]? = some p.intrinsic := by
          intro hlt h
          unfold computeSetValue at h
          dsimp only at h
          have hat : e.at b = e.time := by
            unfold Ev.at
            rw [if_neg (by linarith)]
          rw [hat, if_pos ha] at h
          split at h <;> cases h <;> exact hget _ _ (hidx _ hlt) rfl
        have hramp : ∀ (f : K → K → V → V → K → V) (l : Ev K V),
            b.time + b.dt / 2 < e.cancelTime.getD e.time →
            p.intrinsic = f l.time (e.time - l.time) l.value e.value b.time →
            computeRamp f { p with current := A.clamp p.intrinsic, buffer := [], timeline := e :: rest } b e l rest = r →
            r.2.buffer[0]? = some p.intrinsic := by
          rintro f l hlt hi rfl
          unfold computeRamp
          dsimp only
          rw [if_pos ha]
          have hg := hget (min (b.index (e.cancelTime.getD e.time)) b.count)
            (fun i => f l.time (e.time - l.time) l.value e.value (b.frame i)) (hidx _ hlt)
            (by rw [hf0]; exact hi.symm)
          split
          · exact hg
          · split <;> exact hg
        cases hk : e.kind with
        | setValue => rw [hk] at he hq; exact hset hq he
        | setValueAtTime => rw [hk] at he hq; exact hset hq he
        | linear =>
          rw [hk] at he hq
          obtain ⟨l, hl, hi⟩ := hco.1 hk
          unfold computeLinear at he
          dsimp only at he
          rw [hl] at he
          injection he with he
          rw [← hl] at he
          exact hramp _ l hq hi he
        | exponential =>
          rw [hk] at he hq
          obtain ⟨l, hl, hn, hi⟩ := hco.2.1 hk
          unfold computeExp at he
          dsimp only at he
          rw [hl] at he
          dsimp only at he
          rw [if_neg (by rw [hn]; simp)] at he
          injection he with he
          rw [← hl] at he
          exact hramp _ l hq hi he
        | target tau =>
          rw [hk] at he hq
          unfold computeTarget at he
          dsimp only at he
          cases hl : p.last with
          | none => rw [hl] at he; cases he
          | some l =>
            rw [hl] at he
            dsimp only at he
            rw [if_pos ha] at he
            have hend : 0 < min (b.index ((targetEnd b e rest).getD b.next)) b.count := by
              have hnx : 0 < min (b.index b.next) b.count :=
                lt_min (lt_of_lt_of_le hcount (b.count_le_index hdt le_rfl)) hcount
              have hrest : 0 < min (b.index ((targetNext b rest).getD b.next)) b.count := by
                unfold targetNext
                cases rest with
                | nil => exact hnx
                | cons m more =>
                  obtain ⟨hr, hlt⟩ := hq.2 m more rfl
                  dsimp only
                  rw [if_neg (by rw [hr]; simp)]
                  split
                  · exact hidx _ hlt
                  · exact hnx
              unfold targetEnd
              cases hcc : e.cancelTime with
              | none => exact hrest
              | some c =>
                dsimp only
                split
                · exact hidx _ (hq.1 c hcc)
                · exact hrest
            have hg := hget _ (fun i => if b.frame i - e.time < 0 then p.intrinsic
              else A.tgt e.time tau l.value e.value (b.frame i)) hend (by
                rw [hf0]
                split
                · rfl
                · rename_i hge
                  obtain ⟨l', hl', hi⟩ := hco.2.2.1 tau hk (by linarith)
                  rw [hl] at hl'
                  cases hl'
                  exact hi.symm)
            have hmap : ∀ l : List V, l.map A.flush = l := fun l => by
              conv_rhs => rw [← List.map_id l]
              exact List.map_congr_left fun v _ => hfl v
            rw [hmap] at he
            split at he
            · split at he
              · cases he
                simp only [ite_self]
                exact hg
              · cases he; exact hg
            · cases he; exact hg
        | curve d vs =>
          rw [hk] at he hq
          unfold computeCurve at he
          dsimp only at he
          rw [if_pos ha] at he
          split at he
          · cases he
          · rename_i s hs
            have hg := getElem?_mapM_range' (i := 0) (v := p.intrinsic) hs (Nat.zero_le _) (by
              simp only [List.length_nil, Nat.sub_zero, Nat.zero_add]
              exact hidx _ hq) (by
              rw [hf0]
              split
              · rfl
              · rename_i hge
                exact hco.2.2.2 d vs hk (not_lt.1 hge))
            simp only [List.length_nil, Nat.sub_zero] at hg
            split at he
            · split at he
              · cases he
              · cases he; simpa using hg
            · split at he
              · cases he
              · cases he; simpa using hg
        | cancel => rw [hk] at he; cases he
        | cancelHold => rw [hk] at he; cases he
    unfold loop at h
    cases he : computeEvent A { p with current := A.clamp p.intrinsic, buffer := [] } b with
    | panic => rw [he] at h; cases h
    | fuel => rw [he] at h; cases h
    | ok r =>
      have hx := key r he
      rw [he] at h
      simp only [Res.bind] at h
      split at h
      · cases h; exact hx
      · obtain ⟨t, ht⟩ := loop_prefix hfl h
        rw [← ht, List.getElem?_append_left]
        · exact hx
        · exact (List.getElem?_eq_some_iff.1 hx).1

theorem computeBuffer_loop' {A : Arith K V} {p : Proc K V} {b : Block K}
    (h : isConstant p b = false) :
    computeBuffer A p b = loop A b (2 * p.timeline.length + 1)
      { p with current := A.clamp p.intrinsic, buffer := if p.aRate then [] else [p.intrinsic] } := by
  unfold computeBuffer
  dsimp only
  have hc' : ∀ (c : V) (buf : List V), isConstant { p with current := c, buffer := buf } b =
      isConstant p b := fun _ _ => rfl
  rw [hc', hc', h]
  cases p.aRate <;> rfl

theorem computeBuffer_const' {A : Arith K V} {p : Proc K V} {b : Block K}
    (h : isConstant p b = true) :
    computeBuffer A p b = .ok { p with current := A.clamp p.intrinsic, buffer := [p.intrinsic] } := by
  unfold computeBuffer
  dsimp only
  have hc' : ∀ (c : V) (buf : List V), isConstant { p with current := c, buffer := buf } b =
      isConstant p b := fun _ _ => rfl
  rw [hc', hc', h]
  simp

/-- `valueAt_of_get` for values of any type. -/
theorem valueAt_zero {p : Proc K V} {x : V} (h : p.buffer[0]? = some x) : p.valueAt 0 = some x := by
  unfold Proc.valueAt
  split <;> exact h

/-- C89: in the second of two quanta with no message in between, whatever happened before and whatever is
scheduled, `value` is the first frame of the quantum (clamped, as the output is) - unless an event begins, ends or
replaces another one in the first half frame of this quantum (`C89_negated_boundary`). Missing: quanta right after
a message (`C89_negated_now`, `C89_negated_race`). -/
theorem C89_coherent_partial {A : Arith K V} (hfl : ∀ v, A.flush v = v) {dt : K} (hdt : 0 < dt) {count : Nat}
    (hcount : 0 < count) {s s1 s2 : Sys K V} (h1 : step A dt count s .block = .ok s1)
    (h2 : step A dt count s1 .block = .ok s2)
    (hq : Quiet (s1.frame * dt + dt / 2) s1.p.timeline)
    (hstart : ∀ e ∈ s1.p.timeline, e.time ≠ s1.frame * dt) :
    ∃ x, s2.p.valueAt 0 = some x ∧ s2.p.current = A.clamp x := by
  simp only [step] at h1 h2
  cases hb1 : computeBuffer A s.p ⟨s.frame * dt, dt, count⟩ with
  | panic => rw [hb1] at h1; cases h1
  | fuel => rw [hb1] at h1; cases h1
  | ok p1 =>
    rw [hb1] at h1
    cases h1
    dsimp only at h2 hq hstart
    cases hb2 : computeBuffer A p1 ⟨(s.frame + count : Nat) * dt, dt, count⟩ with
    | panic => rw [hb2] at h2; cases h2
    | fuel => rw [hb2] at h2; cases h2
    | ok p2 =>
      rw [hb2] at h2
      cases h2
      dsimp only
      have hnx : (⟨s.frame * dt, dt, count⟩ : Block K).next = ((s.frame + count : Nat) : K) * dt := by
        simp only [Block.next]; push_cast; ring
      refine ⟨p1.intrinsic, ?_⟩
      have hco : Coherent A (((s.frame + count : Nat) : K) * dt) p1 := by
        by_cases hk : isConstant s.p ⟨s.frame * dt, dt, count⟩ = true
        · rw [computeBuffer_const' hk] at hb1
          cases hb1
          intro e rest hp
          have hp' : s.p.timeline = e :: rest := hp
          unfold isConstant at hk
          rw [hp', hnx] at hk
          simp only [Bool.and_eq_true, Bool.not_eq_true', decide_eq_true_eq] at hk
          obtain ⟨hr, hle⟩ := hk
          have hne := hstart e (by rw [hp']; simp)
          unfold Ev.isRamp at hr
          refine ⟨fun h => ?_, fun h => ?_, fun _ _ h => ?_, fun _ _ _ h => ?_⟩
          · rw [h] at hr; cases hr
          · rw [h] at hr; cases hr
          · exact absurd (le_antisymm h hle) hne
          · exact absurd (le_antisymm h hle) hne
        · rw [computeBuffer_loop' (by simpa using hk)] at hb1
          rw [← hnx]
          exact loop_exit hb1
      by_cases hk : isConstant p1 ⟨((s.frame + count : Nat) : K) * dt, dt, count⟩ = true
      · rw [computeBuffer_const' hk] at hb2
        cases hb2
        exact ⟨by simp [Proc.valueAt], rfl⟩
      · rw [computeBuffer_loop' (by simpa using hk)] at hb2
        refine ⟨valueAt_zero ?_, loop_current hb2⟩
        by_cases ha : p1.aRate = true
        · rw [if_pos ha] at hb2
          exact first_frame (b := ⟨((s.frame + count : Nat) : K) * dt, dt, count⟩) hfl hdt hcount
            (by positivity) ha hco hq hb2
        · rw [if_neg ha] at hb2
          obtain ⟨t, ht⟩ := loop_prefix hfl hb2
          rw [← ht]
          rfl

/-- A parameter seen from both threads: the processor and the calls of `set_value` whose messages are under way.
The atomic read by `value` is `sys.p.current`. -/
structure Shared (K V : Type) where
  sys : Sys K V
  chan : List V := []

/-- `set_value` on the control thread, arrival of a message, a quantum. -/
inductive Act (V : Type) where
  | set (v : V)
  | deliver
  | block

/-- `set_value_raw` and `send_event` (param.rs l.403-425, l.658-661): the clamped value is stored at once, the
message carries the value as it is; `onmessage` (l.704-729); `process` (l.686-702). Messages arrive in
order. -/
def act (A : Arith K V) (dt : K) (count : Nat) (s : Shared K V) : Act V → Res (Shared K V)
  | .set v => .ok { sys := { s.sys with p := { s.sys.p with current := A.clamp v } }, chan := s.chan ++ [v] }
  | .deliver => match s.chan with
    | [] => .ok s
    | v :: more => (step A dt count s.sys (.event { kind := .setValue, value := v, time := 0 })).bind
        fun t => .ok { sys := t, chan := more }
  | .block => (step A dt count s.sys .block).bind fun t => .ok { s with sys := t }

def acts (A : Arith K V) (dt : K) (count : Nat) (s : Shared K V) : List (Act V) → Res (Shared K V)
  | [] => .ok s
  | a :: as => (act A dt count s a).bind fun s => acts A dt count s as

/-- The values set in the course of some operations. -/
def setsOf : List (Act V) → List V
  | [] => []
  | .set v :: as => v :: setsOf as
  | _ :: as => setsOf as

/-- the value after all of a list of events that set the value -/
def lastValue (v : V) (tl : List (Ev K V)) : V := tl.foldl (fun _ e => e.value) v

/-- Pending events that are all due to `set_value`. -/
def AllSet (tl : List (Ev K V)) : Prop := ∀ e ∈ tl, e.kind = .setValue ∧ e.time = 0

theorem allSet_loop {A : Arith K V} {b : Block K} (hdt : 0 < b.dt) :
    ∀ (tl : List (Ev K V)) (n : Nat) (p q : Proc K V), p.timeline = tl → AllSet tl → (p.aRate = true → p.buffer = []) →
      loop A b n p = .ok q → q.timeline = [] ∧ q.intrinsic = lastValue p.intrinsic tl ∧ q.aRate = p.aRate ∧
        q.buffer = if p.aRate then List.replicate b.count (lastValue p.intrinsic tl) else p.buffer := by
  intro tl
  induction tl with
  | nil =>
    intro n p q hp _ hb h
    cases n with
    | zero => cases h
    | succ n =>
      unfold loop at h
      have he : computeEvent A p b = .ok (true, { p with buffer := if p.aRate then extend p.buffer b.count (fun _ => p.intrinsic) else p.buffer }) := by
        unfold computeEvent
        rw [hp]
      rw [he] at h
      simp only [Res.bind, if_true] at h
      cases h
      refine ⟨hp, rfl, rfl, ?_⟩
      dsimp only
      by_cases ha : p.aRate = true
      · rw [if_pos ha, if_pos ha, hb ha]
        simp [extend, lastValue, List.map_const']
      · rw [if_neg ha, if_neg ha]
  | cons e rest ih =>
    intro n p q hp hs hb h
    cases n with
    | zero => cases h
    | succ n =>
      obtain ⟨hk, ht⟩ := hs e (by simp)
      have he : computeEvent A p b = .ok (false, { p with intrinsic := e.value, timeline := rest, last := some { e with time := b.time } }) := by
        have hn : ¬ b.next < b.time := by
          unfold Block.next
          have : (0 : K) ≤ b.dt * b.count := by positivity
          linarith
        have hidx : b.index b.time = 0 := by
          unfold Block.index
          rw [Nat.floor_eq_zero, sub_self, max_self, zero_div]
          norm_num
        unfold computeEvent
        rw [hp]
        dsimp only
        rw [hk]
        dsimp only
        unfold computeSetValue
        rw [hp]
        dsimp only
        rw [show e.at b = b.time by simp [Ev.at, ht], if_neg hn, hidx, Nat.zero_min, extend_of_le _ (Nat.zero_le _), hk]
        simp
      unfold loop at h
      rw [he] at h
      simp only [Res.bind, Bool.false_eq_true, if_false] at h
      exact ih n { p with intrinsic := e.value, timeline := rest, last := some { e with time := b.time } } q rfl
        (fun x hx => hs x (by simp [hx])) hb h

/-- What holds between operations: the values under way and those that arrived are the ones that were set. -/
structure SetInv (A : Arith K V) (v0 : V) (sets : List V) (s : Shared K V) : Prop where
  only : AllSet s.sys.p.timeline
  last : lastValue s.sys.p.intrinsic s.sys.p.timeline = s.sys.p.intrinsic
  arrived : ∃ done, sets = done ++ s.chan ∧ s.sys.p.intrinsic = (done.getLast?).getD v0
  current : ∃ x ∈ v0 :: sets, s.sys.p.current = A.clamp x

theorem sort_allSet {tl : List (Ev K V)} (h : AllSet tl) : sort tl = tl := by
  apply sort_eq
  unfold Sorted
  rw [List.pairwise_iff_forall_sublist]
  intro a b hab
  rw [(h a (hab.subset (by simp))).2, (h b (hab.subset (by simp))).2]

theorem handle_allSet {p : Proc K V} (h : AllSet p.timeline) (v : V) :
    handle p { kind := .setValue, value := v, time := 0 } =
      .ok { p with intrinsic := v, timeline := p.timeline ++ [{ kind := .setValue, value := v, time := 0 }] } := by
  have hov : overlaps p.timeline ({ kind := .setValue, value := v, time := 0 } : Ev K V) = false := by
    unfold overlaps
    simp only [List.any_eq_false]
    intro x hx
    rw [(h x hx).1]
    simp
  have himp : implicit p ({ kind := .setValue, value := v, time := 0 } : Ev K V) = [] := by
    unfold implicit
    split <;> rfl
  unfold handle
  dsimp only
  unfold insert
  rw [if_neg (by rw [hov]; simp), himp, List.append_nil, sort_allSet]
  · rfl
  · intro x hx
    rcases List.mem_append.1 hx with hx | hx
    · exact h x hx
    · simp at hx
      subst hx
      exact ⟨rfl, rfl⟩

/-- A quantum with only values that were set. -/
theorem allSet_block {A : Arith K V} {b : Block K} (hdt : 0 < b.dt) (hcount : 0 < b.count) (ht : 0 ≤ b.time)
    {p q : Proc K V} (hs : AllSet p.timeline) (hl : lastValue p.intrinsic p.timeline = p.intrinsic)
    (h : computeBuffer A p b = .ok q) :
    q.timeline = [] ∧ q.intrinsic = p.intrinsic ∧ q.current = A.clamp p.intrinsic ∧
      ∀ j < b.count, q.valueAt j = some p.intrinsic := by
  by_cases hk : isConstant p b = true
  · rw [computeBuffer_const' hk] at h
    cases h
    refine ⟨?_, rfl, rfl, fun j _ => by simp [Proc.valueAt]⟩
    cases hp : p.timeline with
    | nil => rfl
    | cons e rest =>
      unfold isConstant at hk
      rw [hp] at hk
      have := (hs e (by rw [hp]; simp)).2
      simp only [this, Bool.and_eq_true, decide_eq_true_eq] at hk
      have hn : 0 < b.next := by
        unfold Block.next
        have : (0 : K) < b.count := by exact_mod_cast hcount
        positivity
      exact absurd hk.2 (not_le.2 hn)
  · rw [computeBuffer_loop' (by simpa using hk)] at h
    have hcur := loop_current h
    obtain ⟨h1, h2, h3, h4⟩ := allSet_loop hdt p.timeline _
      { p with current := A.clamp p.intrinsic, buffer := if p.aRate then [] else [p.intrinsic] } q rfl hs
      (fun ha => if_pos ha) h
    dsimp only at h2 h3 h4 hcur
    rw [hl] at h2 h4
    refine ⟨h1, h2, hcur, fun j hj => ?_⟩
    unfold Proc.valueAt
    by_cases ha : p.aRate = true
    · rw [if_pos ha] at h4
      rw [h4, List.length_replicate]
      split
      · simp [hcount]
      · simp [hj]
    · rw [if_neg ha] at h4
      rw [if_neg ha] at h4
      rw [h4]
      simp

theorem SetInv.act {A : Arith K V} {dt : K} (hdt : 0 < dt) {count : Nat} (hcount : 0 < count) {v0 : V}
    {sets : List V} {s s' : Shared K V} (hi : SetInv A v0 sets s) {a : Act V}
    (h : act A dt count s a = .ok s') : SetInv A v0 (sets ++ setsOf [a]) s' := by
  obtain ⟨ho, hl, ⟨done, hd, hint⟩, ⟨x, hx, hcur⟩⟩ := hi
  cases a with
  | set v =>
    cases h
    exact ⟨ho, hl, ⟨done, by rw [hd]; simp [setsOf], hint⟩, ⟨v, by simp [setsOf], rfl⟩⟩
  | deliver =>
    simp only [setsOf, List.append_nil]
    unfold Param.act at h
    cases hc : s.chan with
    | nil =>
      rw [hc] at h
      cases h
      exact ⟨ho, hl, ⟨done, hd, hint⟩, ⟨x, hx, hcur⟩⟩
    | cons v more =>
      rw [hc] at h
      simp only [step, handle_allSet ho, Res.bind] at h
      cases h
      refine ⟨?_, ?_, ⟨done ++ [v], by rw [hd, hc]; simp, by simp⟩, ⟨x, hx, hcur⟩⟩
      · intro y hy
        rcases List.mem_append.1 hy with hy | hy
        · exact ho y hy
        · simp at hy
          subst hy
          exact ⟨rfl, rfl⟩
      · simp [lastValue, List.foldl_append]
  | block =>
    simp only [setsOf, List.append_nil]
    simp only [Param.act, step] at h
    cases hb : computeBuffer A s.sys.p ⟨s.sys.frame * dt, dt, count⟩ with
    | panic => rw [hb] at h; cases h
    | fuel => rw [hb] at h; cases h
    | ok q =>
      rw [hb] at h
      cases h
      obtain ⟨h1, h2, h3, -⟩ := allSet_block (b := ⟨s.sys.frame * dt, dt, count⟩) hdt hcount (by positivity) ho hl hb
      refine ⟨by dsimp only; rw [h1]; simp [AllSet], by dsimp only; rw [h1]; rfl, ⟨done, hd, by dsimp only; rw [h2]; exact hint⟩, ⟨s.sys.p.intrinsic, ?_, h3⟩⟩
      rw [hint]
      cases hg : done.getLast? with
      | none => simp
      | some y =>
        have := List.mem_of_getLast? hg
        rw [hd]
        simp [this]

theorem setsOf_append (as bs : List (Act V)) : setsOf (as ++ bs) = setsOf as ++ setsOf bs := by
  induction as with
  | nil => rfl
  | cons a as ih => cases a <;> simp [setsOf, ih]

theorem SetInv.acts {A : Arith K V} {dt : K} (hdt : 0 < dt) {count : Nat} (hcount : 0 < count) {v0 : V}
    {as : List (Act V)} {sets : List V} {s s' : Shared K V} (hi : SetInv A v0 sets s)
    (h : acts A dt count s as = .ok s') : SetInv A v0 (sets ++ setsOf as) s' := by
  induction as generalizing s sets with
  | nil => cases h; simpa [setsOf] using hi
  | cons a as ih =>
    unfold Param.acts at h
    cases ha : Param.act A dt count s a with
    | panic => rw [ha] at h; cases h
    | fuel => rw [ha] at h; cases h
    | ok t =>
      rw [ha] at h
      have := ih (hi.act hdt hcount ha) h
      rw [List.append_assoc, ← setsOf_append] at this
      exact this

/-- C89 for a parameter that is only used through `set_value`: at all times `value` is one of the values that were
set (or the initial one), clamped. -/
theorem C89_never_other {A : Arith K V} {dt : K} (hdt : 0 < dt) {count : Nat} (hcount : 0 < count) {v0 : V} {a : Bool}
    {as : List (Act V)} {s : Shared K V}
    (h : acts A dt count { sys := { p := { intrinsic := v0, current := A.clamp v0, aRate := a } } } as = .ok s) :
    ∃ x ∈ v0 :: setsOf as, s.sys.p.current = A.clamp x := by
  have hi : SetInv A v0 [] ({ sys := { p := { intrinsic := v0, current := A.clamp v0, aRate := a } } } : Shared K V) :=
    ⟨by simp [AllSet], rfl, ⟨[], rfl, rfl⟩, ⟨v0, by simp, rfl⟩⟩
  simpa using (hi.acts hdt hcount h).current

/-- C89: once every message has arrived, from the next quantum on `value` and all frames are the value set last.
(Right after the call `value` returns it, too, see `act`; but not in between, `C89_negated_race`.) -/
theorem C89_settles {A : Arith K V} {dt : K} (hdt : 0 < dt) {count : Nat} (hcount : 0 < count) {v0 : V} {a : Bool}
    {as : List (Act V)} {s s' : Shared K V}
    (h : acts A dt count { sys := { p := { intrinsic := v0, current := A.clamp v0, aRate := a } } } as = .ok s)
    (hc : s.chan = []) (h' : act A dt count s .block = .ok s') :
    s'.sys.p.current = A.clamp (((setsOf as).getLast?).getD v0) ∧
      ∀ j < count, s'.sys.p.valueAt j = some (((setsOf as).getLast?).getD v0) := by
  have hi : SetInv A v0 [] ({ sys := { p := { intrinsic := v0, current := A.clamp v0, aRate := a } } } : Shared K V) :=
    ⟨by simp [AllSet], rfl, ⟨[], rfl, rfl⟩, ⟨v0, by simp, rfl⟩⟩
  obtain ⟨ho, hl, ⟨done, hd, hint⟩, -⟩ := hi.acts hdt hcount h
  rw [hc, List.append_nil, List.nil_append] at hd
  rw [hd, ← hint]
  simp only [act, step] at h'
  cases hb : computeBuffer A s.sys.p ⟨s.sys.frame * dt, dt, count⟩ with
  | panic => rw [hb] at h'; cases h'
  | fuel => rw [hb] at h'; cases h'
  | ok q =>
    rw [hb] at h'
    cases h'
    obtain ⟨-, -, h3, h4⟩ := allSet_block (b := ⟨s.sys.frame * dt, dt, count⟩) hdt hcount (by positivity) ho hl hb
    exact ⟨h3, h4⟩

/-- C89 is false between the call of `set_value` and the arrival of its message: the quantum rendered in between
takes the value back, for all values. -/
theorem C89_negated_race {A : Arith K V} {dt : K} (hdt : 0 < dt) {count : Nat} (hcount : 0 < count) {v0 v : V} {a : Bool}
    (hne : A.clamp v ≠ A.clamp v0) {s1 s2 : Shared K V}
    (h1 : acts A dt count { sys := { p := { intrinsic := v0, current := A.clamp v0, aRate := a } } } [.set v] = .ok s1)
    (h2 : act A dt count s1 .block = .ok s2) :
    s1.sys.p.current = A.clamp v ∧ s2.sys.p.current ≠ A.clamp v := by
  simp only [acts, act, Res.bind] at h1
  cases h1
  refine ⟨rfl, ?_⟩
  simp only [act, step] at h2
  cases hb : computeBuffer A ({ intrinsic := v0, current := A.clamp v, aRate := a } : Proc K V) ⟨((0 : Nat) : K) * dt, dt, count⟩ with
  | panic => rw [hb] at h2; cases h2
  | fuel => rw [hb] at h2; cases h2
  | ok q =>
    rw [hb] at h2
    cases h2
    obtain ⟨-, -, h3, -⟩ := allSet_block (b := ⟨((0 : Nat) : K) * dt, dt, count⟩) hdt hcount (by simp) (by simp [AllSet]) rfl hb
    dsimp only at h3 ⊢
    rw [h3]
    exact Ne.symm hne

end

/-- What `value` returns and the frames of the last quantum. -/
def qValue (ops : List (Op ℚ ℚ)) : Option (ℚ × List (Option ℚ)) :=
  (demo 1 ops).map fun p => (p.current, (List.range 4).map p.valueAt)

/-- C89 is false for `set_value_at_time` with the current time: in the first quantum `value` is the old value. -/
theorem C89_negated_now :
    qValue [.block, setAt 5 4, .block] = some (0, [some 5, some 5, some 5, some 5]) ∧
    qValue [.block, setAt 5 4, .block, .block] = some (5, [some 5, some 5, some 5, some 5]) := by
  decide +kernel

/-- C89 is false if a ramp ends and a value is set at the beginning of a quantum: `value` is the end of the ramp, the
first frame is the value that is set. The same for a curve that begins there. -/
theorem C89_negated_boundary :
    qValue [setAt 0 0, linAt 4 8, setAt 9 8, .block, .block, .block] = some (4, [some 9, some 9, some 9, some 9]) ∧
    qValue [curveAt [7, 3] 8 8, .block, .block, .block] = some (0, [some 7, some (13/2), some 6, some (11/2)]) := by
  decide +kernel

/-- `C89_coherent_partial` met: a ramp, in the second and third quantum. -/
example : qValue [setAt 0 0, linAt 10 10, .block, .block] = some (4, [some 4, some 5, some 6, some 7]) ∧
    qValue [setAt 0 0, linAt 10 10, .block, .block, .block] = some (8, [some 8, some 9, some 10, some 10]) := by
  decide +kernel

/-- `C89_settles` met: two values are set, a quantum is rendered before they arrive. -/
example : (match acts qArith 1 4 { sys := { p := { intrinsic := 1, current := 1 } } }
      [.set 3, .deliver, .set 5, .block, .deliver, .block] with
    | .ok s => some (s.sys.p.current, s.chan, (List.range 4).map s.sys.p.valueAt)
    | _ => none) = some (5, [], [some 5, some 5, some 5, some 5]) := by decide +kernel

end Verif.Param
