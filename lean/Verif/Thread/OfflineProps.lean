import Verif.Thread.OfflineModel
import Verif.Thread.Proofs
import Verif.Float.Round
import Mathlib.Data.List.Sort
import Mathlib.Tactic.Ring
import Mathlib.Tactic.Linarith
import Mathlib.Tactic.NormNum
import Mathlib.Tactic.Positivity
import Mathlib.Tactic.FieldSimp

/-!
# Properties of offline rendering: C17, C18
-/

namespace Verif.Thread

variable {G K : Type} [Zero K]

/-! ## Specification -/

/-- the quanta rendered, in order -/
def rendered : List (Ev K) → List (Quantum K)
  | [] => []
  | .callback _ :: l => rendered l
  | .quantum _ q :: l => q :: rendered l

/-- channel `c` of a sequence of quanta, silent where a quantum has no such channel -/
def channelStream (c : Nat) (qs : List (Quantum K)) : List K :=
  qs.flatMap fun q => (List.range 128).map fun i =>
    match q[c]? with
    | some samples => samples i
    | none => 0

/-- observable order of events: callbacks, and quanta with their frame number -/
inductive Mark where
  | callback (id : Nat)
  | quantum (frame : Nat)
deriving DecidableEq, Repr

def mark : Ev K → Mark
  | .callback id => .callback id
  | .quantum f _ => .quantum f

/-- `k` is the render quantum that a suspension at time `t` is rounded up to: the first one that does
not begin before `t` -/
def RoundsTo (sr t : ℚ) (k : Nat) : Prop := t ≤ 128 * k / sr ∧ ∀ j : Nat, t ≤ 128 * j / sr → k ≤ j

/-! ## C17 -/

omit [Zero K] in
theorem rendered_append (a b : List (Ev K)) : rendered (a ++ b) = rendered a ++ rendered b := by
  induction a with
  | nil => rfl
  | cons x a ih => cases x <;> simp [rendered, ih]

theorem channelStream_append (c : Nat) (a b : List (Quantum K)) :
    channelStream c (a ++ b) = channelStream c a ++ channelStream c b := by simp [channelStream]

theorem channelStream_length (c : Nat) (a : List (Quantum K)) :
    (channelStream c a).length = 128 * a.length := by
  induction a with
  | nil => rfl
  | cons q a ih =>
    simp only [channelStream, List.flatMap_cons, List.length_append, List.length_map,
      List.length_range, List.length_cons] at ih ⊢
    rw [ih]; ring

/-- what holds of the output buffer at any time -/
def BufOk (ch cap : Nat) (o : Off G K) : Prop :=
  o.buffer.length = ch ∧ ∀ (c : Nat) (b : List K), o.buffer[c]? = some b →
    b = (channelStream c (rendered o.trace)).take cap

theorem bufOk_quantum {sem : Sem G K} {ch cap : Nat} {o o' : Off G K} (hb : BufOk ch cap o)
    (h : offQuantum sem cap o = some o') :
    BufOk ch cap o' ∧ ∃ q, o'.trace = o.trace ++ [Ev.quantum o.t.frames q] ∧
      o'.t.frames = o.t.frames + 128 := by
  unfold offQuantum at h
  split at h
  · rename_i g b0 rest hg hbuf
    simp only [Option.some.injEq] at h
    subst h
    refine ⟨⟨by simpa using hb.1, ?_⟩, _, rfl, rfl⟩
    intro c b hc
    simp only [List.getElem?_mapIdx, Option.map_eq_some_iff] at hc
    obtain ⟨b', hb', rfl⟩ := hc
    have e1 := hb.2 c b' hb'
    have e0 := hb.2 0 b0 (by simp [hbuf])
    have len0 : b0.length = min cap (128 * (rendered o.trace).length) := by
      rw [e0, List.length_take, channelStream_length]
    simp only [rendered_append, channelStream_append]
    rw [List.take_append, ← e1, channelStream_length]
    congr 1
    simp only [rendered, channelStream, List.flatMap_cons, List.flatMap_nil, List.append_nil]
    rw [← List.map_take, List.take_range]
    have : min (cap - b0.length) rqs = min (cap - 128 * (rendered o.trace).length) 128 := by
      rw [len0]; simp only [rqs]; omega
    rw [this]
    apply List.map_congr_left
    intro i _
    rw [List.getD_eq_getElem?_getD]
    cases (sem.render g o.t.frames).2[c]? <;> rfl
  · cases h

theorem offSuspend_fields {dead : Nat → Bool} {quantum : Nat} {sched sched' : List (Nat × Nat)}
    {o o' : Off G K} {bs bs' : List (List (Msg G))}
    (h : offSuspend dead quantum sched o bs = some (sched', o', bs')) :
    o'.buffer = o.buffer ∧ o'.t.frames = o.t.frames ∧ rendered o'.trace = rendered o.trace ∧
      ((∃ id, sched = (quantum, id) :: sched' ∧ dead id = false ∧
          o'.trace = o.trace ++ [Ev.callback id]) ∨
       ((∀ p, sched.head? = some p → p.1 ≠ quantum) ∧ sched' = sched ∧ o'.trace = o.trace)) := by
  unfold offSuspend at h
  split at h
  · split at h
    · rename_i hq
      split at h
      · cases h
      · rename_i hd
        split at h
        · cases h
        · rename_i hp
          simp only [Option.some.injEq, Prod.mk.injEq] at h
          obtain ⟨rfl, rfl, rfl⟩ := h
          refine ⟨rfl, (poll_fields hp).2.2, by simp [rendered_append, rendered], .inl ⟨_, by rw [hq], ?_, rfl⟩⟩
          simpa using hd
    · rename_i hq
      simp only [Option.some.injEq, Prod.mk.injEq] at h
      obtain ⟨rfl, rfl, rfl⟩ := h
      exact ⟨rfl, rfl, rfl, .inr ⟨by rintro p hp; simp at hp; subst hp; exact hq, rfl, rfl⟩⟩
  · simp only [Option.some.injEq, Prod.mk.injEq] at h
    obtain ⟨rfl, rfl, rfl⟩ := h
    exact ⟨rfl, rfl, rfl, .inr ⟨by simp, rfl, rfl⟩⟩

theorem offLoop_buf {sem : Sem G K} {dead : Nat → Bool} {ch cap : Nat} (n quantum : Nat)
    (sched : List (Nat × Nat)) (o : Off G K) (bs : List (List (Msg G))) (hb : BufOk ch cap o)
    {sched' : List (Nat × Nat)} {o' : Off G K}
    (h : offLoop sem dead cap n quantum sched o bs = some (sched', o')) :
    BufOk ch cap o' ∧ (rendered o'.trace).length = (rendered o.trace).length + n := by
  induction n generalizing quantum sched o bs with
  | zero =>
    simp only [offLoop, Option.some.injEq, Prod.mk.injEq] at h
    obtain ⟨rfl, rfl⟩ := h
    exact ⟨hb, rfl⟩
  | succ n ih =>
    simp only [offLoop] at h
    split at h
    · cases h
    · rename_i sched1 o1 bs1 h1
      obtain ⟨a1, _, a3, _⟩ := offSuspend_fields h1
      have hb1 : BufOk ch cap o1 := by
        refine ⟨by rw [a1]; exact hb.1, ?_⟩
        rw [a1, a3]; exact hb.2
      split at h
      · cases h
      · rename_i o2 h2
        obtain ⟨b1, q, b2, _⟩ := bufOk_quantum hb1 h2
        split at h
        · cases h
        · rename_i t3 bs3 h3
          obtain ⟨c1, c2⟩ := ih (quantum + 1) sched1 { o2 with t := t3 } bs3 b1 h
          refine ⟨c1, ?_⟩
          rw [c2]
          simp only [b2, rendered_append, rendered, List.length_append, List.length_singleton, a3]
          omega

/-- C17: offline rendering that completes returns the requested number of channels, each with exactly
`length` frames: the first `length` frames of the concatenation of `⌈length / 128⌉` quanta, whatever
the number of channels of these quanta. For all suspensions and control messages. `Vec::with_capacity`
must yield exactly the requested capacity (`cap = length`), see `C17_capacity`. -/
theorem C17_exact (sem : Sem G K) (dead : Nat → Bool) (ch length : Nat) (sched : List (Nat × Nat))
    (t : St G K) (bs : List (List (Msg G))) {sched' : List (Nat × Nat)} {o : Off G K}
    (h : offRender sem dead ch length length sched t bs = some (sched', o)) :
    o.buffer.length = ch ∧
      (rendered o.trace).length = (length + 127) / 128 ∧
      ∀ (c : Nat) (b : List K), o.buffer[c]? = some b →
        b.length = length ∧ b = (channelStream c (rendered o.trace)).take length := by
  unfold offRender at h
  split at h
  · cases h
  · rename_i t1 _ _
    have h0 : BufOk ch length ({ t := t1, buffer := List.replicate ch [], trace := [] } : Off G K) :=
      ⟨by simp, by
        intro c b hb
        simp only [List.getElem?_replicate, Option.ite_none_right_eq_some, Option.some.injEq] at hb
        simp [← hb.2, rendered, channelStream]⟩
    obtain ⟨h1, h2⟩ := offLoop_buf _ _ _ _ _ h0 h
    simp only [rendered, List.length_nil, Nat.zero_add] at h2
    refine ⟨h1.1, h2, fun c b hc => ?_⟩
    have := h1.2 c b hc
    refine ⟨?_, this⟩
    rw [this, List.length_take, channelStream_length, h2]
    omega

/-- C17, dependence on the allocator: for other capacities the length is wrong, e.g. a vector with room
for 128 samples when 100 were requested (allowed by the documentation of `Vec::with_capacity`). -/
theorem C17_capacity (sem : Sem G K) (dead : Nat → Bool) (ch length cap : Nat)
    (sched : List (Nat × Nat)) (t : St G K) (bs : List (List (Msg G))) {sched' : List (Nat × Nat)}
    {o : Off G K} (h : offRender sem dead ch length cap sched t bs = some (sched', o)) :
    ∀ (c : Nat) (b : List K), o.buffer[c]? = some b → b.length = min cap (128 * ((length + 127) / 128)) := by
  unfold offRender at h
  split at h
  · cases h
  · rename_i t1 _ _
    have h0 : BufOk ch cap ({ t := t1, buffer := List.replicate ch [], trace := [] } : Off G K) :=
      ⟨by simp, by
        intro c b hb
        simp only [List.getElem?_replicate, Option.ite_none_right_eq_some, Option.some.injEq] at hb
        simp [← hb.2, rendered, channelStream]⟩
    obtain ⟨h1, h2⟩ := offLoop_buf _ _ _ _ _ h0 h
    simp only [rendered, List.length_nil, Nat.zero_add] at h2
    intro c b hc
    rw [h1.2 c b hc, List.length_take, channelStream_length, h2]

/-- a graph that counts quanta and alternates between one and two channels -/
def altSem : Sem Nat Nat where
  render g f := (g + 1, if g % 2 = 0 then [fun i => f + i] else [fun i => f + i, fun i => 7 * i])
  active _ := true

example : ((offRender altSem (fun _ => false) 2 200 200 [(1, 5)] St.init [[.startup 0]]).map fun r =>
    r.2.buffer) = some [List.range 200, List.replicate 128 0 ++ (List.range 72).map (7 * ·)] := by
  decide +kernel

/-! ## C18 -/

/-- strictly sorted by quantum -/
def Sorted (l : List (Nat × Nat)) : Prop := l.Pairwise fun a b => a.1 < b.1

theorem schedInsert_spec (quantum id : Nat) (l : List (Nat × Nat)) (hl : Sorted l)
    {l' : List (Nat × Nat)} (h : schedInsert quantum id l = some l') :
    Sorted l' ∧ l'.Perm ((quantum, id) :: l) := by
  induction l generalizing l' with
  | nil =>
    simp only [schedInsert, Option.some.injEq] at h
    subst h
    exact ⟨by simp [Sorted], .refl _⟩
  | cons p l ih =>
    obtain ⟨q, i⟩ := p
    simp only [schedInsert] at h
    obtain ⟨hl1, hl2⟩ := List.pairwise_cons.1 hl
    split at h
    · cases h
    · split at h
      · rename_i hlt
        simp only [Option.some.injEq] at h
        subst h
        refine ⟨List.pairwise_cons.2 ⟨?_, hl⟩, .refl _⟩
        intro a ha
        rcases List.mem_cons.1 ha with rfl | ha
        · exact hlt
        · exact hlt.trans (hl1 a ha)
      · simp only [Option.map_eq_some_iff] at h
        obtain ⟨l2, h2, rfl⟩ := h
        obtain ⟨i1, i2⟩ := ih hl2 h2
        refine ⟨List.pairwise_cons.2 ⟨?_, i1⟩, ?_⟩
        · intro a ha
          rcases List.mem_cons.1 (i2.mem_iff.1 ha) with rfl | ha
          · dsimp only; omega
          · exact hl1 a ha
        · exact (i2.cons _).trans (List.Perm.swap _ _ _)

theorem schedule_spec (fl : ℚ → ℚ) (length : Nat) (sr : ℚ) (rs : List (ℚ × Nat))
    (l : List (Nat × Nat)) (hl : Sorted l) {l' : List (Nat × Nat)}
    (h : schedule fl length sr rs l = some l') :
    Sorted l' ∧ (∀ r ∈ rs, ∃ q, suspendFrame fl length sr r.1 = some q) ∧
      l'.Perm (l ++ rs.map fun r => ((suspendFrame fl length sr r.1).getD 0, r.2)) := by
  induction rs generalizing l with
  | nil =>
    simp only [schedule, Option.some.injEq] at h
    subst h
    exact ⟨hl, by simp, by simp⟩
  | cons r rs ih =>
    obtain ⟨t, id⟩ := r
    simp only [schedule] at h
    split at h
    · cases h
    · rename_i q hq
      split at h
      · cases h
      · rename_i l1 h1
        obtain ⟨s1, s2⟩ := schedInsert_spec q id l hl h1
        obtain ⟨i1, i2, i3⟩ := ih l1 s1 h
        refine ⟨i1, ?_, ?_⟩
        · intro r hr
          rcases List.mem_cons.1 hr with rfl | hr
          · exact ⟨q, hq⟩
          · exact i2 r hr
        · refine i3.trans ?_
          simp only [List.map_cons, hq, Option.getD_some]
          exact (s2.append_right _).trans (List.perm_middle.symm)

theorem offLoop_marks {sem : Sem G K} {dead : Nat → Bool} {cap : Nat} (n quantum : Nat)
    (sched : List (Nat × Nat)) (hs : Sorted sched) (hge : ∀ p ∈ sched, quantum ≤ p.1)
    (o : Off G K) (hf : o.t.frames = 128 * quantum) (bs : List (List (Msg G)))
    {sched' : List (Nat × Nat)} {o' : Off G K}
    (h : offLoop sem dead cap n quantum sched o bs = some (sched', o')) :
    o'.trace.map mark = o.trace.map mark ++ (List.range n).flatMap (fun k =>
      ((sched.filter fun p => p.1 = quantum + k).map fun p => Mark.callback p.2) ++
        [Mark.quantum (128 * (quantum + k))]) ∧
    sched' = sched.filter fun p => quantum + n ≤ p.1 := by
  induction n generalizing quantum sched o bs with
  | zero =>
    simp only [offLoop, Option.some.injEq, Prod.mk.injEq] at h
    obtain ⟨rfl, rfl⟩ := h
    refine ⟨by simp, (List.filter_eq_self.2 ?_).symm⟩
    intro p hp; simpa using hge p hp
  | succ n ih =>
    simp only [offLoop] at h
    split at h
    · cases h
    · rename_i sched1 o1 bs1 h1
      obtain ⟨_, a2, _, a4⟩ := offSuspend_fields h1
      split at h
      · cases h
      · rename_i o2 h2
        have b : ∃ q, o2.trace = o1.trace ++ [Ev.quantum o1.t.frames q] ∧
            o2.t.frames = o1.t.frames + 128 := by
          unfold offQuantum at h2
          split at h2
          · simp only [Option.some.injEq] at h2
            subst h2
            exact ⟨_, rfl, rfl⟩
          · cases h2
        obtain ⟨q, b1, b2⟩ := b
        split at h
        · cases h
        · rename_i t3 bs3 h3
          have f3 := (poll_fields h3).2.2
          -- the entries due now, and the rest
          have hd : sched.filter (fun p => p.1 = quantum) ++ sched1 = sched ∧ Sorted sched1 ∧
              (∀ p ∈ sched1, quantum + 1 ≤ p.1) ∧
              o1.trace.map mark = o.trace.map mark ++
                (sched.filter fun p => p.1 = quantum).map fun p => Mark.callback p.2 := by
            rcases a4 with ⟨id, e1, _, e3⟩ | ⟨e1, e2, e3⟩
            · subst e1
              obtain ⟨c1, c2⟩ := List.pairwise_cons.1 hs
              have c3 : sched1.filter (fun p => p.1 = quantum) = [] := by
                rw [List.filter_eq_nil_iff]
                intro p hp
                have := c1 p hp
                simp only [decide_eq_true_eq]; omega
              refine ⟨by simp [c3], c2, fun p hp => c1 p hp, by simp [e3, c3, mark]⟩
            · subst e2
              have c1 : ∀ p ∈ sched1, quantum + 1 ≤ p.1 := by
                cases sched1 with
                | nil => simp
                | cons p0 l =>
                  have := e1 p0 rfl
                  have h0 := hge p0 (by simp)
                  obtain ⟨d1, _⟩ := List.pairwise_cons.1 hs
                  intro p hp
                  rcases List.mem_cons.1 hp with rfl | hp
                  · omega
                  · have := d1 p hp; omega
              have c2 : sched1.filter (fun p => p.1 = quantum) = [] := by
                rw [List.filter_eq_nil_iff]
                intro p hp
                have := c1 p hp
                simp only [decide_eq_true_eq]; omega
              exact ⟨by simp [c2], hs, c1, by simp [e3, c2]⟩
          obtain ⟨d1, d2, d3, d4⟩ := hd
          obtain ⟨i1, i2⟩ := ih (quantum + 1) sched1 d2 d3 { o2 with t := t3 }
            (by simp only [f3, b2, a2, hf]; ring) bs3 h
          have hfil : ∀ k, (sched1.filter fun p => p.1 = quantum + 1 + k) =
              sched.filter fun p => p.1 = quantum + (k + 1) := by
            intro k
            rw [← d1, List.filter_append, List.filter_filter]
            rw [(List.filter_eq_nil_iff (l := sched)).2]
            · simp only [List.nil_append]
              apply List.filter_congr
              intro p _
              congr 1
              apply propext; omega
            · intro p _; simp; omega
          constructor
          · rw [i1, List.range_succ_eq_map, List.flatMap_cons]
            simp only [b1, List.map_append, List.map_cons, List.map_nil, mark, d4, a2, hf,
              List.flatMap_map, Nat.add_zero, List.append_assoc]
            congr 3
            apply List.flatMap_congr
            intro k _
            rw [hfil k, show quantum + 1 + k = quantum + (k + 1) by omega]
          · rw [i2, ← d1, List.filter_append, List.filter_filter]
            rw [(List.filter_eq_nil_iff (l := sched)).2]
            · simp only [List.nil_append]
              apply List.filter_congr
              intro p _
              congr 1
              apply propext; omega
            · intro p _; simp; omega

theorem suspendFrame_spec {length : Nat} {sr t : ℚ} (hsr : 0 < sr) {q : Nat}
    (h : suspendFrame id length sr t = some q) :
    0 ≤ t ∧ t < length / sr ∧ RoundsTo sr t q := by
  unfold suspendFrame at h
  split at h
  · cases h
  · split at h
    · cases h
    · rename_i h0 h1
      simp only [id, Option.some.injEq] at h
      have h0 := not_lt.1 h0
      refine ⟨h0, by simpa using h1, ?_⟩
      subst h
      have hc : 0 ≤ ⌈t * sr / 128⌉ := Int.ceil_nonneg (by positivity)
      have hcast : ((⌈t * sr / 128⌉.toNat : Nat) : ℚ) = ((⌈t * sr / 128⌉ : ℤ) : ℚ) := by
        rw [← Int.cast_natCast, Int.toNat_of_nonneg hc]
      refine ⟨?_, ?_⟩
      · rw [hcast, le_div_iff₀ hsr]
        have := Int.le_ceil (t * sr / 128)
        linarith
      · intro j hj
        rw [le_div_iff₀ hsr] at hj
        have : ⌈t * sr / 128⌉ ≤ (j : ℤ) := Int.ceil_le.2 (by push_cast; linarith)
        omega

theorem RoundsTo.unique {sr t : ℚ} {a b : Nat} (ha : RoundsTo sr t a) (hb : RoundsTo sr t b) : a = b :=
  le_antisymm (ha.2 b hb.1) (hb.2 a ha.1)

/-- C18: if a set of suspensions is accepted and rendering completes (exact arithmetic), then the
history is: for each quantum first the callback whose time rounds to that quantum, if there is one,
then the quantum. So each of these callbacks runs exactly once, before the quantum its time is rounded
up to, in order of time. Missing for the full claim: suspensions within the last quantum are rounded
up to the end of the rendering and never run (`C18_negated`), and rounding errors of the floating point
computation (`C18_negated_rounding`). -/
theorem C18_suspend_partial (sem : Sem G K) (dead : Nat → Bool) (ch length cap : Nat) {sr : ℚ}
    (hsr : 0 < sr) (rs : List (ℚ × Nat)) {sched : List (Nat × Nat)}
    (hsched : schedule id length sr rs [] = some sched)
    (t : St G K) (ht : t.frames = 0) (bs : List (List (Msg G))) {sched' : List (Nat × Nat)} {o : Off G K}
    (h : offRender sem dead ch length cap sched t bs = some (sched', o)) :
    (∀ r ∈ rs, 0 ≤ r.1 ∧ r.1 < length / sr ∧ ∃ k, RoundsTo sr r.1 k) ∧
    ∃ due : Nat → List (ℚ × Nat), (∀ k, (due k).length ≤ 1) ∧
      (∀ k r, r ∈ due k ↔ r ∈ rs ∧ RoundsTo sr r.1 k) ∧
      o.trace.map mark = (List.range ((length + 127) / 128)).flatMap fun k =>
        ((due k).map fun r => Mark.callback r.2) ++ [Mark.quantum (128 * k)] := by
  obtain ⟨s1, s2, s3⟩ := schedule_spec id length sr rs [] (by simp [Sorted]) hsched
  have acc : ∀ r ∈ rs, 0 ≤ r.1 ∧ r.1 < length / sr ∧
      RoundsTo sr r.1 ((suspendFrame id length sr r.1).getD 0) := by
    intro r hr
    obtain ⟨q, hq⟩ := s2 r hr
    rw [hq]
    exact suspendFrame_spec hsr hq
  refine ⟨fun r hr => ⟨(acc r hr).1, (acc r hr).2.1, _, (acc r hr).2.2⟩, ?_⟩
  simp only [List.nil_append] at s3
  have perm : ∀ k, (sched.filter fun p => p.1 = k).Perm
      ((rs.filter fun r => (suspendFrame id length sr r.1).getD 0 = k).map
        fun r => ((suspendFrame id length sr r.1).getD 0, r.2)) := by
    intro k
    have := s3.filter (fun p => decide (p.1 = k))
    rwa [List.filter_map] at this
  have small : ∀ k, (sched.filter fun p => p.1 = k).length ≤ 1 := by
    intro k
    have hp : (sched.filter fun p => p.1 = k).Pairwise fun a b => a.1 < b.1 := s1.filter _
    have hm : ∀ p ∈ sched.filter (fun p => p.1 = k), p.1 = k := by
      intro p hp; simpa using (List.mem_filter.1 hp).2
    generalize sched.filter (fun p => p.1 = k) = F at hp hm ⊢
    match F, hp, hm with
    | [], _, _ => simp
    | [a], _, _ => simp
    | a :: b :: l, hp, hm =>
      have h1 := (List.pairwise_cons.1 hp).1 b (by simp)
      have h2 := hm a (by simp)
      have h3 := hm b (by simp)
      omega
  refine ⟨fun k => rs.filter fun r => (suspendFrame id length sr r.1).getD 0 = k, ?_, ?_, ?_⟩
  · intro k
    have := (perm k).length_eq
    rw [List.length_map] at this
    rw [← this]; exact small k
  · intro k r
    rw [List.mem_filter]
    constructor
    · rintro ⟨hr, hk⟩
      have := (acc r hr).2.2
      rw [of_decide_eq_true hk] at this
      exact ⟨hr, this⟩
    · rintro ⟨hr, hk⟩
      exact ⟨hr, decide_eq_true ((acc r hr).2.2.unique hk)⟩
  · unfold offRender at h
    split at h
    · cases h
    · rename_i t1 bs1 hp
      have := (offLoop_marks _ 0 sched s1 (by simp) _ (by simp [(poll_fields hp).2.2, ht]) _ h).1
      rw [this]
      simp only [List.map_nil, List.nil_append, Nat.zero_add]
      apply List.flatMap_congr
      intro k _
      congr 1
      have hk := perm k
      have hs := small k
      generalize sched.filter (fun p => p.1 = k) = F at hk hs ⊢
      match F, hk, hs with
      | [], hk, _ =>
        have := List.Perm.nil_eq hk
        rw [List.map_eq_nil_iff.1 this.symm]; rfl
      | [a], hk, _ =>
        have := List.singleton_perm.1 hk
        have h2 := congrArg (List.map fun p : Nat × Nat => Mark.callback p.2) this
        simpa [List.map_map, Function.comp_def] using h2
      | a :: b :: l, _, hs => simp at hs

example : ((schedule id 300 44100 [(200 / 44100, 7), (100 / 44100, 8), (0, 9)] []).bind fun sched =>
    (offRender altSem (fun _ => false) 1 300 300 sched St.init [[.startup 0]]).map fun r =>
      r.2.trace.map mark) =
    some [.callback 9, .quantum 0, .callback 8, .quantum 128, .callback 7, .quantum 256] := by
  decide +kernel

/-- C18 fails: a suspension at a time after the start of the last quantum is accepted although it
rounds up to the end of rendering, and its callback never runs. -/
theorem C18_negated :
    schedule id 128 44100 [(64 / 44100, 7)] [] = some [(1, 7)] ∧
      (64 / 44100 : ℚ) < (128 : Nat) / 44100 ∧
      ∀ (dead : Nat → Bool) (ch cap : Nat) (t : St G K) (bs : List (List (Msg G))) (sem : Sem G K)
        (r : List (Nat × Nat) × Off G K), offRender sem dead ch 128 cap [(1, 7)] t bs = some r →
        t.frames = 0 → r.1 = [(1, 7)] ∧ r.2.trace.map mark = [.quantum 0] := by
  refine ⟨by decide +kernel, by norm_num, ?_⟩
  rintro dead ch cap t bs sem ⟨sched', o⟩ h ht
  unfold offRender at h
  split at h
  · cases h
  · rename_i hp
    have := offLoop_marks _ 0 [(1, 7)] (by simp [Sorted]) (by simp) _
      (by simp [(poll_fields hp).2.2, ht]) _ h
    exact ⟨by rw [this.2]; rfl, by rw [this.1]; simp⟩

/-- C18 and rounding errors: a user asks for the start of quantum 13 at 44.1 kHz, with the time computed
in `f64` as `13 * 128 / 44100`; the suspension happens at quantum 14, because that time is rounded to
just above the start of quantum 13. -/
theorem C18_negated_rounding :
    suspendFrame Float.f64 2560 44100 (Float.f64 (13 * 128 / 44100)) = some 14 ∧
      RoundsTo 44100 (13 * 128 / 44100) 13 := by
  refine ⟨by decide +kernel, by norm_num, fun j hj => ?_⟩
  have : (13 : ℚ) ≤ j := by linarith
  exact_mod_cast this

/-- C18: the asynchronous variant panics if the future returned by `suspend` was dropped (after being polled
once): `sender.send(()).unwrap()`, thread.rs l.331 -/
theorem C18_negated_dropped :
    offRender altSem (fun _ => true) 1 128 128 [(0, 7)] St.init [[.startup 0]] = none := by
  decide +kernel

end Verif.Thread
