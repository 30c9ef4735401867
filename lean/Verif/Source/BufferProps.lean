import Verif.Source.BufferFast

/-!
# C33: histories
-/

namespace Verif.Source

section
variable {K : Type} [Field K] [LinearOrder K] [FloorRing K]

theorem BufSt.run_append {e : BufEnv K} {s t u : BufSt K} {as bs : List (BufOp K)}
    {o1 o2 : List (List (List K))} (h : BufSt.run e s as = some (.ok (o1, t)))
    (hr : BufSt.run e t bs = some (.ok (o2, u))) :
    BufSt.run e s (as ++ bs) = some (.ok (o1 ++ o2, u)) := by
  induction as generalizing s o1 with
  | nil => cases h; exact hr
  | cons a as ih =>
    rw [BufSt.run] at h
    rw [List.cons_append, BufSt.run]
    cases hs : s.step e a with
    | none => rw [hs] at h; cases h
    | some x =>
      cases x with
      | error f => rw [hs] at h; cases h
      | ok p =>
        obtain ⟨out, q⟩ := p
        rw [hs] at h
        simp only at h ⊢
        cases hq : BufSt.run e q as with
        | none => rw [hq] at h; cases h
        | some y =>
          cases y with
          | error f => rw [hq] at h; cases h
          | ok p =>
            obtain ⟨outs, q'⟩ := p
            rw [hq] at h
            cases h
            rw [ih hq]
            rfl

theorem BufSt.run_cons {e : BufEnv K} {s t u : BufSt K} {op : BufOp K} {ops : List (BufOp K)}
    {out : List (List K)} {outs : List (List (List K))}
    (h : s.step e op = some (.ok (out, t))) (hr : BufSt.run e t ops = some (.ok (outs, u))) :
    BufSt.run e s (op :: ops) = some (.ok (out :: outs, u)) := by
  rw [BufSt.run, h]
  simp only [hr]

variable [IsStrictOrderedRing K]

/-- quanta with playback rate and detune factor -/
def blocks (rs : List (K × K)) : List (BufOp K) := rs.map fun r => .block r.1 r.2

omit [IsStrictOrderedRing K] in
theorem ended_blocks (e : BufEnv K) (rs : List (K × K)) {s : BufSt K} (he : s.ended = true)
    (ha : s.alive = true) :
    ∃ s', BufSt.run e s (blocks rs) = some (.ok (List.replicate rs.length [], s')) ∧ s'.events = s.events := by
  induction rs generalizing s with
  | nil => exact ⟨s, rfl, rfl⟩
  | cons r rs ih =>
    obtain ⟨s', h1, h2⟩ := ih (s := { s with frame := s.frame + e.count }) he ha
    refine ⟨s', BufSt.run_cons ?_ h1, h2⟩
    unfold BufSt.step BufSt.process
    simp only [ha, if_true, he]

/-- From a state where `P` frames have been played. -/
theorem Live.blocks {e : BufEnv K} (hsr : 0 < e.sr) (hb : e.bufSr = e.sr) (hcount : 0 < e.count)
    {chans : List (List K)} (hne : chans ≠ []) (hch : ∀ ch ∈ chans, ch.length = lengthOf chans)
    (rs : List (K × K)) (hrs : ∀ r ∈ rs, r.1 * r.2 = 1) {s : BufSt K}
    (hl : s.looping = true → 0 < lengthOf chans) {P : Nat} (h : Live e chans s P) :
    ∃ outs s', BufSt.run e s (blocks rs) = some (.ok (outs, s')) ∧ outs.length = rs.length ∧
      (∀ b, b < rs.length → ∀ c, c < chans.length → ∀ j, j < e.count →
        valueAt ((outs[b]?).getD []) c j =
          sampleAt s.looping ((chans[c]?).getD []) (P + b * e.count + j)) ∧
      s'.events = if s.looping = false ∧ rs ≠ [] ∧ lengthOf chans ≤ P + rs.length * e.count then 1 else 0 := by
  induction rs generalizing s P with
  | nil => exact ⟨[], s, rfl, rfl, fun b hb => by simp at hb, by simp [h.events]⟩
  | cons r rs ih =>
    obtain ⟨out, t, h1, h2, h3, h4, h5, h6, h7⟩ :=
      h.block hsr hb hcount hne hch hl (hrs r (by simp))
    by_cases hc : s.looping = false ∧ lengthOf chans ≤ P + e.count
    · rw [if_pos hc] at h7
      obtain ⟨u, i1, i2⟩ := ended_blocks e rs h7.1 h6
      refine ⟨_, u, BufSt.run_cons h1 i1, by simp, ?_, ?_⟩
      · intro b hb' c hcl j hj
        cases b with
        | zero =>
          rw [List.getElem?_cons_zero, Option.getD_some, h3 c hcl j hj]
          congr 1
          omega
        | succ b =>
          have hlt : b < rs.length := by simpa using hb'
          rw [List.getElem?_cons_succ, List.getElem?_replicate, if_pos hlt]
          rw [List.getElem?_eq_getElem hcl]
          have hlen : (chans[c]).length = lengthOf chans := hch _ (List.getElem_mem hcl)
          simp only [Option.getD_some, sampleAt, hc.1, Bool.false_eq_true, if_false]
          rw [List.getElem?_eq_none]
          · simp [valueAt]
          · rw [hlen, Nat.succ_mul]
            have := hc.2
            omega
      · rw [i2, h7.2, if_pos]
        refine ⟨hc.1, by simp, ?_⟩
        have := hc.2
        rw [List.length_cons, Nat.succ_mul]
        omega
    · rw [if_neg hc] at h7
      obtain ⟨outs, u, i1, i2, i3, i4⟩ := ih (fun r hr => hrs r (by simp [hr]))
        (by rw [h5]; exact hl) h7
      refine ⟨_, u, BufSt.run_cons h1 i1, by simp [i2], ?_, ?_⟩
      · intro b hb' c hcl j hj
        cases b with
        | zero =>
          rw [List.getElem?_cons_zero, Option.getD_some, h3 c hcl j hj]
          congr 1
          omega
        | succ b =>
          have hlt : b < rs.length := by simpa using hb'
          rw [List.getElem?_cons_succ, i3 b hlt c hcl j hj, h5]
          congr 1
          rw [Nat.succ_mul]
          omega
      · rw [i4, h5]
        have e1 : P + (rs.length + 1) * e.count = P + e.count + rs.length * e.count := by
          rw [Nat.succ_mul]; omega
        rw [List.length_cons, e1]
        by_cases hr0 : rs = []
        · subst hr0
          rw [if_neg (by simp), if_neg]
          rintro ⟨g1, _, g2⟩
          exact hc ⟨g1, by simpa using g2⟩
        · simp [hr0]

/-- Quanta before the start time are silent. -/
theorem idle_blocks {e : BufEnv K} (hsr : 0 < e.sr) (rs : List (K × K)) {s : BufSt K} {N : Nat}
    (hbuf : s.buffer ≠ none) (hst : s.start = ((N / e.sr : K) : WithTop K)) (hstop : s.stop = ⊤)
    (hal : s.alive = true) (hen : s.ended = false) (hN : s.frame + rs.length * e.count ≤ N) :
    BufSt.run e s (blocks rs) =
      some (.ok (List.replicate rs.length [], { s with frame := s.frame + rs.length * e.count })) := by
  induction rs generalizing s with
  | nil => simp [blocks, BufSt.run]
  | cons r rs ih =>
    have hlen : (rs.length + 1) * e.count = e.count + rs.length * e.count := by
      rw [Nat.succ_mul]; omega
    rw [List.length_cons, hlen] at hN
    have hi := ih (s := { s with frame := s.frame + e.count }) hbuf hst hstop hal hen (by simp only; omega)
    have hle : (((s.frame / e.sr + 1 / e.sr * e.count : K)) : WithTop K) ≤ s.start := by
      rw [hst]
      apply WithTop.coe_le_coe.2
      have : (s.frame : K) / e.sr + 1 / e.sr * e.count = ((s.frame + e.count : Nat) : K) / e.sr := by
        push_cast; field_simp
      rw [this]
      apply div_le_div_of_nonneg_right _ hsr.le
      have : s.frame + e.count ≤ N := by omega
      exact_mod_cast this
    have hstep : s.step e (.block r.1 r.2) = some (.ok ([], { s with frame := s.frame + e.count })) := by
      have hns : ¬ s.stop ≤ ((s.frame / e.sr + 1 / e.sr * e.count : K) : WithTop K) := by
        rw [hstop, top_le_iff]; exact WithTop.coe_ne_top
      have hp : s.process e r.1 r.2 = .ok ([], s, decide (s.start ≠ ⊤)) := by
        unfold BufSt.process
        dsimp only
        rw [if_neg (by rw [hen]; simp), if_neg (fun h => hbuf h.1), if_pos hle, if_neg hns]
      unfold BufSt.step
      dsimp only
      rw [if_pos hal, hp]
    have := BufSt.run_cons (out := []) hstep hi
    show BufSt.run e s (BufOp.block r.1 r.2 :: blocks rs) = _
    rw [this]
    simp only [List.length_cons, List.replicate_succ, hlen, Nat.add_assoc]

/-- Quanta before the calls. -/
theorem fresh_blocks (e : BufEnv K) (rs : List (K × K)) {s : BufSt K}
    (hbuf : s.buffer = none) (hst : s.start = ⊤) (hstop : s.stop = ⊤)
    (hal : s.alive = true) (hen : s.ended = false) :
    BufSt.run e s (blocks rs) =
      some (.ok (List.replicate rs.length [], { s with frame := s.frame + rs.length * e.count })) := by
  induction rs generalizing s with
  | nil => simp [blocks, BufSt.run]
  | cons r rs ih =>
    have hlen : (rs.length + 1) * e.count = e.count + rs.length * e.count := by
      rw [Nat.succ_mul]; omega
    have hi := ih (s := { s with frame := s.frame + e.count }) hbuf hst hstop hal hen
    have hstep : s.step e (.block r.1 r.2) = some (.ok ([], { s with frame := s.frame + e.count })) := by
      unfold BufSt.step BufSt.process
      simp [hal, hen, hst, hstop]
    have := BufSt.run_cons (out := []) hstep hi
    show BufSt.run e s (BufOp.block r.1 r.2 :: blocks rs) = _
    rw [this]
    simp only [List.length_cons, List.replicate_succ, hlen, Nat.add_assoc]

/-- C33: a source with default loop points and a buffer of the sample rate of the context, whose playback rate
and detune give the natural rate, started at the beginning of a quantum (after `n` further quanta) or in the
past (`n = 0`). The outputs of the `n` quanta are silent; then frame `i` of the `b`-th quantum is frame
`b * count + i` of the buffer, modulo its length when looping, and silent after its end otherwise. The ended
event is sent once the end of the buffer is reached, and not before. There is no panic. -/
theorem C33_natural_rate {e : BufEnv K} (hsr : 0 < e.sr) (hb : e.bufSr = e.sr) (hcount : 0 < e.count)
    (looping : Bool) {chans : List (List K)} (hne : chans ≠ [])
    (hch : ∀ ch ∈ chans, ch.length = lengthOf chans) (hl : looping = true → 0 < lengthOf chans)
    (before wait play : List (K × K)) (hplay : ∀ r ∈ play, r.1 * r.2 = 1) {t : K} (ht : 0 ≤ t)
    (hstart : (wait = [] ∧ t ≤ (before.length * e.count : Nat) / e.sr) ∨
      t = ((before.length + wait.length) * e.count : Nat) / e.sr) :
    ∃ outs s', BufSt.run e (BufSt.new looping 0 0)
        (blocks before ++ ([.buffer chans, .start t 0 ⊤] ++ (blocks wait ++ blocks play))) =
          some (.ok (List.replicate before.length [] ++
            ([[], []] ++ (List.replicate wait.length [] ++ outs)), s')) ∧
      outs.length = play.length ∧
      (∀ b, b < play.length → ∀ c, c < chans.length → ∀ j, j < e.count →
        valueAt ((outs[b]?).getD []) c j = sampleAt looping ((chans[c]?).getD []) (b * e.count + j)) ∧
      s'.events = if looping = false ∧ play ≠ [] ∧ lengthOf chans ≤ play.length * e.count then 1 else 0 := by
  have hdur : 0 ≤ durationOf e chans := by
    unfold durationOf
    rw [hb]
    positivity
  -- the state after the calls
  obtain ⟨s2, hs2, hc⟩ : ∃ s2 : BufSt K, s2 = { BufSt.new looping 0 (durationOf e chans) with
      hasStart := true, start := (t : WithTop K), buffer := some chans, frame := before.length * e.count } ∧
      BufSt.run e { BufSt.new looping (0 : K) 0 with frame := before.length * e.count }
        [.buffer chans, .start t 0 ⊤] = some (.ok ([[], []], s2)) := by
    refine ⟨_, rfl, ?_⟩
    refine BufSt.run_cons (t := { BufSt.new looping 0 (durationOf e chans) with
      buffer := some chans, frame := before.length * e.count }) ?_ (BufSt.run_cons ?_ rfl)
    · simp [BufSt.step, BufSt.new, BufSt.clampLoop, hdur.not_gt]
    · have : ¬ (false = true ∨ t < 0 ∨ (0 : K) < 0 ∨ (⊤ : WithTop K) < 0) := by
        push Not
        exact ⟨by simp, ht, le_refl _, le_top⟩
      unfold BufSt.step
      refine (if_neg this).trans ?_
      simp [BufSt.new, BufSt.clampLoop, hdur.not_gt]
  have h1 := fresh_blocks e before (s := BufSt.new looping (0 : K) 0) rfl rfl rfl rfl rfl
  have hz : (BufSt.new looping (0 : K) 0).frame + before.length * e.count = before.length * e.count := by
    simp [BufSt.new]
  rw [hz] at h1
  -- the state in which playing starts
  obtain ⟨s3, hw, hlive, hlo⟩ : ∃ s3, BufSt.run e s2 (blocks wait) =
      some (.ok (List.replicate wait.length [], s3)) ∧ Live e chans s3 0 ∧ s3.looping = looping := by
    rcases hstart with ⟨rfl, hle⟩ | heq
    · refine ⟨s2, rfl, ?_, by rw [hs2]; rfl⟩
      subst hs2
      exact {
        buffer := rfl, start := WithTop.coe_le_coe.2 hle
        stop := rfl, duration := rfl, offset := rfl, loopStart := rfl, loopEnd := rfl, ended := rfl
        events := rfl, alive := rfl, aligned := .inr rfl
        time := ⟨0, by simp [BufSt.new], by split <;> simp⟩ }
    · have hidle := idle_blocks hsr wait (s := s2) (N := (before.length + wait.length) * e.count)
        (by rw [hs2]; simp) (by rw [hs2, heq]) (by rw [hs2]; rfl) (by rw [hs2]; rfl) (by rw [hs2]; rfl)
        (by rw [hs2, Nat.add_mul])
      refine ⟨_, hidle, ?_, by rw [hs2]; rfl⟩
      have hfr : s2.frame + wait.length * e.count = (before.length + wait.length) * e.count := by
        rw [hs2, Nat.add_mul]
      rw [hfr]
      subst hs2
      exact {
        buffer := rfl, start := by rw [heq]
        stop := rfl, duration := rfl, offset := rfl, loopStart := rfl, loopEnd := rfl, ended := rfl
        events := rfl, alive := rfl, aligned := .inr rfl
        time := ⟨0, by simp [BufSt.new], by split <;> simp⟩ }
  obtain ⟨outs, s4, p1, p2, p3, p4⟩ :=
    hlive.blocks hsr hb hcount hne hch play hplay (by rw [hlo]; exact hl)
  rw [hlo] at p3 p4
  have h4 := BufSt.run_append hw p1
  have h5 := BufSt.run_append hc h4
  have h6 := BufSt.run_append h1 h5
  refine ⟨outs, s4, h6, p2, ?_, ?_⟩
  · intro b hb' c hcl j hj
    have := p3 b hb' c hcl j hj
    rw [Nat.zero_add] at this
    exact this
  · rw [p4, Nat.zero_add]

/-! ## The ended event -/

omit [IsStrictOrderedRing K] in
theorem slowTrack_flags {e : BufEnv K} {s s' : BufSt K} {chans out : List (List K)} {rate0 rate : K}
    (h : slowTrack e s chans rate0 rate = .ok (out, s')) :
    s'.ended = s.ended ∧ s'.events = s.events ∧ s'.alive = s.alive := by
  unfold slowTrack at h
  generalize hq : Slow.frames e _ _ _ _ _ = r at h
  cases r with
  | error f => cases h
  | ok p =>
    obtain ⟨r, infos⟩ := p
    simp only at h
    split at h
    · cases h
    · cases h; exact ⟨rfl, rfl, rfl⟩

omit [IsStrictOrderedRing K] in
/-- The event count is one exactly when the source has ended, and the end is final. -/
theorem step_ended {e : BufEnv K} {s s' : BufSt K} {op : BufOp K} {out : List (List K)}
    (hi : s.events = s.ended.toNat) (h : s.step e op = some (.ok (out, s'))) :
    s'.events = s'.ended.toNat ∧ (s.ended = true → s'.ended = true) := by
  have hclamp : ∀ r : BufSt K, (r.clampLoop e).ended = r.ended ∧ (r.clampLoop e).events = r.events := by
    intro r
    unfold BufSt.clampLoop
    split <;> exact ⟨rfl, rfl⟩
  have hclose : ∀ (r : BufSt K) (d x : K), r.ended = false → r.events = 0 →
      (r.close e d x).events = (r.close e d x).ended.toNat := by
    intro r d x h1 h2
    unfold BufSt.close
    split
    · simp [BufSt.sendEnded, h2]
    · simp [h1, h2]
  cases op with
  | buffer chans =>
    simp only [BufSt.step] at h
    split at h
    · cases h
      exact ⟨by rw [(hclamp _).1, (hclamp _).2]; exact hi, fun x => by rw [(hclamp _).1]; exact x⟩
    · cases h
  | start t o d =>
    simp only [BufSt.step] at h
    split at h
    · cases h
    · cases h
      exact ⟨by rw [(hclamp _).1, (hclamp _).2]; exact hi, fun x => by rw [(hclamp _).1]; exact x⟩
  | stop t =>
    simp only [BufSt.step] at h
    split at h
    · cases h
    · cases h
      exact ⟨by rw [(hclamp _).1, (hclamp _).2]; exact hi, fun x => by rw [(hclamp _).1]; exact x⟩
  | loop b =>
    cases h
    exact ⟨by rw [(hclamp _).1, (hclamp _).2]; exact hi, fun x => by rw [(hclamp _).1]; exact x⟩
  | loopStart b =>
    cases h
    exact ⟨by rw [(hclamp _).1, (hclamp _).2]; exact hi, fun x => by rw [(hclamp _).1]; exact x⟩
  | loopEnd b =>
    cases h
    exact ⟨by rw [(hclamp _).1, (hclamp _).2]; exact hi, fun x => by rw [(hclamp _).1]; exact x⟩
  | block r d =>
    simp only [BufSt.step] at h
    split at h
    swap
    · cases h; exact ⟨hi, id⟩
    cases hp : s.process e r d with
    | error f => rw [hp] at h; cases h
    | ok x =>
      obtain ⟨o, q, b⟩ := x
      rw [hp] at h
      cases h
      simp only
      unfold BufSt.process at hp
      dsimp only at hp
      cases hen : s.ended with
      | true =>
        rw [hen] at hp
        cases hp
        exact ⟨hi, fun _ => hen⟩
      | false =>
        rw [hen] at hi hp
        simp only [Bool.false_eq_true, if_false, Bool.toNat_false] at hp hi
        refine ⟨?_, fun x => by cases x⟩
        split at hp
        · cases hp; simp [BufSt.sendEnded, hi]
        · split at hp
          · split at hp
            · cases hp; simp [BufSt.sendEnded, hi]
            · cases hp; simp [hen, hi]
          · split at hp
            · cases hp; simp [hen, hi]
            · rename_i chans _
              cases hpl : s.play e chans r (r * d) with
              | error f => rw [hpl] at hp; cases hp
              | ok y =>
                obtain ⟨o', q'⟩ := y
                rw [hpl] at hp
                cases hp
                have hcu : (s.catchUp e).ended = false ∧ (s.catchUp e).events = 0 := by
                  unfold BufSt.catchUp
                  split <;> exact ⟨hen, hi⟩
                unfold BufSt.play at hpl
                dsimp only at hpl
                split at hpl
                · split at hpl
                  · cases hpl
                  · cases hpl
                    exact hclose _ _ _ hcu.1 hcu.2
                · split at hpl
                  · cases hpl
                  · rename_i hs
                    cases hpl
                    obtain ⟨f1, f2, _⟩ := slowTrack_flags hs
                    exact hclose _ _ _ (by rw [f1]; exact hcu.1) (by rw [f2]; exact hcu.2)
  | drop =>
    simp only [BufSt.step] at h
    split at h
    · cases h
      by_cases hc : s.ended = false ∧ (s.start ≤ ((s.frame / e.sr : K) : WithTop K) ∨
          s.stop ≤ ((s.frame / e.sr : K) : WithTop K))
      · rw [if_pos hc]
        rw [hc.1] at hi
        simp at hi
        simp [BufSt.sendEnded, hi]
      · rw [if_neg hc]
        exact ⟨hi, id⟩
    · cases h; exact ⟨hi, id⟩

omit [IsStrictOrderedRing K] in
/-- C33: in every history (any calls, rates, loop points and buffers) the ended event is sent at most once. -/
theorem C33_ended_once {e : BufEnv K} {looping : Bool} {a b : K} {ops : List (BufOp K)}
    {outs : List (List (List K))} {s : BufSt K}
    (h : BufSt.run e (BufSt.new looping a b) ops = some (.ok (outs, s))) : s.events ≤ 1 := by
  have gen : ∀ (ops : List (BufOp K)) (r : BufSt K) (outs : List (List (List K))),
      r.events = r.ended.toNat → BufSt.run e r ops = some (.ok (outs, s)) → s.events = s.ended.toNat := by
    intro ops
    induction ops with
    | nil => intro r outs hi h; cases h; exact hi
    | cons op ops ih =>
      intro r outs hi h
      rw [BufSt.run] at h
      cases hs : r.step e op with
      | none => rw [hs] at h; cases h
      | some x =>
        cases x with
        | error f => rw [hs] at h; cases h
        | ok p =>
          obtain ⟨o, q⟩ := p
          rw [hs] at h
          simp only at h
          cases hq : BufSt.run e q ops with
          | none => rw [hq] at h; cases h
          | some y =>
            cases y with
            | error f => rw [hq] at h; cases h
            | ok p =>
              obtain ⟨os, q'⟩ := p
              rw [hq] at h
              cases h
              exact ih q os (step_ended hi hs).1 hq
  rw [gen ops _ outs (by rfl) h]
  cases s.ended <;> simp

omit [IsStrictOrderedRing K] in
/-- C33: once the ended event has been sent every later quantum is silent, whatever is called. -/
theorem C33_silent_after_end {e : BufEnv K} {s s' : BufSt K} {ops : List (BufOp K)}
    {outs : List (List (List K))} (hi : s.events = s.ended.toNat) (he : s.ended = true)
    (h : BufSt.run e s ops = some (.ok (outs, s'))) : ∀ out ∈ outs, out = [] := by
  induction ops generalizing s outs with
  | nil => cases h; simp
  | cons op ops ih =>
    rw [BufSt.run] at h
    cases hs : s.step e op with
    | none => rw [hs] at h; cases h
    | some x =>
      cases x with
      | error f => rw [hs] at h; cases h
      | ok p =>
        obtain ⟨o, q⟩ := p
        rw [hs] at h
        simp only at h
        cases hq : BufSt.run e q ops with
        | none => rw [hq] at h; cases h
        | some y =>
          cases y with
          | error f => rw [hq] at h; cases h
          | ok p =>
            obtain ⟨os, q'⟩ := p
            rw [hq] at h
            cases h
            obtain ⟨k1, k2⟩ := step_ended hi hs
            have ho : o = [] := by
              cases op with
              | block r d =>
                simp only [BufSt.step, BufSt.process, he, if_true] at hs
                split at hs <;> (cases hs; rfl)
              | buffer c => simp only [BufSt.step] at hs; split at hs <;> cases hs; rfl
              | start a b c => simp only [BufSt.step] at hs; split at hs <;> cases hs; rfl
              | stop a => simp only [BufSt.step] at hs; split at hs <;> cases hs; rfl
              | loop a => cases hs; rfl
              | loopStart a => cases hs; rfl
              | loopEnd a => cases hs; rfl
              | drop => simp only [BufSt.step] at hs; split at hs <;> (cases hs; rfl)
            intro out hout
            rcases List.mem_cons.1 hout with rfl | hm
            · exact ho
            · exact ih k1 (k2 he) hq out hm

end

end Verif.Source
