import Verif.Thread.Props
import Verif.Thread.OfflineProps

/-!
# C100: what the device plays is what an offline rendering gives

Compares `RenderThread::render_inner` (`/repo/src/render/thread.rs` l.441-532) with
`RenderThread::render_audiobuffer_sync` and `render_offline_quantum` (l.260-302, l.355-396), in the models of
`Verif.Thread.Model` and `Verif.Thread.OfflineModel`: the same graph, the same control messages.
-/

namespace Verif.Thread

variable {G K : Type} [Zero K]

/-! ## Specification -/

/-- A message that changes the graph (and nothing else), after which the graph still is active. -/
def Keeps (sem : Sem G K) (m : Msg G) : Prop :=
  ∃ f, m = .graph f ∧ ∀ g g', f g = some g' → sem.active g = true → sem.active g' = true

/-! ## Proofs -/

/-- the effect of messages on the graph -/
def applyMsgs : List (Msg G) → G → Option G
  | [], g => some g
  | .graph f :: ms, g => (f g).bind (applyMsgs ms)
  | _ :: ms, g => applyMsgs ms g

/-- quanta, each followed by a batch of messages -/
def play (sem : Sem G K) : List (List (Msg G)) → G → Nat → Option (G × List (Quantum K))
  | [], g, _ => some (g, [])
  | b :: bts, g, f =>
    (applyMsgs b (sem.render g f).1).bind fun g' =>
      (play sem bts g' (f + rqs)).map fun x => (x.1, (sem.render g f).2 :: x.2)

/-- a batch of messages, then quanta, each followed by a batch -/
def Ran (sem : Sem G K) (g : G) (f : Nat) (b0 : List (Msg G)) (bts : List (List (Msg G))) (g' : G)
    (qs : List (Quantum K)) : Prop :=
  ∃ g0, applyMsgs b0 g = some g0 ∧ play sem bts g0 f = some (g', qs)

theorem applyMsgs_append (a b : List (Msg G)) (g : G) :
    applyMsgs (a ++ b) g = (applyMsgs a g).bind (applyMsgs b) := by
  induction a generalizing g with
  | nil => rfl
  | cons m a ih =>
    cases m <;> simp only [List.cons_append, applyMsgs]
    · rename_i f
      cases hf : f g with
      | none => rfl
      | some g1 => exact ih g1
    all_goals exact ih g

omit [Zero K] in
theorem play_length (sem : Sem G K) (bts : List (List (Msg G))) : ∀ (g : G) (f : Nat) (g' : G) (qs : List (Quantum K)),
    play sem bts g f = some (g', qs) → qs.length = bts.length := by
  induction bts with
  | nil => intro g f g' qs h; simp only [play, Option.some.injEq, Prod.mk.injEq] at h; rw [← h.2]; rfl
  | cons b bts ih =>
    intro g f g' qs h
    simp only [play, Option.bind_eq_some_iff, Option.map_eq_some_iff, Prod.mk.injEq] at h
    obtain ⟨g1, _, x, hx, _, rfl⟩ := h
    simp [ih _ _ _ _ hx]

omit [Zero K] in
theorem play_append (sem : Sem G K) (a b : List (List (Msg G))) : ∀ (g : G) (f : Nat) (g1 g2 : G) (q1 q2 : List (Quantum K)),
    play sem a g f = some (g1, q1) → play sem b g1 (f + rqs * a.length) = some (g2, q2) →
    play sem (a ++ b) g f = some (g2, q1 ++ q2) := by
  induction a with
  | nil =>
    intro g f g1 g2 q1 q2 h h'
    simp only [play, Option.some.injEq, Prod.mk.injEq] at h
    obtain ⟨rfl, rfl⟩ := h
    simpa using h'
  | cons x a ih =>
    intro g f g1 g2 q1 q2 h h'
    simp only [play, Option.bind_eq_some_iff, Option.map_eq_some_iff, Prod.mk.injEq] at h
    obtain ⟨g0, h0, y, hy, rfl, rfl⟩ := h
    have := ih g0 (f + rqs) y.1 g2 y.2 q2 hy (by
      rw [show f + rqs + rqs * a.length = f + rqs * (x :: a).length by simp; ring]; exact h')
    simp only [List.cons_append, play, h0, Option.bind_some, this, Option.map_some]

omit [Zero K] in
theorem play_absorb (sem : Sem G K) (a : List (List (Msg G))) (b b' : List (Msg G)) :
    ∀ (g : G) (f : Nat) (g1 g2 : G) (qs : List (Quantum K)),
    play sem (a ++ [b]) g f = some (g1, qs) → applyMsgs b' g1 = some g2 →
    play sem (a ++ [b ++ b']) g f = some (g2, qs) := by
  induction a with
  | nil =>
    intro g f g1 g2 qs h h'
    simp only [List.nil_append, play, Option.map_some, Option.bind_eq_some_iff, Option.some.injEq, Prod.mk.injEq] at h ⊢
    obtain ⟨g0, h0, rfl, rfl⟩ := h
    exact ⟨g2, by rw [applyMsgs_append, h0]; exact h', rfl, rfl⟩
  | cons x a ih =>
    intro g f g1 g2 qs h h'
    simp only [List.cons_append, play, Option.bind_eq_some_iff, Option.map_eq_some_iff, Prod.mk.injEq] at h ⊢
    obtain ⟨g0, h0, y, hy, rfl, rfl⟩ := h
    exact ⟨g0, h0, _, ih g0 (f + rqs) y.1 g2 y.2 hy h', rfl, rfl⟩

omit [Zero K] in
theorem Ran.comp {sem : Sem G K} {g g1 g2 : G} {f : Nat} {b0 b0' : List (Msg G)} {bts bts' : List (List (Msg G))}
    {q1 q2 : List (Quantum K)} (h : Ran sem g f b0 bts g1 q1) (h' : Ran sem g1 (f + rqs * q1.length) b0' bts' g2 q2) :
    ∃ c0 cts, Ran sem g f c0 cts g2 (q1 ++ q2) ∧ c0 ++ cts.flatten = b0 ++ bts.flatten ++ (b0' ++ bts'.flatten) := by
  obtain ⟨ga, ha, hpa⟩ := h
  obtain ⟨gb, hb, hpb⟩ := h'
  rcases List.eq_nil_or_concat bts with rfl | ⟨a, b, rfl⟩
  · simp only [play, Option.some.injEq, Prod.mk.injEq] at hpa
    obtain ⟨rfl, rfl⟩ := hpa
    refine ⟨b0 ++ b0', bts', ⟨gb, by rw [applyMsgs_append, ha]; exact hb, by simpa using hpb⟩, by simp⟩
  · rw [List.concat_eq_append] at hpa
    have hl := play_length sem _ _ _ _ _ hpa
    have := play_absorb sem a b b0' ga f g1 gb q1 hpa hb
    refine ⟨b0, a ++ [b ++ b0'] ++ bts', ⟨ga, ha, play_append sem _ _ _ _ _ _ _ _ this (by
      rw [show (a ++ [b ++ b0']).length = q1.length by rw [hl]; simp]; exact hpb)⟩, by simp⟩

/-- what holds between two callbacks -/
structure Good (sem : Sem G K) (s : St G K) (g : G) : Prop where
  graph : s.graph = some g
  active : sem.active g = true
  run : s.suspended = false
  recv : s.receiver = true

omit [Zero K] in
theorem handleAll_graph {sem : Sem G K} {ms : List (Msg G)} (hm : ∀ m ∈ ms, Keeps sem m) : ∀ {s : St G K} {g : G},
    Good sem s g → ∀ {s' : St G K}, s.handleAll ms = some s' →
    ∃ g', applyMsgs ms g = some g' ∧ s' = { s with graph := some g' } ∧ Good sem s' g' := by
  induction ms with
  | nil =>
    intro s g hs s' h
    simp only [St.handleAll, Option.some.injEq] at h
    subst h
    exact ⟨g, rfl, by rw [← hs.graph], hs⟩
  | cons m ms ih =>
    intro s g hs s' h
    obtain ⟨f, rfl, hf⟩ := hm m (by simp)
    simp only [St.handleAll, St.handle, hs.graph] at h
    cases hfg : f g with
    | none => simp [hfg] at h
    | some g1 =>
      simp only [hfg, Option.map_some] at h
      obtain ⟨g', h1, h2, h3⟩ := ih (fun m hm' => hm m (by simp [hm'])) (s := { s with graph := some g1 }) (g := g1)
        ⟨rfl, hf g g1 hfg hs.active, hs.run, hs.recv⟩ h
      exact ⟨g', by simp only [applyMsgs, hfg, Option.bind_some, h1], h2, h3⟩

omit [Zero K] in
theorem poll_graph {sem : Sem G K} {bs : List (List (Msg G))} (hm : ∀ b ∈ bs, ∀ m ∈ b, Keeps sem m) {s s' : St G K} {g : G}
    (hs : Good sem s g) {bs' : List (List (Msg G))} (h : s.poll bs = some (s', bs')) :
    ∃ b g' used, applyMsgs b g = some g' ∧ s' = { s with graph := some g' } ∧ Good sem s' g' ∧ bs = used ++ bs' ∧
      used.flatten = b := by
  unfold St.poll at h
  rw [if_pos hs.recv] at h
  simp only [Option.map_eq_some_iff, Prod.mk.injEq] at h
  obtain ⟨s1, h1, rfl, rfl⟩ := h
  cases bs with
  | nil =>
    obtain ⟨g', e1, e2, e3⟩ := handleAll_graph (sem := sem) (ms := []) (by simp) hs (by simpa using h1)
    exact ⟨[], g', [], e1, e2, e3, rfl, rfl⟩
  | cons b bs =>
    obtain ⟨g', e1, e2, e3⟩ := handleAll_graph (sem := sem) (ms := b) (hm b (by simp)) hs (by simpa using h1)
    exact ⟨b, g', [b], e1, e2, e3, rfl, by simp⟩

/-- what a stretch of online rendering has done -/
structure Did (sem : Sem G K) (ch : Nat) (s : St G K) (g : G) (bs : List (List (Msg G))) (s' : St G K)
    (bs' : List (List (Msg G))) : Prop where
  ex : ∃ b0 bts g' qs used sg, Ran sem g s.frames b0 bts g' qs ∧ Good sem s' g' ∧
    s'.frames = s.frames + rqs * qs.length ∧ s'.log = s.log ++ sg ∧ sg.flatMap (expand ch) = qs.flatMap (block ch) ∧
    bs = used ++ bs' ∧ used.flatten = b0 ++ bts.flatten

theorem Did.refl {sem : Sem G K} {ch : Nat} {s : St G K} {g : G} (bs : List (List (Msg G))) (hs : Good sem s g) :
    Did sem ch s g bs s bs :=
  ⟨[], [], g, [], [], [], ⟨g, rfl, rfl⟩, hs, by simp, by simp, rfl, rfl, rfl⟩

/-- `offset` is of no importance -/
theorem Did.of_offset {sem : Sem G K} {ch : Nat} {s s' : St G K} {g : G} {bs bs' : List (List (Msg G))} {o o' : _}
    (h : Did sem ch { s with offset := o } g bs s' bs') : Did sem ch s g bs { s' with offset := o' } bs' := by
  obtain ⟨b0, bts, g', qs, used, sg, h1, h2, h3, h4, h5, h6, h7⟩ := h.ex
  exact ⟨b0, bts, g', qs, used, sg, h1, ⟨h2.graph, h2.active, h2.run, h2.recv⟩, h3, h4, h5, h6, h7⟩

theorem Did.comp {sem : Sem G K} {ch : Nat} {s s1 s2 : St G K} {g : G} {bs bs1 bs2 : List (List (Msg G))}
    (h : Did sem ch s g bs s1 bs1) (h' : ∀ g1, Good sem s1 g1 → Did sem ch s1 g1 bs1 s2 bs2) :
    Did sem ch s g bs s2 bs2 := by
  obtain ⟨b0, bts, g1, qs, used, sg, h1, h2, h3, h4, h5, h6, h7⟩ := h.ex
  obtain ⟨b0', bts', g2, qs', used', sg', k1, k2, k3, k4, k5, k6, k7⟩ := (h' g1 h2).ex
  rw [h3] at k1
  obtain ⟨c0, cts, r1, r2⟩ := h1.comp k1
  refine ⟨c0, cts, g2, qs ++ qs', used ++ used', sg ++ sg', r1, k2, ?_, ?_, ?_, ?_, ?_⟩
  · rw [k3, h3, List.length_append]; ring
  · rw [k4, h4, List.append_assoc]
  · simp [h5, k5]
  · rw [h6, k6, List.append_assoc]
  · rw [List.flatten_append, h7, k7, r2]

theorem renderChunks_did (sem : Sem G K) {ch : Nat}
    (hact : ∀ g f, sem.active g = true → sem.active (sem.render g f).1 = true) (ns : List Nat) :
    ∀ (buf : List K) (s : St G K) (g : G), Good sem s g → ∀ (bs : List (List (Msg G))),
      (∀ b ∈ bs, ∀ m ∈ b, Keeps sem m) → ∀ {s' : St G K} {out : List K} {bs' : List (List (Msg G))},
      renderChunks sem ch ns buf s bs = some (s', out, bs') → Did sem ch s g bs s' bs' := by
  induction ns with
  | nil =>
    intro buf s g hs bs hm s' out bs' h
    simp only [renderChunks, Option.some.injEq, Prod.mk.injEq] at h
    obtain ⟨rfl, _, rfl⟩ := h
    exact Did.refl bs hs
  | cons n ns ih =>
    intro buf s g hs bs hm s' out bs' h
    simp only [renderChunks, hs.graph] at h
    split at h
    · cases h
    · split at h
      · cases h
      · rename_i s1 bs1 hp
        split at h
        · cases h
        · rename_i s2 out2 bs2 hr
          simp only [Option.some.injEq, Prod.mk.injEq] at h
          obtain ⟨rfl, _, rfl⟩ := h
          -- the state that is polled
          obtain ⟨o, ho⟩ : ∃ o, (if n ≠ rqs * ch then
              ({ s with frames := s.frames + rqs, graph := some (sem.render g s.frames).1,
                        log := s.log ++ [Seg.quantum s.frames (sem.render g s.frames).2],
                        offset := some (n / ch, pad ch (sem.render g s.frames).2) } : St G K)
            else { s with frames := s.frames + rqs, graph := some (sem.render g s.frames).1,
                          log := s.log ++ [Seg.quantum s.frames (sem.render g s.frames).2] }) =
            { s with frames := s.frames + rqs, graph := some (sem.render g s.frames).1,
                     log := s.log ++ [Seg.quantum s.frames (sem.render g s.frames).2], offset := o } := by
            by_cases hn : n ≠ rqs * ch
            · exact ⟨_, by rw [if_pos hn]⟩
            · exact ⟨s.offset, by rw [if_neg hn]⟩
          have hp' : St.poll { s with frames := s.frames + rqs, graph := some (sem.render g s.frames).1,
                                      log := s.log ++ [Seg.quantum s.frames (sem.render g s.frames).2],
                                      offset := o } bs =
              some (s1, bs1) := by rw [← ho]; exact hp
          obtain ⟨b, g1, used, p1, p2, p3, p4, p5⟩ := poll_graph (sem := sem) hm
            (g := (sem.render g s.frames).1) (by exact ⟨rfl, hact _ _ hs.active, hs.run, hs.recv⟩) hp'
          have hd : Did sem ch s g bs s1 bs1 := by
            refine ⟨[], [b], g1, [(sem.render g s.frames).2], used, [Seg.quantum s.frames (sem.render g s.frames).2],
              ⟨g, rfl, by simp [play, p1]⟩, p3, by rw [p2]; simp, by rw [p2], by simp [expand], p4, by simp [p5]⟩
          refine hd.comp fun g1' hg1 => ih _ s1 g1' hg1 bs1 ?_ hr
          intro b hb
          exact hm b (by rw [p4]; simp [hb])

theorem renderRest_did (sem : Sem G K) {ch : Nat}
    (hact : ∀ g f, sem.active g = true → sem.active (sem.render g f).1 = true) (buf : List K) (s : St G K) (g : G)
    (hs : Good sem s g) (bs : List (List (Msg G))) (hm : ∀ b ∈ bs, ∀ m ∈ b, Keeps sem m) {s' : St G K} {out : List K}
    {bs' : List (List (Msg G))} (h : renderRest sem ch buf s bs = some (s', out, bs')) : Did sem ch s g bs s' bs' := by
  unfold renderRest at h
  split at h
  · cases h
  · rename_i s1 bs1 hp
    obtain ⟨b, g1, used, p1, p2, p3, p4, p5⟩ := poll_graph hm hs hp
    have hmute : s1.mute sem = false := by
      unfold St.mute
      rw [p3.run, p3.graph]
      simp [p3.active]
    rw [hmute] at h
    simp only [Bool.false_eq_true, if_false] at h
    have hd : Did sem ch s g bs s1 bs1 :=
      ⟨b, [], g1, [], used, [], ⟨g1, p1, rfl⟩, p3, by rw [p2]; simp, by rw [p2]; simp, rfl, p4, by simp [p5]⟩
    refine hd.comp fun g1' hg1 => renderChunks_did sem hact _ _ s1 g1' hg1 bs1 ?_ h
    intro b hb
    exact hm b (by rw [p4]; simp [hb])

theorem renderInner_did (sem : Sem G K) {ch : Nat}
    (hact : ∀ g f, sem.active g = true → sem.active (sem.render g f).1 = true) (buf : List K) (s : St G K) (g : G)
    (hs : Good sem s g) (bs : List (List (Msg G))) (hm : ∀ b ∈ bs, ∀ m ∈ b, Keeps sem m) {s' : St G K} {out : List K}
    {bs' : List (List (Msg G))} (h : renderInner sem ch buf s bs = some (s', out, bs')) : Did sem ch s g bs s' bs' := by
  unfold renderInner at h
  split at h
  · exact renderRest_did sem hact _ _ _ hs _ hm h
  · rename_i off prev ho
    simp only at h
    split at h
    · cases h
    · split at h
      · simp only [Option.some.injEq, Prod.mk.injEq] at h
        obtain ⟨rfl, _, rfl⟩ := h
        exact (Did.refl (ch := ch) bs hs).of_offset (o := s.offset)
      · split at h
        · cases h
        · rename_i s2 out2 bs2 hr
          simp only [Option.some.injEq, Prod.mk.injEq] at h
          obtain ⟨rfl, _, rfl⟩ := h
          exact (renderRest_did sem hact _ (s := { s with offset := none }) g
            ⟨hs.graph, hs.active, hs.run, hs.recv⟩ _ hm hr).of_offset (o' := s2.offset)

theorem run_did (sem : Sem G K) {ch : Nat}
    (hact : ∀ g f, sem.active g = true → sem.active (sem.render g f).1 = true) (bufs : List (List K)) :
    ∀ (s : St G K) (g : G), Good sem s g → ∀ (bs : List (List (Msg G))), (∀ b ∈ bs, ∀ m ∈ b, Keeps sem m) →
      ∀ {s' : St G K} {out : List K} {bs' : List (List (Msg G))}, run sem ch bufs s bs = some (s', out, bs') →
      Did sem ch s g bs s' bs' := by
  induction bufs with
  | nil =>
    intro s g hs bs hm s' out bs' h
    simp only [run, Option.some.injEq, Prod.mk.injEq] at h
    obtain ⟨rfl, _, rfl⟩ := h
    exact Did.refl bs hs
  | cons buf bufs ih =>
    intro s g hs bs hm s' out bs' h
    simp only [run] at h
    split at h
    · cases h
    · rename_i s1 out1 bs1 hr
      split at h
      · cases h
      · rename_i s2 out2 bs2 hr2
        simp only [Option.some.injEq, Prod.mk.injEq] at h
        obtain ⟨rfl, _, rfl⟩ := h
        have hd := renderInner_did sem hact buf s g hs bs hm hr
        refine hd.comp fun g1 hg1 => ih s1 g1 hg1 bs1 ?_ hr2
        obtain ⟨_, _, _, _, used, _, _, _, _, _, _, h6, _⟩ := hd.ex
        intro b hb
        exact hm b (by rw [h6]; simp [hb])

/-! ### The rest of the last quantum is shorter than a quantum -/

/-- part of a pending quantum has been written -/
def OffPos (s : St G K) : Prop := ∀ off q, s.offset = some (off, q) → 0 < off

theorem renderChunks_pos (sem : Sem G K) {ch : Nat} (hch : 0 < ch) (ns : List Nat) (hns : ∀ n ∈ ns, ch ≤ n) :
    ∀ (buf : List K) (s : St G K), OffPos s → ∀ (bs : List (List (Msg G))) {s' : St G K} {out : List K}
      {bs' : List (List (Msg G))}, renderChunks sem ch ns buf s bs = some (s', out, bs') → OffPos s' := by
  induction ns with
  | nil =>
    intro buf s hs bs s' out bs' h
    simp only [renderChunks, Option.some.injEq, Prod.mk.injEq] at h
    obtain ⟨rfl, _, _⟩ := h
    exact hs
  | cons n ns ih =>
    intro buf s hs bs s' out bs' h
    simp only [renderChunks] at h
    split at h
    · cases h
    · split at h
      · cases h
      · split at h
        · cases h
        · rename_i s1 bs1 hp
          split at h
          · cases h
          · rename_i s2 out2 bs2 hr
            simp only [Option.some.injEq, Prod.mk.injEq] at h
            obtain ⟨rfl, _, rfl⟩ := h
            refine ih (fun n hn => hns n (by simp [hn])) _ s1 ?_ bs1 hr
            have hf := (poll_fields hp).1
            intro off q ho
            rw [hf] at ho
            split at ho
            · simp only [Option.some.injEq, Prod.mk.injEq] at ho
              rw [← ho.1]
              exact Nat.div_pos (hns n (by simp)) hch
            · exact hs off q ho

theorem renderRest_pos (sem : Sem G K) {ch : Nat} (hch : 0 < ch) (buf : List K) (hbuf : buf.length % ch = 0)
    (s : St G K) (hs : OffPos s) (bs : List (List (Msg G))) {s' : St G K} {out : List K} {bs' : List (List (Msg G))}
    (h : renderRest sem ch buf s bs = some (s', out, bs')) : OffPos s' := by
  unfold renderRest at h
  split at h
  · cases h
  · rename_i s1 bs1 hp
    have hs1 : OffPos s1 := by
      intro off q ho
      rw [(poll_fields hp).1] at ho
      exact hs off q ho
    split at h
    · simp only [Option.some.injEq, Prod.mk.injEq] at h
      obtain ⟨rfl, _, _⟩ := h
      exact hs1
    · refine renderChunks_pos sem hch _ ?_ buf s1 hs1 bs1 h
      intro n hn
      unfold chunkLens at hn
      rcases List.mem_append.1 hn with hn | hn
      · rw [List.eq_of_mem_replicate hn]
        exact Nat.le_mul_of_pos_left ch (by decide)
      · split at hn
        · cases hn
        · rename_i hne
          simp only [List.mem_singleton] at hn
          have hd : ch ∣ n := by
            rw [hn]
            exact (Nat.dvd_mod_iff (Dvd.intro_left rqs rfl)).2 (Nat.dvd_of_mod_eq_zero hbuf)
          exact Nat.le_of_dvd (by omega) hd

theorem run_pos (sem : Sem G K) {ch : Nat} (hch : 0 < ch) (bufs : List (List K))
    (hbufs : ∀ b ∈ bufs, b.length % ch = 0) : ∀ (s : St G K), OffPos s → ∀ (bs : List (List (Msg G))) {s' : St G K}
    {out : List K} {bs' : List (List (Msg G))}, run sem ch bufs s bs = some (s', out, bs') → OffPos s' := by
  induction bufs with
  | nil =>
    intro s hs bs s' out bs' h
    simp only [run, Option.some.injEq, Prod.mk.injEq] at h
    obtain ⟨rfl, _, rfl⟩ := h
    exact hs
  | cons buf bufs ih =>
    intro s hs bs s' out bs' h
    simp only [run] at h
    split at h
    · cases h
    · rename_i s1 out1 bs1 hr
      split at h
      · cases h
      · rename_i s2 out2 bs2 hr2
        simp only [Option.some.injEq, Prod.mk.injEq] at h
        obtain ⟨rfl, _, rfl⟩ := h
        refine ih (fun b hb => hbufs b (by simp [hb])) s1 ?_ bs1 hr2
        have hbl := hbufs buf (by simp)
        unfold renderInner at hr
        split at hr
        · exact renderRest_pos sem hch buf hbl s hs bs hr
        · rename_i off prev ho
          simp only at hr
          split at hr
          · cases hr
          · split at hr
            · simp only [Option.some.injEq, Prod.mk.injEq] at hr
              obtain ⟨rfl, _, _⟩ := hr
              intro off' q' ho'
              simp only [Option.some.injEq, Prod.mk.injEq] at ho'
              rw [← ho'.1]
              exact Nat.add_pos_left (hs off prev ho) _
            · split at hr
              · cases hr
              · rename_i s3 out3 bs3 hr3
                simp only [Option.some.injEq, Prod.mk.injEq] at hr
                obtain ⟨rfl, _, _⟩ := hr
                refine renderRest_pos sem hch _ ?_ _ (fun _ _ hx => by simp at hx) bs hr3
                rw [List.length_drop]
                have h1 : ch ∣ buf.length := Nat.dvd_of_mod_eq_zero hbl
                have h2 : ch ∣ min ((rqs - off) * ch) buf.length := by
                  rcases Nat.le_total ((rqs - off) * ch) buf.length with hle | hle
                  · rw [Nat.min_eq_left hle]; exact Dvd.intro_left _ rfl
                  · rw [Nat.min_eq_right hle]; exact h1
                exact Nat.mod_eq_zero_of_dvd (Nat.dvd_sub h1 h2)

/-! ### Offline rendering plays the same -/

theorem offLoop_play (sem : Sem G K) (dead : Nat → Bool) (cap : Nat) (bts : List (List (Msg G))) :
    ∀ (quantum : Nat) (o : Off G K) (g : G), Good sem o.t g → o.buffer ≠ [] →
      (∀ b ∈ bts, ∀ m ∈ b, Keeps sem m) →
      (hact : ∀ g f, sem.active g = true → sem.active (sem.render g f).1 = true) →
      ∀ (g' : G) (qs : List (Quantum K)), play sem bts g o.t.frames = some (g', qs) →
      ∃ o', offLoop sem dead cap bts.length quantum [] o bts = some ([], o') ∧
        rendered o'.trace = rendered o.trace ++ qs := by
  induction bts with
  | nil =>
    intro quantum o g hs hb hm hact g' qs h
    simp only [play, Option.some.injEq, Prod.mk.injEq] at h
    exact ⟨o, rfl, by rw [← h.2]; simp⟩
  | cons b bts ih =>
    intro quantum o g hs hb hm hact g' qs h
    simp only [play, Option.bind_eq_some_iff, Option.map_eq_some_iff, Prod.mk.injEq] at h
    obtain ⟨g1, h1, x, hx, rfl, rfl⟩ := h
    cases hbuf : o.buffer with
    | nil => exact absurd hbuf hb
    | cons b0 rest =>
      have hq : ∃ o1, offQuantum sem cap o = some o1 ∧ o1.t = { o.t with graph := some (sem.render g o.t.frames).1, frames := o.t.frames + rqs } ∧
          o1.trace = o.trace ++ [Ev.quantum o.t.frames (sem.render g o.t.frames).2] ∧ o1.buffer ≠ [] := by
        refine ⟨_, by unfold offQuantum; rw [hs.graph, hbuf], rfl, rfl, ?_⟩
        simp
      obtain ⟨o1, e1, e2, e3, e4⟩ := hq
      have hgood : Good sem o1.t (sem.render g o.t.frames).1 := by
        rw [e2]; exact ⟨rfl, hact _ _ hs.active, hs.run, hs.recv⟩
      have hpoll : o1.t.poll (b :: bts) = some ({ o1.t with graph := some g1 }, bts) ∧
          Good sem { o1.t with graph := some g1 } g1 := by
        have hall : ∀ (ms : List (Msg G)), (∀ m ∈ ms, Keeps sem m) → ∀ (s : St G K) (ga gb : G), Good sem s ga →
            applyMsgs ms ga = some gb → s.handleAll ms = some { s with graph := some gb } ∧
              Good sem { s with graph := some gb } gb := by
          intro ms
          induction ms with
          | nil =>
            intro _ s ga gb hg ha
            simp only [applyMsgs, Option.some.injEq] at ha
            subst ha
            rw [← hg.graph]
            exact ⟨rfl, hg⟩
          | cons m ms ihm =>
            intro hk s ga gb hg ha
            obtain ⟨f, rfl, hf⟩ := hk m (by simp)
            simp only [applyMsgs, Option.bind_eq_some_iff] at ha
            obtain ⟨gc, hc, ha⟩ := ha
            simp only [St.handleAll, St.handle, hg.graph, hc, Option.map_some]
            exact ihm (fun m hm' => hk m (by simp [hm'])) { s with graph := some gc } gc gb
              ⟨rfl, hf _ _ hc hg.active, hg.run, hg.recv⟩ ha
        obtain ⟨a1, a2⟩ := hall b (hm b (by simp)) o1.t _ g1 hgood h1
        refine ⟨?_, a2⟩
        unfold St.poll
        rw [if_pos hgood.recv]
        simp [a1]
      obtain ⟨o', f1, f2⟩ := ih (quantum + 1) { o1 with t := { o1.t with graph := some g1 } } g1 hpoll.2 e4
        (fun b hb => hm b (by simp [hb])) hact x.1 x.2 (by
          simp only [e2]
          exact hx)
      refine ⟨o', ?_, ?_⟩
      · simp only [List.length_cons, offLoop, offSuspend, e1, hpoll.1]
        exact f1
      · rw [f2]
        simp [e3, rendered_append, rendered]

theorem flatMap_index (ch : Nat) (hch : 0 < ch) (qs : List (Quantum K)) (c : Nat) (hc : c < ch) : ∀ f,
    (qs.flatMap (block ch))[f * ch + c]? = (channelStream c qs)[f]? := by
  induction qs with
  | nil => intro f; simp [channelStream]
  | cons q qs ih =>
    intro f
    rw [List.flatMap_cons, show channelStream c (q :: qs) = channelStream c [q] ++ channelStream c qs by
      rw [← channelStream_append]; rfl]
    by_cases hf : f < 128
    · have hlt : f * ch + c < 128 * ch := by nlinarith
      rw [List.getElem?_append_left (by rw [block_length]; exact hlt),
        List.getElem?_append_left (by rw [channelStream_length]; simpa using hf)]
      unfold block channelStream
      rw [List.getElem?_map, List.getElem?_range hlt]
      simp only [List.flatMap_cons, List.flatMap_nil, List.append_nil, List.getElem?_map, List.getElem?_range hf,
        Option.map_some]
      have e1 : (f * ch + c) % ch = c := by rw [Nat.mul_add_mod_self_right, Nat.mod_eq_of_lt hc]
      have e2 : (f * ch + c) / ch = f := by
        rw [Nat.mul_comm, Nat.mul_add_div hch, Nat.div_eq_of_lt hc, Nat.add_zero]
      rw [e1, e2, List.getD_eq_getElem?_getD]
      cases q[c]? <;> rfl
    · have hle : 128 * ch ≤ f * ch + c := by nlinarith [not_lt.1 hf]
      rw [List.getElem?_append_right (by rw [block_length]; exact hle),
        List.getElem?_append_right (by rw [channelStream_length]; simpa using not_lt.1 hf), block_length,
        channelStream_length, ← ih]
      congr 1
      have : 128 ≤ f := not_lt.1 hf
      obtain ⟨d, rfl⟩ := Nat.exists_eq_add_of_le this
      simp only [List.length_singleton, mul_one, Nat.add_sub_cancel_left]
      have : (128 + d) * ch + c = 128 * ch + (d * ch + c) := by ring
      rw [this]
      exact Nat.add_sub_cancel_left _ _

/-- C100: whatever the sizes of the device buffers and whenever control messages that change the graph arrive: what has
been written to the device is, frame by frame and channel by channel, the result of an offline rendering of the same
graph (and clock) to which the same messages are delivered, in the same order, of as many frames as have been written. -/
theorem C100_online_is_offline (sem : Sem G K) {ch : Nat} (hch : 0 < ch)
    (hact : ∀ g f, sem.active g = true → sem.active (sem.render g f).1 = true)
    (bufs : List (List K)) (hbufs : ∀ b ∈ bufs, b.length % ch = 0)
    (s : St G K) (g : G) (hg : s.graph = some g) (ha : sem.active g = true) (hsus : s.suspended = false)
    (hrec : s.receiver = true) (hoff : s.offset = none)
    (bs : List (List (Msg G))) (hm : ∀ b ∈ bs, ∀ m ∈ b, Keeps sem m)
    {s' : St G K} {out : List K} {bs' : List (List (Msg G))} (h : run sem ch bufs s bs = some (s', out, bs')) :
    ∃ used batches, bs = used ++ bs' ∧ batches.flatten = used.flatten ∧ ∀ dead : Nat → Bool,
      ∃ o, offRender sem dead ch (out.length / ch) (out.length / ch) [] s batches = some ([], o) ∧
        o.buffer.length = ch ∧ ∀ c (b : List K), o.buffer[c]? = some b → b.length = out.length / ch ∧
          ∀ f < out.length / ch, b[f]? = out[f * ch + c]? := by
  have hs : Good sem s g := ⟨hg, ha, hsus, hrec⟩
  obtain ⟨b0, bts, g', qs, used, sg, h1, h2, h3, h4, h5, h6, h7⟩ := (run_did sem hact bufs s g hs bs hm h).ex
  obtain ⟨r1, r2, segs, r3, r4⟩ := run_out sem hch bufs hbufs s (by simp [OffOk, hoff]) bs h
  have hpos := run_pos sem hch bufs hbufs s (by simp [OffPos, hoff]) bs h
  rw [h4] at r3
  have hsg : sg = segs := List.append_cancel_left r3
  subst hsg
  have hpend : pending ch s = [] := by simp [pending, hoff]
  rw [hpend, List.nil_append, h5] at r4
  -- the numbers of frames
  have hblen : (qs.flatMap (block ch)).length = 128 * ch * qs.length := by
    rw [List.length_flatMap]
    have e : qs.map (fun q => (block ch q).length) = List.replicate qs.length (128 * ch) := by
      rw [List.eq_replicate_iff]
      refine ⟨by simp, ?_⟩
      intro x hx
      obtain ⟨q, _, rfl⟩ := List.mem_map.1 hx
      exact block_length ch q
    rw [e, List.sum_replicate_nat]
    ring
  have hdvd : ch ∣ out.length := by
    rw [r1]
    clear h r1 r4 hpos r2 r3
    induction bufs with
    | nil => simp
    | cons b bufs ih =>
      rw [List.map_cons, List.sum_cons]
      exact Nat.dvd_add (Nat.dvd_of_mod_eq_zero (hbufs b (by simp))) (ih fun b hb => hbufs b (by simp [hb]))
  obtain ⟨len, hlen⟩ := hdvd
  have hdiv : out.length / ch = len := by rw [hlen]; exact Nat.mul_div_cancel_left _ hch
  have hpl : ∃ p, (pending ch s').length = p * ch ∧ p < 128 := by
    unfold pending
    cases ho : s'.offset with
    | none => exact ⟨0, by simp, by decide⟩
    | some x =>
      obtain ⟨off, q⟩ := x
      have := hpos off q ho
      have hle := (r2 off q ho).1
      refine ⟨128 - off, ?_, by omega⟩
      rw [List.length_drop, block_length, ← Nat.sub_mul]
  obtain ⟨p, hp1, hp2⟩ := hpl
  have htot : len + p = 128 * qs.length := by
    have := congrArg List.length r4
    rw [List.length_append, hp1, hblen, hlen] at this
    have h' : ch * (len + p) = ch * (128 * qs.length) := by
      calc ch * (len + p) = ch * len + p * ch := by ring
        _ = 128 * ch * qs.length := this
        _ = _ := by ring
    exact Nat.eq_of_mul_eq_mul_left hch h'
  have hn : (len + 127) / 128 = qs.length := by omega
  refine ⟨used, b0 :: bts, h6, by rw [h7]; rfl, fun dead => ?_⟩
  -- offline
  obtain ⟨g0, hg0, hplay⟩ := h1
  have hmem : ∀ m ∈ used.flatten, Keeps sem m := by
    intro m hmm
    obtain ⟨b, hb, hmb⟩ := List.mem_flatten.1 hmm
    exact hm b (by rw [h6]; simp [hb]) m hmb
  have hk0 : ∀ m ∈ b0, Keeps sem m := fun m hm' => hmem m (by rw [h7]; simp [hm'])
  have hkb : ∀ b ∈ bts, ∀ m ∈ b, Keeps sem m := fun b hb m hm' =>
    hmem m (by rw [h7]; exact List.mem_append_right _ (List.mem_flatten.2 ⟨b, hb, hm'⟩))
  have hpoll : s.poll (b0 :: bts) = some ({ s with graph := some g0 }, bts) ∧ Good sem { s with graph := some g0 } g0 := by
    have hsome : ∃ s1, s.handleAll b0 = some s1 := by
      by_contra hc
      push Not at hc
      have hnone : s.handleAll b0 = none := by
        cases hx : s.handleAll b0 with
        | none => rfl
        | some y => exact absurd hx (hc y)
      have hbad : ∀ (ms : List (Msg G)), (∀ m ∈ ms, Keeps sem m) → ∀ (s : St G K) (ga : G), Good sem s ga →
          s.handleAll ms = none → applyMsgs ms ga = none := by
        intro ms
        induction ms with
        | nil => intro _ s ga _ h; simp [St.handleAll] at h
        | cons m ms ihm =>
          intro hk s ga hgd hh
          obtain ⟨f, rfl, hf⟩ := hk m (by simp)
          simp only [St.handleAll, St.handle, hgd.graph] at hh
          cases hfg : f ga with
          | none => simp [applyMsgs, hfg]
          | some gc =>
            simp only [hfg, Option.map_some] at hh
            simp only [applyMsgs, hfg, Option.bind_some]
            exact ihm (fun m hm' => hk m (by simp [hm'])) { s with graph := some gc } gc
              ⟨rfl, hf _ _ hfg hgd.active, hgd.run, hgd.recv⟩ hh
      rw [hbad b0 hk0 s g hs hnone] at hg0
      cases hg0
    obtain ⟨s1, hs1⟩ := hsome
    obtain ⟨g'', e1, e2, e3⟩ := handleAll_graph hk0 hs hs1
    rw [hg0] at e1
    obtain rfl := Option.some.inj e1
    refine ⟨?_, e2 ▸ e3⟩
    unfold St.poll
    rw [if_pos hrec]
    simp [hs1, e2]
  have hbl : qs.length = bts.length := play_length sem _ _ _ _ _ hplay
  obtain ⟨o, f1, f2⟩ := offLoop_play sem dead (out.length / ch) bts 0
    { t := { s with graph := some g0 }, buffer := List.replicate ch [], trace := [] } g0 hpoll.2
    (by simp only [ne_eq, List.replicate_eq_nil_iff]; omega) hkb hact g' qs hplay
  have hoffr : offRender sem dead ch (out.length / ch) (out.length / ch) [] s (b0 :: bts) = some ([], o) := by
    unfold offRender
    rw [hpoll.1]
    simp only
    rw [hdiv, hn, hbl]
    rw [hdiv] at f1
    exact f1
  refine ⟨o, hoffr, ?_⟩
  obtain ⟨c1, c2, c3⟩ := C17_exact sem dead ch (out.length / ch) [] s (b0 :: bts) hoffr
  refine ⟨c1, fun c b hb => ?_⟩
  have hcl : c < ch := by
    rw [← c1]
    by_contra hx
    rw [List.getElem?_eq_none (not_lt.1 hx)] at hb
    cases hb
  obtain ⟨d1, d2⟩ := c3 c b hb
  refine ⟨d1, fun f hf => ?_⟩
  rw [f2] at d2
  simp only [rendered, List.nil_append] at d2
  rw [d2, List.getElem?_take, if_pos hf, ← flatMap_index ch hch qs c hcl f, ← r4,
    List.getElem?_append_left (by rw [hlen]; rw [hdiv] at hf; nlinarith)]

/-- Hypotheses met: callbacks of 100, 28 and 50 frames, a change of the graph between the first two quanta. -/
example : (∀ g f, demoSem.active g = true → demoSem.active (demoSem.render g f).1 = true) ∧
    (∀ m ∈ [Msg.graph fun g : Nat => some (g + 5)], Keeps demoSem m) ∧
    ((run demoSem 2 [List.replicate 200 7, List.replicate 56 7, List.replicate 100 7]
      { (St.init : St Nat Nat) with graph := some 0 } [[], [.graph fun g => some (g + 5)]]).map fun r =>
        (r.2.1[254]?, r.2.1[256]?)) = some (some 127, some 6000) := by
  refine ⟨fun _ _ _ => rfl, ?_, by decide +kernel⟩
  intro m hm
  simp only [List.mem_singleton] at hm
  exact ⟨_, hm, fun _ _ _ _ => rfl⟩

/-! ### Without messages -/

theorem offLoop_empty (sem : Sem G K) (dead : Nat → Bool) (cap : Nat) (n : Nat) : ∀ (quantum : Nat) (o : Off G K)
    (bts : List (List (Msg G))), bts.flatten = [] →
    offLoop sem dead cap n quantum [] o bts = offLoop sem dead cap n quantum [] o [] := by
  induction n with
  | zero => intro _ _ _ _; rfl
  | succ n ih =>
    intro quantum o bts hb
    simp only [offLoop, offSuspend]
    cases hq : offQuantum sem cap o with
    | none => rfl
    | some o1 =>
      simp only
      unfold St.poll
      by_cases hr : o1.t.receiver = true
      · rw [if_pos hr, if_pos hr]
        have hh : bts.headD [] = [] := by
          cases bts with
          | nil => rfl
          | cons b bts => simp only [List.flatten_cons, List.append_eq_nil_iff] at hb; exact hb.1
        have ht : bts.tail.flatten = [] := by
          cases bts with
          | nil => rfl
          | cons b bts => simp only [List.flatten_cons, List.append_eq_nil_iff] at hb; exact hb.2
        rw [hh]
        simp only [List.headD_nil, St.handleAll, Option.map_some, List.tail_nil]
        exact ih _ _ _ ht
      · rw [if_neg hr, if_neg hr]
        exact ih _ _ _ hb

/-- C100 for a graph that is left alone: playing it live, in callbacks of any sizes, writes to the device exactly the
buffer that an offline context with the same graph returns; in particular the offline rendering does not fail. -/
theorem C100_untouched (sem : Sem G K) {ch : Nat} (hch : 0 < ch)
    (hact : ∀ g f, sem.active g = true → sem.active (sem.render g f).1 = true)
    (bufs : List (List K)) (hbufs : ∀ b ∈ bufs, b.length % ch = 0)
    (s : St G K) (g : G) (hg : s.graph = some g) (ha : sem.active g = true) (hsus : s.suspended = false)
    (hrec : s.receiver = true) (hoff : s.offset = none) (dead : Nat → Bool) :
    ∃ s' out o, run sem ch bufs s [] = some (s', out, []) ∧ out.length = (bufs.map List.length).sum ∧
      offRender sem dead ch (out.length / ch) (out.length / ch) [] s [] = some ([], o) ∧
        o.buffer.length = ch ∧ ∀ c (b : List K), o.buffer[c]? = some b → b.length = out.length / ch ∧
          ∀ f < out.length / ch, b[f]? = out[f * ch + c]? := by
  have hok := C16_safe_partial sem hch bufs hbufs s (by simp [OffOk, hoff]) (by simp [hg]) [] (by simp)
  cases hrun : run sem ch bufs s [] with
  | none => exact absurd hrun hok
  | some r =>
    obtain ⟨s', out, bs'⟩ := r
    obtain ⟨used, batches, h1, h2, h3⟩ := C100_online_is_offline sem hch hact bufs hbufs s g hg ha hsus hrec hoff []
      (by simp) hrun
    obtain ⟨rfl, rfl⟩ := List.append_eq_nil_iff.1 h1.symm
    obtain ⟨o, h4, h5, h6⟩ := h3 dead
    refine ⟨s', out, o, rfl, (run_out sem hch bufs hbufs s (by simp [OffOk, hoff]) [] hrun).1, ?_, h5, h6⟩
    rw [← h4]
    unfold offRender St.poll
    rw [if_pos hrec, if_pos hrec]
    have hb : batches.headD [] = [] ∧ batches.tail.flatten = [] := by
      cases batches with
      | nil => exact ⟨rfl, rfl⟩
      | cons b l => simp only [List.flatten_cons, List.flatten_nil, List.append_eq_nil_iff] at h2; exact h2
    rw [hb.1]
    simp only [List.headD_nil, St.handleAll, Option.map_some, List.tail_nil]
    exact (offLoop_empty sem dead _ _ _ _ _ hb.2).symm

/-- Hypotheses met: 100 frames live, in callbacks of 30 and 70 frames, and offline. -/
example : (run demoSem 1 [List.replicate 30 7, List.replicate 70 7] { (St.init : St Nat Nat) with graph := some 0 }
      []).map (fun r => r.2.1) = some (List.range 100) ∧
    (offRender demoSem (fun _ => false) 1 100 100 [] { (St.init : St Nat Nat) with graph := some 0 } []).map
      (fun r => r.2.buffer) = some [List.range 100] := by
  decide +kernel

end Verif.Thread
