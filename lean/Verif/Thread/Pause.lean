import Verif.Thread.Same

/-!
# C103: pausing inserts silence and loses nothing

About `RenderThread::render_inner` (`/repo/src/render/thread.rs` l.441-532) with the messages `Suspend`, `Resume` and
`Close` (l.215-229), in the model of `Verif.Thread.Model`, compared with an offline rendering (l.260-302, l.355-396, model
`Verif.Thread.OfflineModel`), which ignores these messages.
-/

namespace Verif.Thread

variable {G K : Type} [Zero K]

/-! ## Specification -/

/-- The messages of a running context: changes of the graph, suspend, resume, close. -/
def Plain : Msg G → Prop
  | .graph _ => True
  | .suspend => True
  | .resume => True
  | .close => True
  | .closeAndRecycle => False
  | .startup _ => False

/-- the quanta of a history, without the gaps -/
def played : List (Seg K) → List (Quantum K)
  | [] => []
  | .quantum _ q :: l => q :: played l
  | .silence _ :: l => played l

/-! ## Proofs -/

omit [Zero K] in
theorem played_append (a b : List (Seg K)) : played (a ++ b) = played a ++ played b := by
  induction a with
  | nil => rfl
  | cons x a ih => cases x <;> simp [played, ih]

/-- the thread has a graph and listens -/
structure Has (s : St G K) (g : G) : Prop where
  graph : s.graph = some g
  recv : s.receiver = true

/-- messages have the same effect on the graph in every state of the thread -/
theorem handleAll_has {ms : List (Msg G)} (hm : ∀ m ∈ ms, Plain m) : ∀ {s : St G K} {g : G}, Has s g →
    match applyMsgs ms g with
    | none => s.handleAll ms = none
    | some g' => ∃ s', s.handleAll ms = some s' ∧ Has s' g' ∧ s'.frames = s.frames ∧ s'.log = s.log := by
  induction ms with
  | nil => intro s g hs; exact ⟨s, rfl, hs, rfl, rfl⟩
  | cons m ms ih =>
    intro s g hs
    have hms : ∀ m ∈ ms, Plain m := fun m h => hm m (by simp [h])
    have hp : Plain m := hm m (by simp)
    cases m with
    | graph f =>
      simp only [applyMsgs, St.handleAll, St.handle, hs.graph]
      cases f g with
      | none => rfl
      | some g1 => exact ih hms (s := { s with graph := some g1 }) ⟨rfl, hs.recv⟩
    | suspend => exact ih hms (s := { s with suspended := true, state := .suspended }) ⟨hs.graph, hs.recv⟩
    | resume => exact ih hms (s := { s with suspended := false, state := .running }) ⟨hs.graph, hs.recv⟩
    | close => exact ih hms (s := { s with suspended := true, state := .closed }) ⟨hs.graph, hs.recv⟩
    | closeAndRecycle => exact absurd hp id
    | startup g => exact absurd hp id

theorem poll_has {bs : List (List (Msg G))} (hm : ∀ b ∈ bs, ∀ m ∈ b, Plain m) {s s' : St G K} {g : G}
    (hs : Has s g) {bs' : List (List (Msg G))} (h : s.poll bs = some (s', bs')) :
    ∃ b g' used, applyMsgs b g = some g' ∧ Has s' g' ∧ s'.frames = s.frames ∧ s'.log = s.log ∧ bs = used ++ bs' ∧
      used.flatten = b := by
  unfold St.poll at h
  rw [if_pos hs.recv] at h
  simp only [Option.map_eq_some_iff, Prod.mk.injEq] at h
  obtain ⟨s1, h1, rfl, rfl⟩ := h
  have key : ∀ b : List (Msg G), (∀ m ∈ b, Plain m) → s.handleAll b = some s1 →
      ∃ g', applyMsgs b g = some g' ∧ Has s1 g' ∧ s1.frames = s.frames ∧ s1.log = s.log := by
    intro b hb h1
    have := handleAll_has hb hs
    cases hg : applyMsgs b g with
    | none => rw [hg] at this; simp only at this; rw [this] at h1; cases h1
    | some g' =>
      rw [hg] at this
      obtain ⟨s2, e1, e2⟩ := this
      rw [e1] at h1
      obtain rfl := Option.some.inj h1
      exact ⟨g', rfl, e2⟩
  cases bs with
  | nil =>
    obtain ⟨g', e1, e2, e3, e4⟩ := key [] (by simp) (by simpa using h1)
    exact ⟨[], g', [], e1, e2, e3, e4, rfl, rfl⟩
  | cons b bs =>
    obtain ⟨g', e1, e2, e3, e4⟩ := key b (hm b (by simp)) (by simpa using h1)
    exact ⟨b, g', [b], e1, e2, e3, e4, rfl, by simp⟩

/-- what a stretch of online rendering has done, with gaps -/
structure Paused (sem : Sem G K) (s : St G K) (g : G) (bs : List (List (Msg G))) (s' : St G K)
    (bs' : List (List (Msg G))) : Prop where
  ex : ∃ b0 bts g' used sg, Ran sem g s.frames b0 bts g' (played sg) ∧ Has s' g' ∧
    s'.frames = s.frames + rqs * (played sg).length ∧ s'.log = s.log ++ sg ∧
    bs = used ++ bs' ∧ used.flatten = b0 ++ bts.flatten

theorem Paused.refl {sem : Sem G K} {s : St G K} {g : G} (bs : List (List (Msg G))) (hs : Has s g) :
    Paused sem s g bs s bs :=
  ⟨[], [], g, [], [], ⟨g, rfl, rfl⟩, hs, by simp [played], by simp, rfl, rfl⟩

theorem Paused.of_offset {sem : Sem G K} {s s' : St G K} {g : G} {bs bs' : List (List (Msg G))} {o o' : _}
    (h : Paused sem { s with offset := o } g bs s' bs') : Paused sem s g bs { s' with offset := o' } bs' := by
  obtain ⟨b0, bts, g', used, sg, h1, h2, h3, h4, h6, h7⟩ := h.ex
  exact ⟨b0, bts, g', used, sg, h1, ⟨h2.graph, h2.recv⟩, h3, h4, h6, h7⟩

theorem Paused.comp {sem : Sem G K} {s s1 s2 : St G K} {g : G} {bs bs1 bs2 : List (List (Msg G))}
    (h : Paused sem s g bs s1 bs1) (h' : ∀ g1, Has s1 g1 → Paused sem s1 g1 bs1 s2 bs2) :
    Paused sem s g bs s2 bs2 := by
  obtain ⟨b0, bts, g1, used, sg, h1, h2, h3, h4, h6, h7⟩ := h.ex
  obtain ⟨b0', bts', g2, used', sg', k1, k2, k3, k4, k6, k7⟩ := (h' g1 h2).ex
  rw [h3] at k1
  obtain ⟨c0, cts, r1, r2⟩ := h1.comp k1
  refine ⟨c0, cts, g2, used ++ used', sg ++ sg', by rw [played_append]; exact r1, k2, ?_, ?_, ?_, ?_⟩
  · rw [k3, h3, played_append, List.length_append]; ring
  · rw [k4, h4, List.append_assoc]
  · rw [h6, k6, List.append_assoc]
  · rw [List.flatten_append, h7, k7, r2]

theorem Paused.plain {sem : Sem G K} {s s1 : St G K} {g : G} {bs bs1 : List (List (Msg G))}
    (h : Paused sem s g bs s1 bs1) (hm : ∀ b ∈ bs, ∀ m ∈ b, Plain m) : ∀ b ∈ bs1, ∀ m ∈ b, Plain m := by
  obtain ⟨_, _, _, used, _, _, _, _, _, h6, _⟩ := h.ex
  intro b hb
  exact hm b (by rw [h6]; simp [hb])

theorem renderChunks_paused (sem : Sem G K) {ch : Nat} (ns : List Nat) :
    ∀ (buf : List K) (s : St G K) (g : G), Has s g → ∀ (bs : List (List (Msg G))),
      (∀ b ∈ bs, ∀ m ∈ b, Plain m) → ∀ {s' : St G K} {out : List K} {bs' : List (List (Msg G))},
      renderChunks sem ch ns buf s bs = some (s', out, bs') → Paused sem s g bs s' bs' := by
  induction ns with
  | nil =>
    intro buf s g hs bs hm s' out bs' h
    simp only [renderChunks, Option.some.injEq, Prod.mk.injEq] at h
    obtain ⟨rfl, _, rfl⟩ := h
    exact Paused.refl bs hs
  | cons n ns ih =>
    intro buf s g hs bs hm s' out bs' h
    simp only [renderChunks, hs.graph] at h
    split at h
    · cases h
    · split at h
      · cases h
      · rename_i s1 bs1 hp
        split at h
        · cases h
        · rename_i s2 out2 bs2 hr
          simp only [Option.some.injEq, Prod.mk.injEq] at h
          obtain ⟨rfl, _, rfl⟩ := h
          obtain ⟨o, ho⟩ : ∃ o, (if n ≠ rqs * ch then
              ({ s with frames := s.frames + rqs, graph := some (sem.render g s.frames).1,
                        log := s.log ++ [Seg.quantum s.frames (sem.render g s.frames).2],
                        offset := some (n / ch, pad ch (sem.render g s.frames).2) } : St G K)
            else { s with frames := s.frames + rqs, graph := some (sem.render g s.frames).1,
                          log := s.log ++ [Seg.quantum s.frames (sem.render g s.frames).2] }) =
            { s with frames := s.frames + rqs, graph := some (sem.render g s.frames).1,
                     log := s.log ++ [Seg.quantum s.frames (sem.render g s.frames).2], offset := o } := by
            by_cases hn : n ≠ rqs * ch
            · exact ⟨_, by rw [if_pos hn]⟩
            · exact ⟨s.offset, by rw [if_neg hn]⟩
          have hp' : St.poll { s with frames := s.frames + rqs, graph := some (sem.render g s.frames).1,
                                      log := s.log ++ [Seg.quantum s.frames (sem.render g s.frames).2],
                                      offset := o } bs =
              some (s1, bs1) := by rw [← ho]; exact hp
          obtain ⟨b, g1, used, p1, p2, p3, p3', p4, p5⟩ := poll_has hm
            (g := (sem.render g s.frames).1) (by exact ⟨rfl, hs.recv⟩) hp'
          have hd : Paused sem s g bs s1 bs1 := by
            refine ⟨[], [b], g1, used, [Seg.quantum s.frames (sem.render g s.frames).2],
              ⟨g, rfl, by simp [play, p1, played]⟩, p2, by rw [p3]; simp [played], p3', p4, by simp [p5]⟩
          exact hd.comp fun g1' hg1 => ih _ s1 g1' hg1 bs1 (hd.plain hm) hr

theorem renderRest_paused (sem : Sem G K) {ch : Nat} (buf : List K) (s : St G K) (g : G)
    (hs : Has s g) (bs : List (List (Msg G))) (hm : ∀ b ∈ bs, ∀ m ∈ b, Plain m) {s' : St G K} {out : List K}
    {bs' : List (List (Msg G))} (h : renderRest sem ch buf s bs = some (s', out, bs')) : Paused sem s g bs s' bs' := by
  unfold renderRest at h
  split at h
  · cases h
  · rename_i s1 bs1 hp
    obtain ⟨b, g1, used, p1, p2, p3, p3', p4, p5⟩ := poll_has hm hs hp
    have hd : Paused sem s g bs s1 bs1 :=
      ⟨b, [], g1, used, [], ⟨g1, p1, rfl⟩, p2, by rw [p3]; simp [played], by rw [p3']; simp, p4, by simp [p5]⟩
    split at h
    · simp only [Option.some.injEq, Prod.mk.injEq] at h
      obtain ⟨rfl, _, rfl⟩ := h
      exact ⟨b, [], g1, used, [Seg.silence buf.length], ⟨g1, p1, rfl⟩, ⟨p2.graph, p2.recv⟩, by simp [played, p3],
        by simp [p3'], p4, by simp [p5]⟩
    · exact hd.comp fun g1' hg1 => renderChunks_paused sem _ _ s1 g1' hg1 bs1 (hd.plain hm) h

theorem renderInner_paused (sem : Sem G K) {ch : Nat} (buf : List K) (s : St G K) (g : G)
    (hs : Has s g) (bs : List (List (Msg G))) (hm : ∀ b ∈ bs, ∀ m ∈ b, Plain m) {s' : St G K} {out : List K}
    {bs' : List (List (Msg G))} (h : renderInner sem ch buf s bs = some (s', out, bs')) : Paused sem s g bs s' bs' := by
  unfold renderInner at h
  split at h
  · exact renderRest_paused sem _ _ _ hs _ hm h
  · rename_i off prev ho
    simp only at h
    split at h
    · cases h
    · split at h
      · simp only [Option.some.injEq, Prod.mk.injEq] at h
        obtain ⟨rfl, _, rfl⟩ := h
        exact (Paused.refl bs hs).of_offset (o := s.offset)
      · split at h
        · cases h
        · rename_i s2 out2 bs2 hr
          simp only [Option.some.injEq, Prod.mk.injEq] at h
          obtain ⟨rfl, _, rfl⟩ := h
          exact (renderRest_paused sem _ (s := { s with offset := none }) g
            ⟨hs.graph, hs.recv⟩ _ hm hr).of_offset (o' := s2.offset)

theorem run_paused (sem : Sem G K) {ch : Nat} (bufs : List (List K)) :
    ∀ (s : St G K) (g : G), Has s g → ∀ (bs : List (List (Msg G))), (∀ b ∈ bs, ∀ m ∈ b, Plain m) →
      ∀ {s' : St G K} {out : List K} {bs' : List (List (Msg G))}, run sem ch bufs s bs = some (s', out, bs') →
      Paused sem s g bs s' bs' := by
  induction bufs with
  | nil =>
    intro s g hs bs hm s' out bs' h
    simp only [run, Option.some.injEq, Prod.mk.injEq] at h
    obtain ⟨rfl, _, rfl⟩ := h
    exact Paused.refl bs hs
  | cons buf bufs ih =>
    intro s g hs bs hm s' out bs' h
    simp only [run] at h
    split at h
    · cases h
    · rename_i s1 out1 bs1 hr
      split at h
      · cases h
      · rename_i s2 out2 bs2 hr2
        simp only [Option.some.injEq, Prod.mk.injEq] at h
        obtain ⟨rfl, _, rfl⟩ := h
        have hd := renderInner_paused sem buf s g hs bs hm hr
        exact hd.comp fun g1 hg1 => ih s1 g1 hg1 bs1 (hd.plain hm) hr2

/-! ### The offline rendering does not know pauses -/

theorem offLoop_plain (sem : Sem G K) (dead : Nat → Bool) (cap : Nat) (bts : List (List (Msg G))) :
    ∀ (quantum : Nat) (o : Off G K) (g : G), Has o.t g → o.buffer ≠ [] →
      (∀ b ∈ bts, ∀ m ∈ b, Plain m) →
      ∀ (g' : G) (qs : List (Quantum K)), play sem bts g o.t.frames = some (g', qs) →
      ∃ o', offLoop sem dead cap bts.length quantum [] o bts = some ([], o') ∧
        rendered o'.trace = rendered o.trace ++ qs := by
  induction bts with
  | nil =>
    intro quantum o g hs hb hm g' qs h
    simp only [play, Option.some.injEq, Prod.mk.injEq] at h
    exact ⟨o, rfl, by rw [← h.2]; simp⟩
  | cons b bts ih =>
    intro quantum o g hs hb hm g' qs h
    simp only [play, Option.bind_eq_some_iff, Option.map_eq_some_iff, Prod.mk.injEq] at h
    obtain ⟨g1, h1, x, hx, rfl, rfl⟩ := h
    cases hbuf : o.buffer with
    | nil => exact absurd hbuf hb
    | cons b0 rest =>
      have hq : ∃ o1, offQuantum sem cap o = some o1 ∧ o1.t = { o.t with graph := some (sem.render g o.t.frames).1, frames := o.t.frames + rqs } ∧
          o1.trace = o.trace ++ [Ev.quantum o.t.frames (sem.render g o.t.frames).2] ∧ o1.buffer ≠ [] := by
        refine ⟨_, by unfold offQuantum; rw [hs.graph, hbuf], rfl, rfl, ?_⟩
        simp
      obtain ⟨o1, e1, e2, e3, e4⟩ := hq
      have hhas : Has o1.t (sem.render g o.t.frames).1 := by rw [e2]; exact ⟨rfl, hs.recv⟩
      have hall := handleAll_has (hm b (by simp)) hhas
      rw [h1] at hall
      obtain ⟨t1, a1, a2, a3, _⟩ := hall
      have hpoll : o1.t.poll (b :: bts) = some (t1, bts) := by
        unfold St.poll
        rw [if_pos hhas.recv]
        simp [a1]
      obtain ⟨o', f1, f2⟩ := ih (quantum + 1) { o1 with t := t1 } g1 a2 e4
        (fun b hb => hm b (by simp [hb])) x.1 x.2 (by
          simp only [a3, e2]
          exact hx)
      refine ⟨o', ?_, ?_⟩
      · simp only [List.length_cons, offLoop, offSuspend, e1, hpoll]
        exact f1
      · rw [f2]
        simp [e3, rendered_append, rendered]

/-- C103: whatever changes of the graph, suspend, resume and close messages arrive, and whenever: what the device gets is
a sequence of quanta and gaps of silence (the last quantum may be incomplete), and the quanta, without the gaps, are the
uninterrupted offline rendering of the same graph to which the same messages are delivered in the same order. No frame
is lost, repeated or rendered differently because of a pause. -/
theorem C103_pause (sem : Sem G K) {ch : Nat} (hch : 0 < ch)
    (bufs : List (List K)) (hbufs : ∀ b ∈ bufs, b.length % ch = 0)
    (s : St G K) (g : G) (hg : s.graph = some g) (hrec : s.receiver = true) (hoff : s.offset = none)
    (bs : List (List (Msg G))) (hm : ∀ b ∈ bs, ∀ m ∈ b, Plain m)
    {s' : St G K} {out : List K} {bs' : List (List (Msg G))} (h : run sem ch bufs s bs = some (s', out, bs')) :
    ∃ segs rest, out ++ rest = stream ch segs ∧ rest.length < 128 * ch ∧ s'.log = s.log ++ segs ∧
      ∃ used batches, bs = used ++ bs' ∧ batches.flatten = used.flatten ∧ ∀ dead : Nat → Bool,
        ∃ o, offRender sem dead ch (128 * (played segs).length) (128 * (played segs).length) [] s batches =
            some ([], o) ∧ o.buffer.length = ch ∧ ∀ c (b : List K), o.buffer[c]? = some b →
          b = channelStream c (played segs) := by
  have hs : Has s g := ⟨hg, hrec⟩
  obtain ⟨b0, bts, g', used, sg, h1, h2, h3, h4, h6, h7⟩ := (run_paused sem bufs s g hs bs hm h).ex
  obtain ⟨r1, r2, segs, r3, r4⟩ := run_out sem hch bufs hbufs s (by simp [OffOk, hoff]) bs h
  have hpos := run_pos sem hch bufs hbufs s (by simp [OffPos, hoff]) bs h
  rw [h4] at r3
  obtain rfl : sg = segs := List.append_cancel_left r3
  have hpend : pending ch s = [] := by simp [pending, hoff]
  rw [hpend, List.nil_append, ← stream_eq] at r4
  refine ⟨sg, pending ch s', r4, ?_, h4, used, b0 :: bts, h6, by rw [h7]; rfl, fun dead => ?_⟩
  · unfold pending
    cases ho : s'.offset with
    | none => simpa using hch
    | some x =>
      obtain ⟨off, q⟩ := x
      have := hpos off q ho
      have hle := (r2 off q ho).1
      simp only [List.length_drop, block_length]
      have : 0 < off * ch := Nat.mul_pos this hch
      have : 0 < 128 * ch := Nat.mul_pos (by decide) hch
      show 128 * ch - off * ch < 128 * ch
      omega
  · obtain ⟨g0, hg0, hplay⟩ := h1
    have hmem : ∀ m ∈ used.flatten, Plain m := by
      intro m hmm
      obtain ⟨b, hb, hmb⟩ := List.mem_flatten.1 hmm
      exact hm b (by rw [h6]; simp [hb]) m hmb
    have hk0 : ∀ m ∈ b0, Plain m := fun m hm' => hmem m (by rw [h7]; simp [hm'])
    have hkb : ∀ b ∈ bts, ∀ m ∈ b, Plain m := fun b hb m hm' =>
      hmem m (by rw [h7]; exact List.mem_append_right _ (List.mem_flatten.2 ⟨b, hb, hm'⟩))
    have hall := handleAll_has hk0 hs
    rw [hg0] at hall
    obtain ⟨t1, a1, a2, a3, _⟩ := hall
    have hpoll : s.poll (b0 :: bts) = some (t1, bts) := by
      unfold St.poll
      rw [if_pos hrec]
      simp [a1]
    have hbl : (played sg).length = bts.length := play_length sem _ _ _ _ _ hplay
    obtain ⟨o, f1, f2⟩ := offLoop_plain sem dead (128 * (played sg).length) bts 0
      { t := t1, buffer := List.replicate ch [], trace := [] } g0 a2
      (by simp only [ne_eq, List.replicate_eq_nil_iff]; omega) hkb g' (played sg) (by rw [a3]; exact hplay)
    have hoffr : offRender sem dead ch (128 * (played sg).length) (128 * (played sg).length) [] s (b0 :: bts) =
        some ([], o) := by
      unfold offRender
      rw [hpoll]
      simp only
      rw [show (128 * (played sg).length + 127) / 128 = bts.length by omega]
      exact f1
    obtain ⟨c1, c2, c3⟩ := C17_exact sem dead ch _ [] s (b0 :: bts) hoffr
    refine ⟨o, hoffr, c1, fun c b hb => ?_⟩
    obtain ⟨d1, d2⟩ := c3 c b hb
    rw [f2] at d2
    simp only [rendered, List.nil_append] at d2
    rw [d2, List.take_of_length_le (by rw [channelStream_length])]

omit [Zero K] in
theorem play_quiet (sem : Sem G K) (bts : List (List (Msg G)))
    (hb : ∀ b ∈ bts, ∀ m ∈ b, ∀ f, m ≠ Msg.graph f) : ∀ (g : G) (f : Nat) (g' : G) (qs : List (Quantum K)),
    play sem bts g f = some (g', qs) → qs = quanta sem g f qs.length := by
  have happ : ∀ (b : List (Msg G)), (∀ m ∈ b, ∀ f, m ≠ Msg.graph f) → ∀ g, applyMsgs b g = some g := by
    intro b
    induction b with
    | nil => intro _ g; rfl
    | cons m b ih =>
      intro h g
      cases m with
      | graph f => exact absurd rfl (h _ (by simp) f)
      | _ => exact ih (fun m hm => h m (by simp [hm])) g
  induction bts with
  | nil => intro g f g' qs h; simp only [play, Option.some.injEq, Prod.mk.injEq] at h; rw [← h.2]; rfl
  | cons b bts ih =>
    intro g f g' qs h
    simp only [play, happ b (hb b (by simp)), Option.bind_some, Option.map_eq_some_iff, Prod.mk.injEq] at h
    obtain ⟨x, hx, _, rfl⟩ := h
    have := ih (fun b hb' => hb b (by simp [hb'])) _ _ _ _ hx
    simp only [List.length_cons, quanta]
    rw [← this]

/-- C103 for a graph that is left alone: however often playback is suspended and resumed, the quanta that are played are
the quanta of the uninterrupted rendering, in order and without omission. -/
theorem C103_untouched (sem : Sem G K) {ch : Nat} (hch : 0 < ch)
    (bufs : List (List K)) (hbufs : ∀ b ∈ bufs, b.length % ch = 0)
    (s : St G K) (g : G) (hg : s.graph = some g) (hrec : s.receiver = true) (hoff : s.offset = none)
    (bs : List (List (Msg G))) (hm : ∀ b ∈ bs, ∀ m ∈ b, m = .suspend ∨ m = .resume ∨ m = .close)
    {s' : St G K} {out : List K} {bs' : List (List (Msg G))} (h : run sem ch bufs s bs = some (s', out, bs')) :
    ∃ segs rest, out ++ rest = stream ch segs ∧ rest.length < 128 * ch ∧ s'.log = s.log ++ segs ∧
      played segs = quanta sem g s.frames (played segs).length := by
  have hp : ∀ b ∈ bs, ∀ m ∈ b, Plain m := by
    intro b hb m hm'
    rcases hm b hb m hm' with rfl | rfl | rfl <;> trivial
  obtain ⟨segs, rest, h1, h2, h3, _⟩ := C103_pause sem hch bufs hbufs s g hg hrec hoff bs hp h
  refine ⟨segs, rest, h1, h2, h3, ?_⟩
  obtain ⟨b0, bts, g', used, sg, k1, k2, _, k4, k6, k7⟩ := (run_paused sem bufs s g ⟨hg, hrec⟩ bs hp h).ex
  obtain rfl : sg = segs := by rw [k4] at h3; exact List.append_cancel_left h3
  have hmem : ∀ m ∈ used.flatten, ∀ f, m ≠ Msg.graph f := by
    intro m hmm f
    obtain ⟨b, hb, hmb⟩ := List.mem_flatten.1 hmm
    rcases hm b (by rw [k6]; simp [hb]) m hmb with rfl | rfl | rfl <;> simp
  obtain ⟨g0, hg0, hplay⟩ := k1
  have h0 : g0 = g := by
    have : ∀ (b : List (Msg G)), (∀ m ∈ b, ∀ f, m ≠ Msg.graph f) → applyMsgs b g = some g := by
      intro b
      induction b with
      | nil => intro _; rfl
      | cons m b ih =>
        intro h
        cases m with
        | graph f => exact absurd rfl (h _ (by simp) f)
        | _ => exact ih (fun m hm => h m (by simp [hm]))
    rw [this b0 fun m hm' => hmem m (by rw [k7]; simp [hm'])] at hg0
    exact (Option.some.inj hg0).symm
  subst h0
  exact play_quiet sem bts (fun b hb m hm' => hmem m (by
    rw [k7]; exact List.mem_append_right _ (List.mem_flatten.2 ⟨b, hb, hm'⟩))) _ _ _ _ hplay

/-- Hypotheses met: callbacks of 100, 128 and 200 frames; suspended before the second one, resumed before the third one:
the third callback goes on with the frame that follows the last quantum. -/
example : (run demoSem 1 [List.replicate 100 7, List.replicate 128 7, List.replicate 200 7]
      { (St.init : St Nat Nat) with graph := some 0 } [[], [], [.suspend], [.resume]]).map
        (fun r => (r.2.1[99]?, r.2.1[127]?, r.2.1[128]?, r.2.1[227]?, r.2.1[228]?)) =
    some (some 99, some 127, some 0, some 0, some 1000) ∧
    (∀ m ∈ [(Msg.suspend : Msg Nat), .resume], m = .suspend ∨ m = .resume ∨ m = .close) := by
  refine ⟨by decide +kernel, ?_⟩
  intro m hm
  simp only [List.mem_cons, List.not_mem_nil, or_false] at hm
  rcases hm with h | h
  · exact Or.inl h
  · exact Or.inr (Or.inl h)

end Verif.Thread
