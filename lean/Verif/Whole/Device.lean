import Verif.Thread.Pause
import Verif.Graph.Hom
import Verif.Graph.SystemProps

/-!
# C109: what the device plays

Puts together the model of the render thread (`Verif.Thread.Model`, `/repo/src/render/thread.rs`) and that of the graph with
its control side (`Verif.Graph.SystemModel`, `/repo/src/render/graph.rs`, `/repo/src/context/concrete_base.rs`): the graph of
the thread is the whole system of the graph, the queue of messages and the administration of ids and connections.

What other threads do (and how many messages the render thread takes out of the queue) happens when the render thread polls
its queue: operations on the control side only touch the queue, their own administration and the ids that the graph has given
back, so that this is as good as any other moment since the last poll.
-/

namespace Verif.Whole

open Verif

variable {P S M K : Type}

/-- What an application does, and the render thread taking a message from the queue (`op .recv`). -/
inductive Event (P M : Type) where
  | op (o : Render.Op P M)
  | suspend
  | resume
  | close

/-- The graph of the render thread with all that belongs to it; `none` after a panic. -/
abbrev World (P S M : Type) := Option (Render.Sys P S M)

/-- Processors that know the time: `process` gets the frame at which the quantum begins (`AudioWorkletGlobalScope`,
`/repo/src/render/thread.rs` l.489-503; `Graph::render`, `/repo/src/render/graph.rs` l.490-521). The handling of messages does not
depend on the time (l.322-324). -/
structure Timed (P S M : Type) where
  base : Render.Sem P S M
  process : Nat → P → List S → List S → (Nat → Option S) → Option (P × List S × Bool)
  process_len : ∀ f p ins outs ps p' outs' t, process f p ins outs ps = some (p', outs', t) → outs'.length = outs.length

/-- the processors in the quantum that begins at frame `f` -/
def Timed.at (t : Timed P S M) (f : Nat) : Render.Sem P S M :=
  { t.base with process := t.process f, process_len := t.process_len f }

/-- The outputs of the destination in the quanta of a history that begins at frame `f`, and the final state; `none` if the
render thread panics. A quantum has 128 frames (`/repo/src/render/thread.rs` l.488-490, `/repo/src/lib.rs`). -/
def soundAt (t : Timed P S M) : Nat → Render.Sys P S M → List (Render.Op P M) → Option (Render.Sys P S M × List S)
  | _, s, [] => some (s, [])
  | f, s, .quantum :: ops =>
    match s.g.render (t.at f) with
    | none => none
    | some (g, o) => (soundAt t (f + 128) { s with g := g } ops).map fun r => (r.1, o :: r.2)
  | f, s, op :: ops =>
    match s.step t.base op with
    | none => none
    | some s' => soundAt t f s' ops

/-- `Graph::render` and `Graph::is_active` (`/repo/src/render/graph.rs` l.228-231, l.490-591; the destination is present,
node_collection.rs l.20-25). `frames` are the samples of a signal. -/
def worldSem (t : Timed P S M) (frames : S → Thread.Quantum K) : Thread.Sem (World P S M) K where
  render w f :=
    match w with
    | none => (none, [])
    | some s =>
      match s.g.render (t.at f) with
      | none => (none, [])
      | some (g, o) => (some { s with g := g }, frames o)
  active w :=
    match w with
    | none => true
    | some s => (s.g.slot 0).isSome

/-- the events as messages of the render thread -/
def Event.msg (sem : Render.Sem P S M) : Event P M → Thread.Msg (World P S M)
  | .op o => .graph fun w => some (w.bind fun s => s.step sem o)
  | .suspend => .suspend
  | .resume => .resume
  | .close => .close

/-- the operations among the events -/
def opsOf : List (Event P M) → List (Render.Op P M)
  | [] => []
  | .op o :: l => o :: opsOf l
  | _ :: l => opsOf l

/-- is not the rendering of a quantum -/
def isOp : Render.Op P M → Bool
  | .quantum => false
  | _ => true

/-! ## Proofs -/

theorem opsOf_append (a b : List (Event P M)) : opsOf (a ++ b) = opsOf a ++ opsOf b := by
  induction a with
  | nil => rfl
  | cons x a ih => cases x <;> simp [opsOf, ih]

theorem opsOf_isOp {l : List (Event P M)} (h : ∀ x ∈ l, x ≠ .op .quantum) : ∀ o ∈ opsOf l, isOp o = true := by
  induction l with
  | nil => intro o ho; cases ho
  | cons x l ih =>
    have := ih fun y hy => h y (by simp [hy])
    cases x with
    | op o =>
      intro o' ho'
      rcases List.mem_cons.1 ho' with rfl | ho'
      · have := h (.op o') (by simp)
        cases o' <;> first | rfl | exact absurd rfl this
      · exact this o' ho'
    | _ => exact this

theorem sound_op (t : Timed P S M) (f : Nat) (s : Render.Sys P S M) {o : Render.Op P M} (h : isOp o = true)
    (ops : List (Render.Op P M)) :
    soundAt t f s (o :: ops) = (s.step t.base o).bind fun s' => soundAt t f s' ops := by
  rw [soundAt]
  · cases Render.Sys.step t.base s o <;> rfl
  · rintro rfl
    cases h

theorem apply_events (t : Timed P S M) (f : Nat) (l : List (Event P M)) (h : ∀ x ∈ l, x ≠ .op .quantum) :
    ∀ (w : World P S M), ∃ w', Thread.applyMsgs (l.map (Event.msg t.base)) w = some w' ∧
      ∀ (ops : List (Render.Op P M)), (w.bind fun s => soundAt t f s (opsOf l ++ ops)) =
        w'.bind fun s => soundAt t f s ops := by
  induction l with
  | nil => intro w; exact ⟨w, rfl, fun ops => rfl⟩
  | cons x l ih =>
    intro w
    have ih := ih fun y hy => h y (by simp [hy])
    cases x with
    | op o =>
      have ho : isOp o = true := opsOf_isOp h o (by simp [opsOf])
      obtain ⟨w', h1, h2⟩ := ih (w.bind fun s => s.step t.base o)
      refine ⟨w', h1, fun ops => ?_⟩
      rw [← h2]
      cases w with
      | none => rfl
      | some s =>
        simp only [opsOf, List.cons_append, Option.bind_some]
        exact sound_op t f s ho _
    | suspend => exact ih w
    | resume => exact ih w
    | close => exact ih w

/-- quanta, each followed by events -/
def weave : List (List (Event P M)) → List (Render.Op P M)
  | [] => []
  | b :: l => .quantum :: (opsOf b ++ weave l)

theorem weave_ops (l : List (List (Event P M))) (h : ∀ b ∈ l, ∀ x ∈ b, x ≠ .op .quantum) :
    (weave l).filter isOp = opsOf l.flatten := by
  induction l with
  | nil => rfl
  | cons b l ih =>
    rw [List.flatten_cons, opsOf_append, ← ih fun b' hb' => h b' (by simp [hb'])]
    show (opsOf b ++ weave l).filter isOp = _
    rw [List.filter_append, List.filter_eq_self.2 (opsOf_isOp (h b (by simp)))]

theorem play_none (t : Timed P S M) (frames : S → Thread.Quantum K) (l : List (List (Event P M)))
    (h : ∀ b ∈ l, ∀ x ∈ b, x ≠ .op .quantum) : ∀ (f : Nat) w' qs,
    Thread.play (worldSem t frames) (l.map (List.map (Event.msg t.base))) none f = some (w', qs) → w' = none := by
  induction l with
  | nil =>
    intro f w' qs hh
    simp only [List.map_nil, Thread.play, Option.some.injEq, Prod.mk.injEq] at hh
    exact hh.1.symm
  | cons b l ih =>
    intro f w' qs hh
    simp only [List.map_cons, Thread.play, worldSem, Option.bind_eq_some_iff, Option.map_eq_some_iff, Prod.mk.injEq] at hh
    obtain ⟨g1, h1, x, hx, rfl, rfl⟩ := hh
    have hn : g1 = none := by
      clear hx ih
      have hb := h b (by simp)
      induction b with
      | nil => simp only [List.map_nil, Thread.applyMsgs, Option.some.injEq] at h1; exact h1.symm
      | cons x b ihb =>
        have hb' : ∀ y ∈ b, y ≠ .op .quantum := fun y hy => hb y (by simp [hy])
        have := ihb (by
          intro b' hb'' y hy
          rcases List.mem_cons.1 hb'' with rfl | hb''
          · exact hb' y hy
          · exact h b' (by simp [hb'']) y hy) 
        cases x with
        | op o => exact this h1 hb'
        | suspend => exact this h1 hb'
        | resume => exact this h1 hb'
        | close => exact this h1 hb'
    subst hn
    exact ih (fun b' hb' => h b' (by simp [hb'])) _ x.1 x.2 hx

/-- Quanta with events in between are the sound of a history. -/
theorem play_sound (t : Timed P S M) (frames : S → Thread.Quantum K) (l : List (List (Event P M)))
    (h : ∀ b ∈ l, ∀ x ∈ b, x ≠ .op .quantum) : ∀ (s : Render.Sys P S M) (f : Nat) w' qs,
    Thread.play (worldSem t frames) (l.map (List.map (Event.msg t.base))) (some s) f = some (w', qs) →
    match soundAt t f s (weave l) with
    | none => w' = none
    | some r => w' = some r.1 ∧ qs = r.2.map frames := by
  induction l with
  | nil =>
    intro s f w' qs hh
    simp only [List.map_nil, Thread.play, Option.some.injEq, Prod.mk.injEq] at hh
    obtain ⟨rfl, rfl⟩ := hh
    exact ⟨rfl, rfl⟩
  | cons b l ih =>
    intro s f w' qs hh
    have hl : ∀ b' ∈ l, ∀ x ∈ b', x ≠ .op .quantum := fun b' hb' => h b' (by simp [hb'])
    simp only [List.map_cons, Thread.play, Option.bind_eq_some_iff, Option.map_eq_some_iff, Prod.mk.injEq] at hh
    obtain ⟨w1, h1, x, hx, rfl, rfl⟩ := hh
    obtain ⟨w2, h2, h3⟩ := apply_events t (f + 128) b (h b (by simp)) ((worldSem t frames).render (some s) f).1
    rw [h2] at h1
    obtain rfl := Option.some.inj h1
    have h4 := h3 (weave l)
    simp only [weave, soundAt]
    cases hr : s.g.render (t.at f) with
    | none =>
      have hw : ((worldSem t frames).render (some s) f).1 = none := by simp [worldSem, hr]
      rw [hw] at h2
      have : w2 = none := by
        have := play_none t frames [b] (by simpa using h b (by simp)) 0 w2 [[]] (by
          simp only [List.map_cons, List.map_nil, Thread.play, worldSem, h2, Option.bind_some, Option.map_some])
        exact this
      subst this
      exact play_none t frames l hl _ x.1 x.2 hx
    | some r =>
      have hw : (worldSem t frames).render (some s) f = (some { s with g := r.1 }, frames r.2) := by simp [worldSem, hr]
      rw [hw] at h4 ⊢
      simp only [Option.bind_some] at h4
      show match (soundAt t (f + 128) { s with g := r.1 } (opsOf b ++ weave l)).map (fun q => (q.1, r.2 :: q.2)) with
        | none => x.1 = none
        | some q => x.1 = some q.1 ∧ frames r.2 :: x.2 = q.2.map frames
      rw [h4]
      cases w2 with
      | none => exact play_none t frames l hl _ x.1 x.2 hx
      | some s2 =>
        have := ih hl s2 _ x.1 x.2 hx
        simp only [Option.bind_some]
        cases hs : soundAt t (f + 128) s2 (weave l) with
        | none => rw [hs] at this; exact this
        | some q =>
          rw [hs] at this
          simp only [Option.map_some]
          exact ⟨this.1, by rw [this.2]; rfl⟩

/-- batches of images are images of batches -/
theorem map_batches {α β : Type} (f : α → β) (bts : List (List β)) : ∀ (l : List α) (b0 : List β),
    l.map f = b0 ++ bts.flatten → ∃ (c0 : List α) (cts : List (List α)), b0 = c0.map f ∧ bts = cts.map (List.map f) ∧ l = c0 ++ cts.flatten := by
  induction bts with
  | nil =>
    intro l b0 h
    exact ⟨l, [], by simpa using h.symm, rfl, by simp⟩
  | cons b bts ih =>
    intro l b0 h
    obtain ⟨l1, l2, rfl, h1, h2⟩ := List.map_eq_append_iff.1 h
    obtain ⟨c0, cts, rfl, rfl, rfl⟩ := ih l2 b (by simpa using h2)
    exact ⟨l1, c0 :: cts, h1.symm, rfl, by simp⟩

/-- What has been played is the sound of a history with the same operations. -/
theorem ran_history (t : Timed P S M) (frames : S → Thread.Quantum K) {s : Render.Sys P S M} {f : Nat}
    {b0 : List (Thread.Msg (World P S M))} {bts : List (List (Thread.Msg (World P S M)))} {w' : World P S M}
    {qs : List (Thread.Quantum K)} (h : Thread.Ran (worldSem t frames) (some s) f b0 bts w' qs)
    {l : List (Event P M)} (hl : ∀ x ∈ l, x ≠ .op .quantum) (he : l.map (Event.msg t.base) = b0 ++ bts.flatten) :
    ∃ ops : List (Render.Op P M), ops.filter isOp = opsOf l ∧
      match soundAt t f s ops with
      | none => w' = none
      | some r => w' = some r.1 ∧ qs = r.2.map frames := by
  obtain ⟨c0, cts, rfl, rfl, rfl⟩ := map_batches _ bts _ b0 he
  have hc0 : ∀ x ∈ c0, x ≠ .op .quantum := fun x hx => hl x (by simp [hx])
  have hcts : ∀ b ∈ cts, ∀ x ∈ b, x ≠ .op .quantum := fun b hb x hx =>
    hl x (List.mem_append_right _ (List.mem_flatten.2 ⟨b, hb, hx⟩))
  refine ⟨opsOf c0 ++ weave cts, ?_, ?_⟩
  · rw [List.filter_append, List.filter_eq_self.2 (opsOf_isOp hc0), weave_ops cts hcts, opsOf_append]
  · obtain ⟨w0, g0, hplay⟩ := h
    obtain ⟨w1, a1, a2⟩ := apply_events t f c0 hc0 (some s)
    rw [a1] at g0
    obtain rfl := Option.some.inj g0
    have a3 := a2 (weave cts)
    simp only [Option.bind_some] at a3
    rw [a3]
    cases w1 with
    | none => exact play_none t frames cts hcts _ _ _ hplay
    | some s1 => exact play_sound t frames cts hcts s1 _ _ _ hplay

/-- the destination stays -/
theorem handle_dest (sem : Render.Sem P S M) {g g' : Render.RGraph P S} {m : Render.Msg P M} (h : g.handle sem m = some g')
    (hd : (g.slot 0).isSome = true) : (g'.slot 0).isSome = true := by
  have hput : ∀ (g : Render.RGraph P S) i (n : Render.Node P S), (g.slot 0).isSome = true →
      ((g.put i (some n)).slot 0).isSome = true := by
    intro g i n hg
    unfold Render.RGraph.put
    by_cases hi : 0 = i
    · simp [hi]
    · simp only [if_neg hi]; exact hg
  cases m with
  | register id tag p ni no c =>
    simp only [Render.RGraph.handle, Option.some.injEq] at h
    subst h
    unfold Render.RGraph.addNode
    by_cases hi : 0 = id
    · simp [hi]
    · simp only [if_neg hi]; exact hd
  | connect src st e dt =>
    simp only [Render.RGraph.handle, Render.RGraph.addEdge] at h
    split at h
    · simp only [Option.some.injEq] at h
      subst h
      exact hput _ _ _ hd
    · cases h
  | disconnect src st e =>
    simp only [Render.RGraph.handle, Render.RGraph.removeEdge] at h
    split at h
    · simp only [Option.some.injEq] at h
      subst h
      exact hput _ _ _ hd
    · cases h
  | dropped i t =>
    simp only [Render.RGraph.handle, Render.RGraph.markDropped] at h
    split at h
    · split at h
      · simp only [Option.some.injEq] at h
        subst h
        exact hput _ _ _ hd
      · simp only [Option.some.injEq] at h
        subst h
        exact hd
    · cases h
  | breaker i t =>
    simp only [Render.RGraph.handle, Render.RGraph.markBreaker, Option.map_eq_some_iff] at h
    obtain ⟨n, _, rfl⟩ := h
    exact hput _ _ _ hd
  | post i t m =>
    simp only [Render.RGraph.handle, Render.RGraph.routeMessage, Option.bind_eq_some_iff, Option.map_eq_some_iff] at h
    obtain ⟨n, _, p, _, rfl⟩ := h
    exact hput _ _ _ hd
  | setCfg i t c =>
    simp only [Render.RGraph.handle, Render.RGraph.setCfg, Option.map_eq_some_iff] at h
    obtain ⟨n, _, rfl⟩ := h
    exact hput _ _ _ hd

theorem render_dest (sem : Render.Sem P S M) {g : Render.RGraph P S} {r : Render.RGraph P S × S}
    (h : g.render sem = some r) : (r.1.slot 0).isSome = true := by
  unfold Render.RGraph.render at h
  split at h
  · cases h
  · split at h
    · cases h
    · rename_i g2 _
      simp only at h
      split at h
      · cases h
      · rename_i d hd
        obtain ⟨o, _, rfl⟩ := Option.map_eq_some_iff.1 h
        unfold Render.RGraph.get at hd
        split at hd
        · exact Option.isSome_iff_exists.2 ⟨d, hd⟩
        · cases hd

theorem step_dest (sem : Render.Sem P S M) {s s' : Render.Sys P S M} {o : Render.Op P M} (h : s.step sem o = some s')
    (hd : (s.g.slot 0).isSome = true) : (s'.g.slot 0).isSome = true := by
  have key : ∀ {c : Prop} [Decidable c] {a : Render.Sys P S M}, (a.g = s.g) → (if c then some a else some s) = some s' →
      (s'.g.slot 0).isSome = true := by
    intro c _ a ha hh
    split at hh
    · obtain rfl := Option.some.inj hh
      rw [ha]; exact hd
    · obtain rfl := Option.some.inj hh
      exact hd
  cases o with
  | acquire =>
    obtain rfl := Option.some.inj h
    unfold Render.Sys.acquire
    split <;> exact hd
  | recv =>
    simp only [Render.Sys.step] at h
    split at h
    · obtain rfl := Option.some.inj h
      exact hd
    · obtain ⟨g, hg, rfl⟩ := Option.map_eq_some_iff.1 h
      exact handle_dest sem hg hd
  | quantum =>
    obtain ⟨r, hr, rfl⟩ := Option.map_eq_some_iff.1 h
    exact render_dest sem hr
  | dropClear id =>
    obtain rfl := Option.some.inj h
    exact hd
  | _ => refine key ?_ h; rfl

/-- the graph stays active -/
theorem world_active (t : Timed P S M) (frames : S → Thread.Quantum K) (w : World P S M) (f : Nat)
    (hw : (worldSem t frames).active w = true) :
    (worldSem t frames).active ((worldSem t frames).render w f).1 = true := by
  cases w with
  | none => rfl
  | some s =>
    cases hr : s.g.render (t.at f) with
    | none => simp [worldSem, hr]
    | some r => simpa [worldSem, hr] using render_dest (t.at f) hr

theorem event_keeps (t : Timed P S M) (frames : S → Thread.Quantum K) {evs : List (List (Event P M))}
    (hev : ∀ b ∈ evs, ∀ x ∈ b, ∃ o, x = .op o) :
    ∀ b ∈ evs.map (List.map (Event.msg t.base)), ∀ m ∈ b, Thread.Keeps (worldSem t frames) m := by
  intro b hb m hm
  obtain ⟨b', hb', rfl⟩ := List.mem_map.1 hb
  obtain ⟨x, hx, rfl⟩ := List.mem_map.1 hm
  obtain ⟨o, rfl⟩ := hev b' hb' x hx
  refine ⟨_, rfl, fun w w' hw ha => ?_⟩
  obtain rfl := Option.some.inj hw
  cases w with
  | none => rfl
  | some s =>
    cases hs : s.step t.base o with
    | none => simp [worldSem, hs]
    | some s1 => simpa [worldSem, hs] using step_dest t.base hs ha

/-- without use of the time this is the sound of C99 and others -/
theorem soundAt_const (sem : Render.Sem P S M) (ops : List (Render.Op P M)) : ∀ (f : Nat) (s : Render.Sys P S M),
    soundAt ⟨sem, fun _ => sem.process, fun _ => sem.process_len⟩ f s ops = Render.Sys.sound sem s ops := by
  induction ops with
  | nil => intro f s; rfl
  | cons o ops ih =>
    intro f s
    by_cases ho : isOp o = true
    · rw [sound_op _ f s ho, Render.Sys.sound]
      · simp only [ih]
        cases s.step sem o <;> rfl
      · rintro rfl
        cases ho
    · have : o = .quantum := by cases o <;> first | rfl | exact absurd rfl ho
      subst this
      unfold soundAt Render.Sys.sound
      simp only [ih]
      rfl

/-! ## Theorems -/

/-- the initial state of the render thread: it has the graph, the destination is registered -/
def start (t : Timed P S M) (dest : P) (cfg : Render.Cfg) : Thread.St (World P S M) K :=
  { graph := some (some (Render.Sys.init t.base dest cfg)), suspended := false, state := .running, frames := 0, offset := none,
    receiver := true, log := [] }

/-- C109: Whatever an application does, and whenever, and whatever the sizes of the callbacks of the device (whole frames):
the render thread writes all of every buffer; there is a history in which the same operations happen in the same order,
with quanta in between, such that the device gets, in order, the output of the destination for each quantum of this
history, with gaps of silence in between (and a part of the last quantum is left for the next callback). If the history
panics the thread has panicked (in the model it stays in the state `none`), otherwise it is in the state that the history
leads to. -/
theorem C109_device [Zero K] (t : Timed P S M) (frames : S → Thread.Quantum K) (dest : P) (cfg : Render.Cfg)
    {ch : Nat} (hch : 0 < ch) (bufs : List (List K)) (hbufs : ∀ b ∈ bufs, b.length % ch = 0)
    (evs : List (List (Event P M))) (hev : ∀ b ∈ evs, ∀ x ∈ b, x ≠ .op .quantum) :
    ∃ s' out rest segs, ∃ (used later : List (List (Event P M))) (ops : List (Render.Op P M)),
      Thread.run (worldSem t frames) ch bufs (start t dest cfg) (evs.map (List.map (Event.msg t.base))) =
        some (s', out, later.map (List.map (Event.msg t.base))) ∧
      out.length = (bufs.map List.length).sum ∧
      out ++ rest = Thread.stream ch segs ∧ rest.length < 128 * ch ∧
      evs = used ++ later ∧ ops.filter isOp = opsOf used.flatten ∧
      match soundAt t 0 (Render.Sys.init t.base dest cfg) ops with
      | none => s'.graph = some none
      | some r => s'.graph = some (some r.1) ∧ Thread.played segs = r.2.map frames := by
  have hs : Thread.Has (start (K := K) t dest cfg) (some (Render.Sys.init t.base dest cfg)) := ⟨rfl, rfl⟩
  have hplain : ∀ b ∈ evs.map (List.map (Event.msg t.base)), ∀ m ∈ b, Thread.Plain m := by
    intro b hb m hm
    obtain ⟨b', _, rfl⟩ := List.mem_map.1 hb
    obtain ⟨x, _, rfl⟩ := List.mem_map.1 hm
    cases x <;> trivial
  have hok := Thread.C16_safe_partial (worldSem t frames) hch bufs hbufs (start t dest cfg)
    (by simp [Thread.OffOk, start]) (by simp [start]) (evs.map (List.map (Event.msg t.base))) (by
      intro b hb m hm
      obtain ⟨b', _, rfl⟩ := List.mem_map.1 hb
      obtain ⟨x, _, rfl⟩ := List.mem_map.1 hm
      cases x with
      | op o => exact fun g => ⟨_, rfl⟩
      | _ => trivial)
  cases hrun : Thread.run (worldSem t frames) ch bufs (start t dest cfg) (evs.map (List.map (Event.msg t.base))) with
  | none => exact absurd hrun hok
  | some r =>
    obtain ⟨s', out, bs'⟩ := r
    obtain ⟨b0, bts, w', used, sg, h1, h2, h3, h4, h6, h7⟩ :=
      (Thread.run_paused (worldSem t frames) bufs (start t dest cfg) _ hs _ hplain hrun).ex
    obtain ⟨segs, rest, k1, k2, k3, -⟩ := Thread.C103_pause (worldSem t frames) hch bufs hbufs (start t dest cfg) _ rfl
      rfl rfl _ hplain hrun
    obtain rfl : sg = segs := by rw [h4] at k3; exact List.append_cancel_left k3
    obtain ⟨used', later, rfl, rfl, rfl⟩ := List.map_eq_append_iff.1 h6
    rw [← List.map_flatten] at h7
    have hmem : ∀ x ∈ used'.flatten, x ≠ .op .quantum := by
      intro x hx
      obtain ⟨b, hb, hxb⟩ := List.mem_flatten.1 hx
      exact hev b (by simp [hb]) x hxb
    obtain ⟨ops, o1, o2⟩ := ran_history t frames h1 hmem h7
    refine ⟨s', out, rest, sg, used', later, ops, rfl,
      (Thread.run_out _ hch bufs hbufs _ (by simp [Thread.OffOk, start]) _ hrun).1, k1, k2, rfl, o1, ?_⟩
    rw [h2.graph]
    rw [show (start t dest cfg : Thread.St (World P S M) K).frames = 0 from rfl] at o2
    cases hsd : soundAt t 0 (Render.Sys.init t.base dest cfg) ops with
    | none => rw [hsd] at o2; rw [o2]
    | some q => rw [hsd] at o2; exact ⟨by rw [o2.1], o2.2⟩

theorem mem_opsOf {l : List (Event P M)} {o : Render.Op P M} (h : o ∈ opsOf l) : Event.op o ∈ l := by
  induction l with
  | nil => cases h
  | cons x l ih =>
    cases x with
    | op o' =>
      rcases List.mem_cons.1 h with rfl | h
      · simp
      · exact List.mem_cons_of_mem _ (ih h)
    | _ => exact List.mem_cons_of_mem _ (ih h)

/-- only quanta depend on the time -/
theorem step_base (t : Timed P S M) (f : Nat) (s : Render.Sys P S M) {o : Render.Op P M} (h : isOp o = true) :
    s.step (t.at f) o = s.step t.base o := by
  cases o with
  | quantum => cases h
  | recv =>
    simp only [Render.Sys.step]
    split
    · rfl
    · rename_i m ms hm
      cases m <;> rfl
  | _ => rfl

theorem history_safe (t : Timed P S M) (hp : ∀ f, Render.NoPanic (t.at f)) (dest : P) (cfg : Render.Cfg)
    {ops : List (Render.Op P M)} {used : List (List (Event P M))} (h : ops.filter isOp = opsOf used.flatten)
    (hfail : ∀ b ∈ used, ∀ id, .op (.failCreate id) ∈ b → id < 64) :
    ∃ r, soundAt t 0 (Render.Sys.init t.base dest cfg) ops = some r := by
  have hop : ∀ op ∈ ops, ∀ id, op = .failCreate id → id < 64 := by
    intro op hop id hid
    subst hid
    have hmem : Render.Op.failCreate id ∈ ops.filter isOp := List.mem_filter.2 ⟨hop, rfl⟩
    rw [h] at hmem
    obtain ⟨b, hb, hx⟩ := List.mem_flatten.1 (mem_opsOf hmem)
    exact hfail b hb id hx
  clear h
  have key : ∀ (f : Nat) (s : Render.Sys P S M), Render.Inv s → ∃ r, soundAt t f s ops = some r := by
    induction ops with
    | nil => intro f s _; exact ⟨_, rfl⟩
    | cons op ops ih =>
      intro f s hs
      have ih := ih fun o ho => hop o (by simp [ho])
      obtain ⟨s1, h1, h2⟩ := Render.inv_step (t.at f) (hp f) hs op (hop op (by simp))
      by_cases hop : isOp op = true
      · obtain ⟨r, hr⟩ := ih f s1 h2
        have : s.step t.base op = some s1 := by rw [← h1, step_base t f s hop]
        exact ⟨r, by rw [sound_op t f s hop, this]; exact hr⟩
      · have : op = .quantum := by cases op <;> first | rfl | exact absurd rfl hop
        subst this
        obtain ⟨q, hq, rfl⟩ := Option.map_eq_some_iff.1 h1
        obtain ⟨r, hr⟩ := ih (f + 128) _ h2
        exact ⟨(r.1, q.2 :: r.2), by unfold soundAt; rw [hq]; simp only [hr, Option.map_some]⟩
  exact key 0 _ (Render.inv_init t.base dest cfg)

/-- C109 for processors that do not panic (every handle is dropped at most once, creation fails at most for ids below 64,
see C10): nothing panics, and the device gets the sound of a history with the same operations in the same order. -/
theorem C109_device_safe [Zero K] (t : Timed P S M) (hp : ∀ f, Render.NoPanic (t.at f)) (frames : S → Thread.Quantum K) (dest : P)
    (cfg : Render.Cfg) {ch : Nat} (hch : 0 < ch) (bufs : List (List K)) (hbufs : ∀ b ∈ bufs, b.length % ch = 0)
    (evs : List (List (Event P M))) (hev : ∀ b ∈ evs, ∀ x ∈ b, x ≠ .op .quantum)
    (hfail : ∀ b ∈ evs, ∀ id, .op (.failCreate id) ∈ b → id < 64) :
    ∃ s' out rest segs, ∃ (used later : List (List (Event P M))) (ops : List (Render.Op P M)) (sys : Render.Sys P S M)
        (sounds : List S),
      Thread.run (worldSem t frames) ch bufs (start t dest cfg) (evs.map (List.map (Event.msg t.base))) =
        some (s', out, later.map (List.map (Event.msg t.base))) ∧
      out.length = (bufs.map List.length).sum ∧
      out ++ rest = Thread.stream ch segs ∧ rest.length < 128 * ch ∧
      evs = used ++ later ∧ ops.filter isOp = opsOf used.flatten ∧
      soundAt t 0 (Render.Sys.init t.base dest cfg) ops = some (sys, sounds) ∧
      s'.graph = some (some sys) ∧ Thread.played segs = sounds.map frames := by
  obtain ⟨s', out, rest, segs, used, later, ops, h1, h2, h3, h4, rfl, h6, h7⟩ :=
    C109_device t frames dest cfg hch bufs hbufs evs hev
  obtain ⟨r, hs⟩ := history_safe t hp dest cfg h6 fun b hb => hfail b (by simp [hb])
  rw [hs] at h7
  exact ⟨s', out, rest, segs, used, later, ops, r.1, r.2, h1, h2, h3, h4, rfl, h6, hs, h7.1, h7.2⟩

/-- C109 for a context that is neither suspended nor closed: the device gets, without any gap, sample by sample, the output
of the destination in the quanta of a history with the same operations in the same order; the number of quanta is such that
less than one of them is left for the next callback. -/
theorem C109_live [Zero K] (t : Timed P S M) (hp : ∀ f, Render.NoPanic (t.at f)) (frames : S → Thread.Quantum K) (dest : P)
    (cfg : Render.Cfg) {ch : Nat} (hch : 0 < ch) (bufs : List (List K)) (hbufs : ∀ b ∈ bufs, b.length % ch = 0)
    (evs : List (List (Event P M))) (hev : ∀ b ∈ evs, ∀ x ∈ b, ∃ o, x = .op o ∧ o ≠ .quantum)
    (hfail : ∀ b ∈ evs, ∀ id, .op (.failCreate id) ∈ b → id < 64) :
    ∃ s' out rest, ∃ (used later : List (List (Event P M))) (ops : List (Render.Op P M)) (sys : Render.Sys P S M)
        (sounds : List S),
      Thread.run (worldSem t frames) ch bufs (start t dest cfg) (evs.map (List.map (Event.msg t.base))) =
        some (s', out, later.map (List.map (Event.msg t.base))) ∧
      out.length = (bufs.map List.length).sum ∧
      out ++ rest = sounds.flatMap (fun o => Thread.deviceFrames ch (frames o)) ∧ rest.length < 128 * ch ∧
      evs = used ++ later ∧ ops.filter isOp = opsOf used.flatten ∧
      soundAt t 0 (Render.Sys.init t.base dest cfg) ops = some (sys, sounds) ∧
      s'.graph = some (some sys) := by
  have hev' : ∀ b ∈ evs, ∀ x ∈ b, x ≠ .op .quantum := fun b hb x hx => by
    obtain ⟨o, rfl, ho⟩ := hev b hb x hx
    intro h
    exact ho (Event.op.inj h)
  obtain ⟨s', out, _, _, _, _, _, hrun, hlen, -⟩ := C109_device t frames dest cfg hch bufs hbufs evs hev'
  obtain ⟨b0, bts, w', qs, used, sg, h1, h2, h3, h4, h5, h6, h7⟩ :=
    (Thread.run_did (worldSem t frames) (world_active t frames) bufs (start t dest cfg) _ ⟨rfl, rfl, rfl, rfl⟩ _
      (event_keeps t frames fun b hb x hx => (hev b hb x hx).imp fun _ h => h.1) hrun).ex
  obtain ⟨r1, r2, segs, r3, r4⟩ := Thread.run_out _ hch bufs hbufs _ (by simp [Thread.OffOk, start]) _ hrun
  have hpos := Thread.run_pos _ hch bufs hbufs _ (by simp [Thread.OffPos, start]) _ hrun
  obtain rfl : sg = segs := by rw [h4] at r3; exact List.append_cancel_left r3
  obtain ⟨used', later, rfl, rfl, hlater⟩ := List.map_eq_append_iff.1 h6
  rw [← List.map_flatten] at h7
  have hmem : ∀ x ∈ used'.flatten, x ≠ .op .quantum := by
    intro x hx
    obtain ⟨b, hb, hxb⟩ := List.mem_flatten.1 hx
    exact hev' b (by simp [hb]) x hxb
  obtain ⟨ops, o1, o2⟩ := ran_history t frames h1 hmem h7
  obtain ⟨r, hs⟩ := history_safe t hp dest cfg o1 fun b hb => hfail b (by simp [hb])
  rw [show (start t dest cfg : Thread.St (World P S M) K).frames = 0 from rfl, hs] at o2
  refine ⟨s', out, Thread.pending ch s', used', later, ops, r.1, r.2, by rw [hlater]; exact hrun, hlen, ?_, ?_, rfl, o1, hs,
    by rw [h2.graph, o2.1]⟩
  · rw [r4, h5, o2.2, List.flatMap_map]
    simp only [Thread.pending, start, List.nil_append, Thread.deviceFrames_eq]
  · unfold Thread.pending
    cases ho : s'.offset with
    | none => simpa using hch
    | some x =>
      obtain ⟨off, q⟩ := x
      have := hpos off q ho
      have hle := (r2 off q ho).1
      simp only [List.length_drop, Thread.block_length]
      have : 0 < off * ch := Nat.mul_pos this hch
      have : 0 < 128 * ch := Nat.mul_pos (by decide) hch
      show 128 * ch - off * ch < 128 * ch
      omega

/-- batches of images again -/
theorem batches_of_map {α β : Type} (f : α → β) (bts : List (List β)) (l : List α) (h : bts.flatten = l.map f) :
    ∃ cts : List (List α), bts = cts.map (List.map f) ∧ cts.flatten = l := by
  obtain ⟨c0, cts, h1, rfl, rfl⟩ := map_batches f bts l [] (by simpa using h.symm)
  have : c0 = [] := List.map_eq_nil_iff.1 h1.symm
  subst this
  exact ⟨cts, rfl, by simp⟩

/-- C100 for the graph and all its messages: what an application does while a context plays can be done while an offline
context with the same initial graph renders, in the same order, such that the buffers of the offline rendering (of as many
frames as have been played) are what the device gets, frame by frame and channel by channel. -/
theorem C100_graph [Zero K] (t : Timed P S M) (frames : S → Thread.Quantum K) (dest : P) (cfg : Render.Cfg)
    {ch : Nat} (hch : 0 < ch) (bufs : List (List K)) (hbufs : ∀ b ∈ bufs, b.length % ch = 0)
    (evs : List (List (Event P M))) (hev : ∀ b ∈ evs, ∀ x ∈ b, ∃ o, x = .op o ∧ o ≠ .quantum) :
    ∃ s' out, ∃ (used later batches : List (List (Event P M))),
      Thread.run (worldSem t frames) ch bufs (start t dest cfg) (evs.map (List.map (Event.msg t.base))) =
        some (s', out, later.map (List.map (Event.msg t.base))) ∧
      out.length = (bufs.map List.length).sum ∧ evs = used ++ later ∧ batches.flatten = used.flatten ∧
      ∀ dead : Nat → Bool, ∃ o, Thread.offRender (worldSem t frames) dead ch (out.length / ch) (out.length / ch) []
          (start t dest cfg) (batches.map (List.map (Event.msg t.base))) = some ([], o) ∧ o.buffer.length = ch ∧
        ∀ c (b : List K), o.buffer[c]? = some b → b.length = out.length / ch ∧
          ∀ f < out.length / ch, b[f]? = out[f * ch + c]? := by
  have hev' : ∀ b ∈ evs, ∀ x ∈ b, x ≠ .op .quantum := fun b hb x hx => by
    obtain ⟨o, rfl, ho⟩ := hev b hb x hx
    intro h
    exact ho (Event.op.inj h)
  obtain ⟨s', out, _, _, _, _, _, hrun, hlen, -⟩ := C109_device t frames dest cfg hch bufs hbufs evs hev'
  obtain ⟨used, batches, h1, h2, h3⟩ := Thread.C100_online_is_offline (worldSem t frames) hch (world_active t frames) bufs
    hbufs (start t dest cfg) _ rfl rfl rfl rfl rfl _
    (event_keeps t frames fun b hb x hx => (hev b hb x hx).imp fun _ h => h.1) hrun
  obtain ⟨used', later, rfl, rfl, hlater⟩ := List.map_eq_append_iff.1 h1
  rw [← List.map_flatten] at h2
  obtain ⟨cts, rfl, h5⟩ := batches_of_map _ _ _ h2
  exact ⟨s', out, used', later, cts, by rw [hlater]; exact hrun, hlen, rfl, h5, h3⟩

/-! ## A case that meets the hypotheses -/

/-- a processor `p` adds `p` times the number of the quantum to its inputs -/
def ticking : Timed Nat Nat Nat where
  base := Render.calmSem
  process := fun f p ins outs _ => some (p, outs.map fun _ => p * (f / 128) + ins.foldl (· + ·) 0, true)
  process_len := by
    intro f p ins outs ps p' outs' t h
    simp only [Option.some.injEq, Prod.mk.injEq] at h
    rw [← h.2.1]; simp

theorem ticking_noPanic (f : Nat) : Render.NoPanic (ticking.at f) :=
  ⟨by simp [ticking, Timed.at], by simp [ticking, Timed.at, Render.calmSem]⟩

/-- at the first poll a source is created, at the second it is connected, at the third the messages are handled -/
def tune : List (List (Event Nat Nat)) :=
  [[.op .acquire, .op (.register 11 5 0 1 Render.cfg0), .op .recv],
   [.op (.connect ⟨11, 1, 0, 1⟩ Render.destH 0 0)], [.op .recv]]

/-- a mono signal with the constant value `o` -/
def flat (o : Nat) : Thread.Quantum Nat := [fun _ => o]

example (b1 b2 : List Nat) (h1 : b1.length = 200) (h2 : b2.length = 400) :=
  C109_live ticking ticking_noPanic flat 0 Render.cfg0 (ch := 2) (by decide) [b1, b2] (by simp [h1, h2]) tune
    (by simp [tune]) (by simp [tune])

example (b1 b2 : List Nat) (h1 : b1.length = 200) (h2 : b2.length = 400) :=
  C100_graph ticking flat 0 Render.cfg0 (ch := 2) (by decide) [b1, b2] (by simp [h1, h2]) tune (by simp [tune])

/-- 100 frames, then 200 frames: one quantum of silence, then the source is heard, in the first of two channels;
its value is 5 in the second and 10 in the third quantum -/
example : (Thread.run (worldSem ticking flat) 2 [List.replicate 200 9, List.replicate 400 9]
    (start ticking 0 Render.cfg0) (tune.map (List.map (Event.msg Render.calmSem)))).map
      (fun r => r.2.1.length :: [0, 100, 254, 256, 257, 258, 512, 598].map fun i => r.2.1.getD i 7) =
    some [600, 0, 0, 0, 5, 0, 5, 10, 10] := by decide +kernel

end Verif.Whole
