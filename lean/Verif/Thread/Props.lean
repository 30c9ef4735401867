import Verif.Thread.Proofs
import Mathlib.Data.Rat.Defs

/-!
# Properties of the real-time render thread: C15, C16, C20
-/

namespace Verif.Thread

variable {G K : Type} [Zero K]

/-! ## Specification -/

/-- What a device with `ch` channels has to be given for a quantum: interleaved frames, channels that
the graph does not provide are silent, surplus channels are dropped. -/
def deviceFrames (ch : Nat) (q : Quantum K) : List K :=
  (List.range 128).flatMap fun frame => (List.range ch).map fun c =>
    match q[c]? with
    | some samples => samples frame
    | none => 0

/-- The stream of samples for a history of rendered quanta and gaps. -/
def stream (ch : Nat) : List (Seg K) → List K
  | [] => []
  | .quantum _ q :: l => deviceFrames ch q ++ stream ch l
  | .silence n :: l => List.replicate n 0 ++ stream ch l

/-- the frame numbers at which quanta were rendered, in order -/
def stamps : List (Seg K) → List Nat
  | [] => []
  | .quantum f _ :: l => f :: stamps l
  | .silence _ :: l => stamps l

omit [Zero K] in
theorem stamps_append (a b : List (Seg K)) : stamps (a ++ b) = stamps a ++ stamps b := by
  induction a with
  | nil => rfl
  | cons x a ih => cases x <;> simp [stamps, ih]

theorem deviceFrames_eq (ch : Nat) (q : Quantum K) : deviceFrames ch q = block ch q := by
  have key : ∀ n, ((List.range n).flatMap fun frame => (List.range ch).map fun c =>
      match q[c]? with
      | some samples => samples frame
      | none => (0 : K)) = (List.range (n * ch)).map fun k => q.getD (k % ch) (fun _ => 0) (k / ch) := by
    intro n
    induction n with
    | zero => simp
    | succ n ih =>
      rw [List.range_succ, List.flatMap_append, ih, Nat.succ_mul, List.range_add, List.map_append,
        List.map_map]
      congr 1
      simp only [List.flatMap_cons, List.flatMap_nil, List.append_nil]
      apply List.map_congr_left
      intro c hc
      have hc := List.mem_range.1 hc
      have h1 : (n * ch + c) % ch = c := by rw [Nat.mul_comm, Nat.mul_add_mod, Nat.mod_eq_of_lt hc]
      have h2 : (n * ch + c) / ch = n := by
        rw [Nat.mul_comm, Nat.mul_add_div (by omega), Nat.div_eq_of_lt hc]; rfl
      simp only [Function.comp, h1, h2, List.getD_eq_getElem?_getD]
      cases q[c]? <;> rfl
  exact key 128

theorem stream_eq (ch : Nat) (l : List (Seg K)) : stream ch l = l.flatMap (expand ch) := by
  induction l with
  | nil => rfl
  | cons x l ih => cases x <;> simp [stream, expand, ih, deviceFrames_eq]

theorem stream_append (ch : Nat) (a b : List (Seg K)) :
    stream ch (a ++ b) = stream ch a ++ stream ch b := by simp [stream_eq]

/-! ## C15 -/

/-- C15: whatever the sizes of the device buffers (whole frames), their old contents and the arrival of
control messages: all buffers are filled completely, and what has been written is the stream of the
quanta rendered and gaps inserted so far, cut off (only the rest of the last quantum is outstanding). -/
theorem C15_stream (sem : Sem G K) {ch : Nat} (hch : 0 < ch) (bufs : List (List K))
    (hbufs : ∀ b ∈ bufs, b.length % ch = 0) (bs : List (List (Msg G))) {s' : St G K} {out : List K}
    {bs' : List (List (Msg G))} (h : run sem ch bufs St.init bs = some (s', out, bs')) :
    out.length = (bufs.map List.length).sum ∧
      ∃ rest, rest.length ≤ 128 * ch ∧ out ++ rest = stream ch s'.log := by
  obtain ⟨h1, _, segs, h3, h4⟩ := run_out sem hch bufs hbufs St.init (by simp [OffOk, St.init]) bs h
  refine ⟨h1, pending ch s', ?_, ?_⟩
  · unfold pending
    split
    · simp
    · rw [List.length_drop, block_length]; simp
  · rw [h4, h3, stream_eq]; simp [pending, St.init]

/-- Successive quanta of a graph left alone, starting at frame `f`. -/
def quanta (sem : Sem G K) (g : G) (f : Nat) : Nat → List (Quantum K)
  | 0 => []
  | n + 1 => (sem.render g f).2 :: quanta sem (sem.render g f).1 (f + 128) n

theorem renderSeq_stream (sem : Sem G K) (ch n : Nat) (g : G) (f : Nat) :
    stream ch (renderSeq sem n g f) = (quanta sem g f n).flatMap (deviceFrames ch) := by
  induction n generalizing g f with
  | zero => rfl
  | succ n ih => simp [renderSeq, quanta, stream, ih]

/-- C15: for a running graph that stays active and no control messages, rendering does not fail and the
device receives a prefix of the interleaved quanta, as long as the buffers together: the sizes of the
device buffers do not matter. -/
theorem C15_callback_size (sem : Sem G K) {ch : Nat} (hch : 0 < ch)
    (hact : ∀ g f, sem.active g = true → sem.active (sem.render g f).1 = true)
    (bufs : List (List K)) (hbufs : ∀ b ∈ bufs, b.length % ch = 0) (s : St G K) (g : G)
    (hg : s.graph = some g) (ha : sem.active g = true) (hsus : s.suspended = false)
    (hoff : s.offset = none) :
    ∃ s' out bs', run sem ch bufs s [] = some (s', out, bs') ∧
      ∀ n, (bufs.map List.length).sum ≤ 128 * ch * n →
        out = ((quanta sem g s.frames n).flatMap (deviceFrames ch)).take (bufs.map List.length).sum := by
  have hs : OffOk ch s := by simp [OffOk, hoff]
  obtain ⟨s', out, bs', k, h1, h2⟩ := run_quiet sem hch hact bufs s hs g hg ha hsus [] (by simp)
  refine ⟨s', out, bs', h1, fun n hn => ?_⟩
  obtain ⟨e1, _, segs, e3, e4⟩ := run_out sem hch bufs hbufs s hs [] h1
  have hsegs : segs = renderSeq sem k g s.frames := by
    have := h2.log
    rw [e3] at this
    exact List.append_cancel_left this
  rw [hsegs, ← stream_eq] at e4
  simp only [pending, hoff, List.nil_append] at e4
  have len : ∀ m, (stream ch (renderSeq sem m g s.frames)).length = 128 * ch * m := by
    intro m
    generalize s.frames = f
    clear hg ha hn h1 h2 hsegs e4
    induction m generalizing g f with
    | zero => rfl
    | succ m ih =>
      simp only [renderSeq, stream, List.length_append, ih, deviceFrames_eq, block_length, rqs]
      ring
  rw [← renderSeq_stream]
  have key : out <+: stream ch (renderSeq sem (k + n) g s.frames) := by
    rw [← renderSeq_append, stream_append, ← e4]
    exact ⟨_, by rw [List.append_assoc]⟩
  have key2 : stream ch (renderSeq sem n g s.frames) <+: stream ch (renderSeq sem (k + n) g s.frames) := by
    rw [Nat.add_comm k n, ← renderSeq_append, stream_append]
    exact List.prefix_append _ _
  rw [← e1] at hn ⊢
  have := List.prefix_of_prefix_length_le key key2 (by rw [len]; exact hn)
  exact (List.prefix_iff_eq_take.1 this)

/-- a graph that counts the quanta it rendered; sample `i` of quantum `n` is `1000 n + i` -/
def demoSem : Sem Nat Nat where
  render g _ := (g + 1, [fun i => 1000 * g + i])
  active _ := true

/-- Hypotheses met, with buffers not aligned to quanta: three callbacks of 100, 28 and 50 frames. -/
example : ((run demoSem 2 [List.replicate 200 7, List.replicate 56 7, List.replicate 100 7]
    { (St.init : St Nat Nat) with graph := some 0 } []).map fun r => r.2.1.drop 250) =
      some ([125, 0, 126, 0, 127, 0] ++
        (List.range 50).flatMap fun i => [1000 + i, 0]) := by decide +kernel

/-! ## C20 -/

/-- C20: the frame counter is 128 times the number of quanta rendered, and the k-th quantum is rendered
at time `128 k`. Stated for a thread that continues at `n` quanta (`set_sink_id` starts a new thread
with the counter of the old one). -/
theorem C20_clock (sem : Sem G K) (ch n : Nat) (bufs : List (List K)) (bs : List (List (Msg G)))
    {s' : St G K} {out : List K} {bs' : List (List (Msg G))}
    (h : run sem ch bufs { St.init with frames := 128 * n } bs = some (s', out, bs')) :
    stamps s'.log = (List.range (stamps s'.log).length).map (fun k => 128 * (n + k)) ∧
      s'.frames = 128 * (n + (stamps s'.log).length) := by
  let I : St G K → Prop := fun s =>
    stamps s.log = (List.range (stamps s.log).length).map (fun k => 128 * (n + k)) ∧
      s.frames = 128 * (n + (stamps s.log).length)
  have hI : Preserved sem I := by
    refine ⟨?_, ?_, ?_, ?_⟩
    · intro s m s' b hs hh
      obtain ⟨_, f2, f3⟩ := handle_fields hh
      simp only [I, f2, f3]; exact hs
    · intro s o hs; exact hs
    · intro s n hs
      simp only [I, stamps_append, stamps, List.append_nil] at hs ⊢; exact hs
    · intro s g hs _
      simp only [I, stamps_append, stamps, List.length_append, List.length_singleton] at hs ⊢
      refine ⟨?_, ?_⟩
      · rw [List.range_succ, List.map_append, ← hs.1, hs.2]; rfl
      · rw [hs.2]; simp only [rqs]; ring
  exact run_ind hI bufs _ (by simp [I, St.init, stamps]) bs h

/-- C20: time never goes back, and what was rendered stays in the past: the history only grows. -/
theorem C20_monotone (sem : Sem G K) (ch : Nat) (bufs : List (List K)) (s : St G K)
    (bs : List (List (Msg G))) {s' : St G K} {out : List K} {bs' : List (List (Msg G))}
    (h : run sem ch bufs s bs = some (s', out, bs')) :
    s.frames ≤ s'.frames ∧ s.log <+: s'.log := by
  refine run_ind (I := fun t => s.frames ≤ t.frames ∧ s.log <+: t.log) ?_ bufs s
    ⟨le_rfl, List.prefix_rfl⟩ bs h
  refine ⟨?_, ?_, ?_, ?_⟩
  · intro t m t' b ht hh
    obtain ⟨_, f2, f3⟩ := handle_fields hh
    rw [f2, f3]; exact ht
  · intro t o ht; exact ht
  · intro t n ht; exact ⟨ht.1, ht.2.trans (List.prefix_append _ _)⟩
  · intro t g ht _
    exact ⟨ht.1.trans (Nat.le_add_right _ _), ht.2.trans (List.prefix_append _ _)⟩

example : ((run demoSem 1 [List.replicate 200 0, List.replicate 200 0]
    (St.init : St Nat Nat) [[.startup 0], [], [.suspend], [.resume]]).map fun r =>
      (r.1.frames, stamps r.1.log)) = some (512, [0, 128, 256, 384]) := by decide +kernel

/-! ## C16 -/

def isResume : Msg G → Bool
  | .resume => true
  | _ => false

/-- C16 fails: a suspend request processed while a device buffer of 256 frames is being filled does not
stop the rest of that buffer; time advances and sound is emitted while the state is `suspended`
(thread.rs l.483-531 polls the messages after each chunk but does not test `suspended`). -/
theorem C16_negated_suspend :
    ∃ s' out, run demoSem 1 [List.replicate 256 0] (St.init : St Nat Nat) [[.startup 0], [.suspend]] =
        some (s', out, []) ∧
      s'.suspended = true ∧ s'.frames = 256 ∧ out[128]? = some 1000 := by
  have h : ((run demoSem 1 [List.replicate 256 0] (St.init : St Nat Nat) [[.startup 0], [.suspend]]).map
      fun r => (r.1.suspended, r.1.frames, r.2.1[128]?, r.2.2.length)) =
        some (true, 256, some 1000, 0) := by decide +kernel
  rcases hr : run demoSem 1 [List.replicate 256 0] (St.init : St Nat Nat) [[.startup 0], [.suspend]]
    with _ | ⟨s', out, bs'⟩
  · rw [hr] at h; simp at h
  · rw [hr] at h
    simp only [Option.map_some, Option.some.injEq, Prod.mk.injEq, List.length_eq_zero_iff] at h
    obtain ⟨h1, h2, h3, rfl⟩ := h
    exact ⟨s', out, rfl, h1, h2, h3⟩

/-- C16 fails: `set_sink_id` (CloseAndRecycle) processed while a device buffer of 256 frames is being
filled makes the thread panic (`graph.as_mut().unwrap()`, l.500). -/
theorem C16_negated_recycle :
    run demoSem 1 [List.replicate 256 0] (St.init : St Nat Nat) [[.startup 0], [.closeAndRecycle]] =
      none := by decide +kernel

omit [Zero K] in
theorem handle_susp {m : Msg G} (hm : isResume m = false) {s s' : St G K} {b : Bool}
    (hs : s.suspended = true) (h : s.handle m = some (s', b)) : s'.suspended = true := by
  cases m <;> simp only [St.handle] at h <;> simp only [isResume] at hm
  · split at h
    · simp only [Option.map_eq_some_iff, Prod.mk.injEq] at h
      obtain ⟨_, _, rfl, _⟩ := h; exact hs
    · cases h
  all_goals first
    | (split at h <;> simp only [Option.some.injEq, Prod.mk.injEq, reduceCtorEq] at h
       obtain ⟨rfl, _⟩ := h; exact hs)
    | (simp only [Option.some.injEq, Prod.mk.injEq] at h; obtain ⟨rfl, _⟩ := h; first | rfl | exact hs)
    | cases hm

/-- C16, between callbacks: when the thread is suspended (or closed) and no resume request arrives, then
for any sizes of device buffers and any other messages no quantum is rendered, time stands still, and
the device gets what was left of the last quantum followed by zeros. Missing for the full claim:
requests processed within a callback, see `C16_negated_suspend`. -/
theorem C16_suspend_partial (sem : Sem G K) {ch : Nat} (hch : 0 < ch) (bufs : List (List K))
    (hbufs : ∀ b ∈ bufs, b.length % ch = 0) (s : St G K) (hs : OffOk ch s) (hsus : s.suspended = true)
    (bs : List (List (Msg G))) (hb : ∀ b ∈ bs, ∀ m ∈ b, isResume m = false)
    {s' : St G K} {out : List K} {bs' : List (List (Msg G))}
    (h : run sem ch bufs s bs = some (s', out, bs')) :
    s'.suspended = true ∧ s'.frames = s.frames ∧ stamps s'.log = stamps s.log ∧
      ∃ zeros, (∀ x ∈ zeros, x = 0) ∧ out ++ pending ch s' = pending ch s ++ zeros := by
  have key : s'.suspended = true ∧ s'.frames = s.frames ∧
      ∃ ns : List Nat, s'.log = s.log ++ ns.map Seg.silence := by
    clear hs hbufs
    have rest : ∀ (buf : List K) (s : St G K) (bs : List (List (Msg G))) (s' : St G K) (out : List K)
        (bs' : List (List (Msg G))), s.suspended = true → (∀ b ∈ bs, ∀ m ∈ b, isResume m = false) →
        renderRest sem ch buf s bs = some (s', out, bs') →
        s'.suspended = true ∧ s'.frames = s.frames ∧ (∀ b ∈ bs', ∀ m ∈ b, isResume m = false) ∧
          ∃ ns : List Nat, s'.log = s.log ++ ns.map Seg.silence := by
      intro buf s bs s' out bs' hsus hb h
      unfold renderRest at h
      split at h
      · cases h
      · rename_i s1 bs1 hp
        obtain ⟨p1, p2⟩ := poll_ind (I := fun t : St G K => t.suspended = true)
          (fun b hb' m hm s s' b' hi hh => handle_susp (hb b hb' m hm) hi hh) hsus hp
        obtain ⟨_, q3, q2⟩ := poll_fields hp
        rw [if_pos (by simp [St.mute, p1])] at h
        simp only [Option.some.injEq, Prod.mk.injEq] at h
        obtain ⟨rfl, _, rfl⟩ := h
        exact ⟨p1, q2, fun b hb' => hb b (p2 b hb'), [buf.length], by simp [q3]⟩
    induction bufs generalizing s bs s' out bs' with
    | nil =>
      simp only [run, Option.some.injEq, Prod.mk.injEq] at h
      obtain ⟨rfl, _⟩ := h
      exact ⟨hsus, rfl, [], by simp⟩
    | cons buf bufs ih =>
      simp only [run] at h
      split at h
      · cases h
      · rename_i s1 out1 bs1 h1
        split at h
        · cases h
        · rename_i s2 out2 bs2 h2
          simp only [Option.some.injEq, Prod.mk.injEq] at h
          obtain ⟨rfl, _⟩ := h
          have a : s1.suspended = true ∧ s1.frames = s.frames ∧
              (∀ b ∈ bs1, ∀ m ∈ b, isResume m = false) ∧
              ∃ ns : List Nat, s1.log = s.log ++ ns.map Seg.silence := by
            unfold renderInner at h1
            split at h1
            · exact rest _ _ _ _ _ _ hsus hb h1
            · simp only at h1
              split at h1
              · cases h1
              · split at h1
                · simp only [Option.some.injEq, Prod.mk.injEq] at h1
                  obtain ⟨rfl, _, rfl⟩ := h1
                  exact ⟨hsus, rfl, hb, [], by simp⟩
                · split at h1
                  · cases h1
                  · rename_i h3
                    simp only [Option.some.injEq, Prod.mk.injEq] at h1
                    obtain ⟨rfl, _, rfl⟩ := h1
                    exact rest _ { s with offset := none } _ _ _ _ hsus hb h3
          obtain ⟨a1, a2, a3, ns1, a4⟩ := a
          obtain ⟨b1, b2, ns2, b3⟩ := ih s1 a1 bs1 a3 h2
          exact ⟨b1, b2.trans a2, ns1 ++ ns2, by rw [b3, a4]; simp⟩
  obtain ⟨k1, k2, ns, k3⟩ := key
  obtain ⟨_, _, segs, e3, e4⟩ := run_out sem hch bufs hbufs s hs bs h
  have hsegs : segs = ns.map Seg.silence := by
    rw [e3] at k3; exact List.append_cancel_left k3
  refine ⟨k1, k2, ?_, _, ?_, e4⟩
  · rw [k3, stamps_append]
    suffices stamps (ns.map (Seg.silence (K := K))) = [] by rw [this, List.append_nil]
    clear k3 hsegs
    induction ns with
    | nil => rfl
    | cons n ns ih => simpa [stamps] using ih
  · subst hsegs
    intro x hx
    simp only [List.mem_flatMap, List.mem_map] at hx
    obtain ⟨_, ⟨n, _, rfl⟩, hx⟩ := hx
    exact List.eq_of_mem_replicate hx

example : ((run demoSem 1 [List.replicate 100 0, List.replicate 100 9, List.replicate 100 9]
    (St.init : St Nat Nat) [[.startup 0], [.suspend], [.graph some], []]).map fun r =>
      (r.1.frames, r.2.1)) = some (128, List.range 128 ++ List.replicate 172 0) := by decide +kernel

/-- messages that a started thread can always process -/
def harmless : Msg G → Prop
  | .closeAndRecycle => False
  | .graph f => ∀ g, ∃ g', f g = some g'
  | _ => True

/-- C16, safety: once started, and if no request to hand over the graph (`set_sink_id`) arrives, the
thread never fails, for all positions of suspend, resume, close and graph messages relative to quanta
and callbacks. Missing: `CloseAndRecycle`, see `C16_negated_recycle`. -/
theorem C16_safe_partial (sem : Sem G K) {ch : Nat} (hch : 0 < ch) (bufs : List (List K))
    (hbufs : ∀ b ∈ bufs, b.length % ch = 0) (s : St G K) (hs : OffOk ch s) (hg : s.graph ≠ none)
    (bs : List (List (Msg G))) (hb : ∀ b ∈ bs, ∀ m ∈ b, harmless m) :
    run sem ch bufs s bs ≠ none := by
  have hhandle : ∀ (m : Msg G) (s : St G K), harmless m → s.graph ≠ none →
      ∃ s', s.handle m = some (s', false) ∧ s'.graph ≠ none := by
    intro m s hm hg
    obtain ⟨g, hg⟩ := Option.ne_none_iff_exists'.1 hg
    cases m <;> simp only [harmless] at hm <;> simp only [St.handle, hg]
    · obtain ⟨g', hm⟩ := hm g
      simp [hm]
    all_goals simp [hg]
  have hall : ∀ (ms : List (Msg G)) (s : St G K), (∀ m ∈ ms, harmless m) → s.graph ≠ none →
      ∃ s', s.handleAll ms = some s' ∧ s'.graph ≠ none := by
    intro ms
    induction ms with
    | nil => intro s _ hg; exact ⟨s, rfl, hg⟩
    | cons m ms ih =>
      intro s hm hg
      obtain ⟨s1, h1, h2⟩ := hhandle m s (hm m (by simp)) hg
      simp only [St.handleAll, h1]
      exact ih s1 (fun m h => hm m (by simp [h])) h2
  have hpoll : ∀ (s : St G K) (bs : List (List (Msg G))), (∀ b ∈ bs, ∀ m ∈ b, harmless m) →
      s.graph ≠ none → ∃ s' bs', s.poll bs = some (s', bs') ∧ s'.graph ≠ none ∧
        (∀ b ∈ bs', ∀ m ∈ b, harmless m) := by
    intro s bs hb hg
    unfold St.poll
    split
    · cases bs with
      | nil => exact ⟨s, [], rfl, hg, by simp⟩
      | cons b bs =>
        obtain ⟨s', h1, h2⟩ := hall b s (hb b (by simp)) hg
        exact ⟨s', bs, by simp [h1], h2, fun b h => hb b (by simp [h])⟩
    · exact ⟨s, bs, rfl, hg, hb⟩
  have hchunks : ∀ (ns : List Nat) (buf : List K) (s : St G K) (bs : List (List (Msg G))),
      (∀ n ∈ ns, n ≤ rqs * ch) → (∀ b ∈ bs, ∀ m ∈ b, harmless m) → s.graph ≠ none →
      ∃ s' out bs', renderChunks sem ch ns buf s bs = some (s', out, bs') ∧ s'.graph ≠ none ∧
        (∀ b ∈ bs', ∀ m ∈ b, harmless m) := by
    intro ns
    induction ns with
    | nil => intro buf s bs _ hb hg; exact ⟨s, buf, bs, rfl, hg, hb⟩
    | cons n ns ih =>
      intro buf s bs hn hb hg
      obtain ⟨g, hg⟩ := Option.ne_none_iff_exists'.1 hg
      simp only [renderChunks, hg]
      rw [copyOut_block hch (pad_length ch _) (by have := hn n (by simp); simp; omega)]
      simp only
      generalize hs1 : (if n ≠ rqs * ch then _ else _ : St G K) = s1
      have f1 : s1.graph ≠ none := by rw [← hs1]; split <;> simp
      obtain ⟨s2, bs2, p1, p2, p3⟩ := hpoll s1 bs hb f1
      obtain ⟨s3, out3, bs3, q1, q2, q3⟩ := ih (buf.drop n) s2 bs2 (fun n h => hn n (by simp [h])) p3 p2
      simp only [p1, q1]
      exact ⟨_, _, _, rfl, q2, q3⟩
  have hrest : ∀ (buf : List K) (s : St G K) (bs : List (List (Msg G))),
      (∀ b ∈ bs, ∀ m ∈ b, harmless m) → s.graph ≠ none →
      ∃ s' out bs', renderRest sem ch buf s bs = some (s', out, bs') ∧ s'.graph ≠ none ∧
        (∀ b ∈ bs', ∀ m ∈ b, harmless m) := by
    intro buf s bs hb hg
    obtain ⟨s2, bs2, p1, p2, p3⟩ := hpoll s bs hb hg
    simp only [renderRest, p1]
    split
    · exact ⟨_, _, _, rfl, p2, p3⟩
    · exact hchunks _ buf s2 bs2 (chunkLens_le _ (by simp only [rqs]; omega)) p3 p2
  induction bufs generalizing s bs with
  | nil => simp [run]
  | cons buf bufs ih =>
    have hin : ∃ s' out bs', renderInner sem ch buf s bs = some (s', out, bs') ∧ s'.graph ≠ none ∧
        (∀ b ∈ bs', ∀ m ∈ b, harmless m) := by
      unfold renderInner
      cases ho : s.offset with
      | none => exact hrest buf s bs hb hg
      | some p =>
        obtain ⟨off, prev⟩ := p
        obtain ⟨o1, o2⟩ := hs _ _ ho
        simp only
        have hn : off * ch + min ((rqs - off) * ch) buf.length ≤ rqs * ch := by
          have : off * ch + (rqs - off) * ch = rqs * ch := by rw [← Nat.add_mul]; congr 1; omega
          omega
        rw [copyOut_block hch o2 (by simpa using hn)]
        simp only
        split
        · exact ⟨_, _, _, rfl, hg, hb⟩
        · obtain ⟨s2, out2, bs2, p1, p2, p3⟩ :=
            hrest (buf.drop (min ((rqs - off) * ch) buf.length)) { s with offset := none } bs hb hg
          simp only [p1]
          exact ⟨_, _, _, rfl, p2, p3⟩
    obtain ⟨s1, out1, bs1, h1, h2, h3⟩ := hin
    have ho1 := (renderInner_out sem hch buf (hbufs buf (by simp)) s hs bs h1).2.1
    have := ih (fun b h => hbufs b (by simp [h])) s1 ho1 h2 bs1 h3
    simp only [run, h1]
    obtain ⟨r, hr⟩ := Option.ne_none_iff_exists'.1 this
    simp [hr]

/-- a started thread in the middle of a quantum -/
def demoState : St Nat Nat where
  graph := some 3
  suspended := false
  state := .running
  frames := 384
  offset := some (100, [fun i => i])
  receiver := true
  log := []

/-- Hypotheses met: a started thread in the middle of a quantum, with a resume, suspend and close
arriving within a callback. -/
example : OffOk 1 demoState ∧ (run demoSem 1 [List.replicate 400 0] demoState
      [[.resume], [.suspend, .graph some], [.close]]).isSome = true := by
  refine ⟨?_, by decide +kernel⟩
  intro off q h
  simp [demoState] at h
  obtain ⟨rfl, rfl⟩ := h
  exact ⟨by decide, by decide⟩

end Verif.Thread
