import Verif.Media.Recorder
import Mathlib.Data.List.Infix
import Mathlib.Tactic.Ring

/-!
# C72: theorems about the recorder

The model is in `Media/Recorder.lean` (`/repo/src/media_recorder/mod.rs`). The encoding of a chunk, `encode_next`,
l.52-59, is `Wav.enc` below; the header is abstract.
-/

namespace Verif.Media.Recorder

open Verif.Buffer

variable {β τ : Type}

/-- C72: however the recorder thread and one or more calls of `stop` interleave, what is delivered is a prefix of the file:
nothing is missing in between, doubled or out of order. One `start`, from a track nobody else reads. -/
theorem C72_prefix (hdr enc : β → List τ) (limit : Nat) (items : List (Item β)) (acts : List Act) (s : St β τ)
    (h1 : acts.count .start ≤ 1) (hr : (St.new items).run hdr enc limit acts = some s) :
    delivered s.events <+: file hdr enc items := by
  have h := inv_run hdr enc limit items false acts _ s (inv_new hdr enc items false) hr (by simpa [St.new] using h1)
    (fun hc => by cases hc)
  obtain ⟨_, _, _, _, h⟩ := h
  have pre : ∀ r : List τ, delivered s.events ++ r = file hdr enc items → delivered s.events <+: file hdr enc items :=
    fun r hr => ⟨r, hr⟩
  have pre2 : ∀ r r' : List τ, delivered s.events ++ r ++ r' = file hdr enc items →
      delivered s.events <+: file hdr enc items := fun r r' hr => ⟨r ++ r', by rw [← hr, List.append_assoc]⟩
  have nil : delivered s.events = [] → delivered s.events <+: file hdr enc items := fun h => by
    rw [h]; exact List.nil_prefix
  cases ht : s.threads with
  | nil => rw [ht] at h; exact nil h.2.2.1
  | cons p ps =>
    rw [ht] at h
    obtain ⟨_, _, h⟩ := h
    cases p with
    | first => exact nil h.2.2.1
    | «begin» b => exact nil h.2.1
    | loop => exact pre2 _ _ h.2.1
    | got x => exact pre2 _ _ h.2.1
    | chunk b => exact pre2 _ _ h.2.1
    | flushing => exact pre2 _ _ h.2.1
    | endFlush => exact pre _ h.1
    | endStop => exact pre _ h.1
    | errFlush => exact pre _ h.1
    | errCall => exact pre _ h.1
    | errStop => exact pre _ h.1
    | done => exact (List.prefix_append _ _).trans h.1

/-- C72: a recording that is left alone until the track ends delivers the whole file: all chunks, or all up to the first
error; then the error, if any, and the stop event, once. Partial: the track must not be empty (`C72_empty_negated`). -/
theorem C72_complete_partial (hdr enc : β → List τ) (limit : Nat) (items : List (Item β)) (acts : List Act) (s : St β τ)
    (hne : items ≠ []) (h1 : acts.count .start ≤ 1) (h2 : .stopFlush ∉ acts) (h3 : .stopFinish ∉ acts)
    (hr : (St.new items).run hdr enc limit acts = some s) (hd : s.threads = [.done]) :
    delivered s.events = file hdr enc items ∧
    ∃ d, d.all isData = true ∧ (Item.err ∈ items → s.events = d ++ [.error, .stop]) ∧
      (Item.err ∉ items → s.events = d ++ [.stop]) := by
  have h := inv_run hdr enc limit items true acts _ s (inv_new hdr enc items true) hr (by simpa [St.new] using h1)
    (fun _ => ⟨h2, h3⟩)
  obtain ⟨_, _, _, _, h⟩ := h
  rw [hd] at h
  obtain ⟨_, _, _, h⟩ := h
  obtain ⟨a1, a2, a3⟩ := h rfl hne
  refine ⟨a1, ?_⟩
  by_cases he : Item.err ∈ items
  · obtain ⟨d, d1, d2⟩ := a3 he
    exact ⟨d, d2, fun _ => d1, fun hc => absurd he hc⟩
  · obtain ⟨d, d1, d2⟩ := a2 he
    exact ⟨d, d2, fun hc => absurd hc he, fun _ => d1⟩

/-- C72: a thread that is not done can go on (the track permitting), so that recordings do end. -/
theorem C72_progress (hdr enc : β → List τ) (limit : Nat) (s : St β τ) (k : Nat) (p : Pc β) (hp : s.threads[k]? = some p)
    (hd : p ≠ .done) : (s.step hdr enc limit (.thread k)).isSome = true := by
  simp only [St.step, St.thread, hp]
  cases p with
  | done => exact absurd rfl hd
  | first =>
    simp only
    split <;> rfl
  | loop =>
    simp only
    split <;> rfl
  | got x =>
    simp only
    split
    · cases x <;> rfl
    · rfl
  | _ => rfl

/-- C72: `stop` delivers all chunks that the recorder has taken from the track and finished with: only those still to come
are missing. -/
theorem C72_stop (hdr enc : β → List τ) (limit : Nat) (items : List (Item β)) (acts : List Act) (s s' : St β τ)
    (h1 : acts.count .start ≤ 1) (hr : (St.new items).run hdr enc limit acts = some s) (hl : s.threads = [.loop])
    (hs : s.step hdr enc limit .stopFlush = some s') :
    delivered s'.events ++ bytes enc s'.track.provider = file hdr enc items := by
  have h := inv_run hdr enc limit items false acts _ s (inv_new hdr enc items false) hr (by simpa [St.new] using h1)
    (fun hc => by cases hc)
  obtain ⟨i1, _, _, _, h⟩ := h
  rw [hl] at h
  obtain ⟨_, _, _, h, _⟩ := h
  simp only [St.step] at hs
  split at hs
  · cases hs
  · injection hs with hs
    subst hs
    show delivered s.flush.events ++ bytes enc s.track.provider = _
    rw [flush_delivered s i1]
    exact h

/-- is this a stop event? -/
def isStop : Ev τ → Bool
  | .stop => true
  | _ => false

/-- is this an error event? -/
def isError : Ev τ → Bool
  | .error => true
  | _ => false

/-- callbacks that are still set have not been called, and none has been called twice -/
def Once (s : St β τ) : Prop :=
  s.events.countP isStop ≤ (if s.onStop then 0 else 1) ∧ s.events.countP isError ≤ (if s.onError then 0 else 1)

theorem once_flush (s : St β τ) (h : Once s) : Once s.flush := by
  unfold Once at *
  cases hd : s.onData <;> simpa [St.flush, hd, isStop, isError] using h

theorem once_stop (s : St β τ) (h : Once s) : Once s.stop := by
  unfold Once at *
  cases hd : s.onStop <;> simp [St.stop, hd, isStop, isError] at * <;> simpa using h

theorem once_fail (s : St β τ) (h : Once s) : Once s.fail := by
  unfold Once at *
  cases hd : s.onError <;> simp [St.fail, hd, isStop, isError] at * <;> simpa using h

theorem once_step (hdr enc : β → List τ) (limit : Nat) (s s' : St β τ) (a : Act) (h : Once s)
    (hs : s.step hdr enc limit a = some s') : Once s' := by
  cases a with
  | start =>
    simp only [St.step] at hs
    split at hs
    · cases hs
    · injection hs with hs; subst hs; exact h
  | stopFlush =>
    simp only [St.step] at hs
    split at hs
    · cases hs
    · injection hs with hs; subst hs; exact once_flush s h
  | stopFinish =>
    simp only [St.step] at hs
    split at hs
    · injection hs with hs; subst hs; exact once_stop s h
    · cases hs
  | thread k =>
    simp only [St.step, St.thread] at hs
    split at hs
    · cases hs
    · cases hs
    · split at hs <;> (injection hs with hs; subst hs; exact h)
    · injection hs with hs; subst hs; exact h
    · split at hs <;> (injection hs with hs; subst hs; exact h)
    · split at hs
      · split at hs <;> (injection hs with hs; subst hs; exact h)
      · injection hs with hs; subst hs; exact h
    · injection hs with hs; subst hs; exact h
    · injection hs with hs; subst hs; exact once_flush s h
    · injection hs with hs; subst hs; exact once_flush s h
    · injection hs with hs; subst hs; exact once_stop s h
    · injection hs with hs; subst hs; exact once_flush s h
    · injection hs with hs; subst hs; exact once_fail s h
    · injection hs with hs; subst hs; exact once_stop s h

/-- C72: the stop and the error callback are called at most once, whatever is started and stopped how often. -/
theorem C72_once (hdr enc : β → List τ) (limit : Nat) (items : List (Item β)) (acts : List Act) (s : St β τ)
    (hr : (St.new items).run hdr enc limit acts = some s) :
    s.events.countP isStop ≤ 1 ∧ s.events.countP isError ≤ 1 := by
  have key : ∀ (acts : List Act) (s s' : St β τ), Once s → s.run hdr enc limit acts = some s' → Once s' := by
    intro acts
    induction acts with
    | nil => intro s s' h hr; injection hr with hr; subst hr; exact h
    | cons a as ih =>
      intro s s' h hr
      simp only [St.run] at hr
      cases hs : s.step hdr enc limit a with
      | none => rw [hs] at hr; cases hr
      | some t => rw [hs] at hr; exact ih t s' (once_step hdr enc limit s t a h hs) hr
  have h := key acts _ s (show Once (St.new items) by simp [Once, St.new]) hr
  obtain ⟨h1, h2⟩ := h
  constructor
  · refine h1.trans ?_
    split <;> omega
  · refine h2.trans ?_
    split <;> omega

/-- C72, negated: for a track that ends before its first chunk there is no stop event, and the recorder stays active: it
cannot be started again. -/
theorem C72_empty_negated (hdr enc : β → List τ) (limit : Nat) :
    ∃ s : St β τ, (St.new []).run hdr enc limit [.start, .thread 0] = some s ∧ s.threads = [.done] ∧ s.events = [] ∧
      s.step hdr enc limit .start = none :=
  ⟨_, rfl, rfl, rfl, rfl⟩

/-- C72, negated: data can be delivered after the stop event. -/
theorem C72_after_stop_negated :
    ∃ (items : List (Item Nat)) (acts : List Act) (s : St Nat Nat),
      (St.new items).run (fun _ => [0]) (fun b => [b, b]) 1 acts = some s ∧ acts.count .start = 1 ∧
      ∃ b ≠ [], s.events = [.data [0, 7, 7], .stop, .data b] := by
  refine ⟨[.ok 7, .ok 8], [.start, .thread 0, .thread 0, .thread 0, .thread 0, .stopFlush, .stopFinish, .thread 0, .thread 0],
    _, rfl, rfl, [8, 8], by decide, rfl⟩

/-- C72, negated: a recorder that is stopped and started again while its thread waits for the next chunk begins the second
recording with the last chunk of the first one, and then records every chunk twice. -/
theorem C72_restart_negated :
    ∃ (items : List (Item Nat)) (acts : List Act) (s : St Nat Nat),
      (St.new items).run (fun _ => [0]) (fun b => [b]) 100 acts = some s ∧
      s.events = [.data [0, 7], .stop, .data [0, 7, 8, 8, 9, 9]] := by
  refine ⟨[.ok 7, .ok 8, .ok 9], [.start, .thread 0, .thread 0, .stopFlush, .stopFinish,
    .start, .thread 1, .thread 1, .thread 0, .thread 0, .thread 0, .thread 1, .thread 1, .thread 1,
    .thread 0, .thread 0, .thread 0, .thread 1, .thread 1, .thread 1, .stopFlush],
    _, rfl, rfl⟩

/-- C72, negated: `stop` of a recorder that was never started delivers an event without data and a stop event. -/
theorem C72_inactive_stop_negated (hdr enc : β → List τ) (limit : Nat) (items : List (Item β)) :
    ∃ s : St β τ, (St.new items).run hdr enc limit [.stopFlush, .stopFinish] = some s ∧ s.events = [.data [], .stop] :=
  ⟨_, rfl, rfl⟩

/-! ## The encoding -/

namespace Wav

variable {v : Type}

/-- `encode_next`, l.52-59, of a buffer given by its channels: all channels of frame 0, of frame 1, ... -/
def enc (b : List (List v)) : List v :=
  (List.range (b.headD []).length).flatMap fun i => b.filterMap fun c => c[i]?

/-- Specification: what a reader of a file with `n` channels takes for channel `c` in frame `i`. -/
def sample (n : Nat) (data : List v) (c i : Nat) : Option v := if c < n then data[i * n + c]? else none

/-- Specification: channel `c` of the whole stream. -/
def channel (bs : List (List (List v))) (c : Nat) : List v := (bs.map fun b => b.getD c []).flatten

/-- a buffer with `n` channels of equal length -/
def Rect (n : Nat) (b : List (List v)) : Prop := b.length = n ∧ ∀ c ∈ b, c.length = (b.headD []).length

theorem enc_frames (n len : Nat) (b : List (List v)) (hb : b.length = n) (hl : ∀ c ∈ b, c.length = len) (k : Nat)
    (hk : k ≤ len) :
    ((List.range k).flatMap fun i => b.filterMap fun c => c[i]?).length = k * n ∧
    ∀ i c, i < k → c < n →
      ((List.range k).flatMap fun i => b.filterMap fun c => c[i]?)[i * n + c]? = (b.getD c [])[i]? := by
  induction k with
  | zero => exact ⟨by simp, fun i c h => by omega⟩
  | succ k ih =>
    obtain ⟨h1, h2⟩ := ih (by omega)
    have hf : b.filterMap (fun c => c[k]?) = b.pmap (fun c (h : k < c.length) => c[k]) (fun c hc => by rw [hl c hc]; omega) := by
      clear h1 h2 hb ih
      induction b with
      | nil => rfl
      | cons x xs ih =>
        have hx : k < x.length := by rw [hl x List.mem_cons_self]; omega
        rw [List.filterMap_cons, List.getElem?_eq_getElem hx]
        simp only [List.pmap_cons]
        rw [ih fun c hc => hl c (List.mem_cons_of_mem _ hc)]
    rw [List.range_succ, List.flatMap_append, List.flatMap_singleton]
    constructor
    · rw [List.length_append, h1, hf, List.length_pmap, hb]; ring_nf
    · intro i c hi hc
      rcases Nat.lt_succ_iff_lt_or_eq.mp hi with h | h
      · rw [List.getElem?_append_left]
        · exact h2 i c h hc
        · rw [h1]
          calc i * n + c < i * n + n := by omega
            _ = (i + 1) * n := by ring
            _ ≤ k * n := Nat.mul_le_mul_right n h
      · subst h
        rw [List.getElem?_append_right (by rw [h1]; omega), h1, hf, List.getElem?_pmap]
        rw [show i * n + c - i * n = c by omega]
        rw [List.getD_eq_getElem?_getD]
        have hcb : c < b.length := by omega
        have hic : i < b[c].length := by rw [hl _ (List.getElem_mem hcb)]; omega
        simp only [List.getElem?_eq_getElem hcb, Option.getD_some, List.getElem?_eq_getElem hic]
        rfl

theorem channel_length (n : Nat) (bs : List (List (List v))) (hb : ∀ b ∈ bs, Rect n b) (c : Nat) (hc : c < n) :
    (bs.map enc).flatten.length = (channel bs c).length * n := by
  induction bs with
  | nil => simp [channel]
  | cons b bs ih =>
    obtain ⟨r1, r2⟩ := hb b List.mem_cons_self
    have := (enc_frames n _ b r1 r2 _ (le_refl _)).1
    rw [List.map_cons, List.flatten_cons, List.length_append, ih fun x hx => hb x (List.mem_cons_of_mem _ hx)]
    show ((List.range (b.headD []).length).flatMap fun i => b.filterMap fun c => c[i]?).length + _ = _
    rw [this]
    simp only [channel, List.map_cons, List.flatten_cons, List.length_append]
    have : (b.getD c []).length = (b.headD []).length := by
      rw [List.getD_eq_getElem?_getD, List.getElem?_eq_getElem (by omega)]
      exact r2 _ (List.getElem_mem _)
    rw [this]; ring

/-- C72: if all chunks have the same number of channels, the reader of the file finds in every channel the samples of that
channel of the stream. -/
theorem C72_decode_partial (n : Nat) (bs : List (List (List v))) (hb : ∀ b ∈ bs, Rect n b) (c i : Nat) (hc : c < n) :
    sample n (bs.map enc).flatten c i = (channel bs c)[i]? := by
  unfold sample
  rw [if_pos hc]
  induction bs generalizing i with
  | nil => simp [channel]
  | cons b bs ih =>
    obtain ⟨r1, r2⟩ := hb b List.mem_cons_self
    obtain ⟨h1, h2⟩ := enc_frames n _ b r1 r2 _ (le_refl _)
    have hlen : (b.getD c []).length = (b.headD []).length := by
      rw [List.getD_eq_getElem?_getD, List.getElem?_eq_getElem (by omega)]
      exact r2 _ (List.getElem_mem _)
    rw [List.map_cons, List.flatten_cons]
    simp only [channel, List.map_cons, List.flatten_cons]
    have he : (enc b).length = (b.headD []).length * n := h1
    by_cases hi : i < (b.headD []).length
    · rw [List.getElem?_append_left, List.getElem?_append_left (by omega)]
      · exact h2 i c hi hc
      · rw [he]
        calc i * n + c < i * n + n := by omega
          _ = (i + 1) * n := by ring
          _ ≤ (b.headD []).length * n := Nat.mul_le_mul_right n hi
    · have hle : (b.headD []).length * n ≤ i * n := Nat.mul_le_mul_right n (by omega)
      rw [List.getElem?_append_right (by omega), List.getElem?_append_right (by omega), he, hlen,
        show i * n + c - (b.headD []).length * n = (i - (b.headD []).length) * n + c by
          rw [Nat.sub_mul]; omega]
      exact ih (fun x hx => hb x (List.mem_cons_of_mem _ hx)) (i - (b.headD []).length)

/-- C72, negated: if the number of channels changes, as that of a stream destination does when the sound begins (C71), the
header of the first chunk is used for all: silence in mono, then a stereo signal, is read as one channel that alternates
between left and right and lasts too long. -/
theorem C72_channels_negated :
    ∃ b1 b2 : List (List Int), Rect 1 b1 ∧ Rect 2 b2 ∧
      (List.range 6).map (sample 1 ([b1, b2].map enc).flatten 0) = [some 0, some 0, some 5, some (-5), some 6, some (-6)] ∧
      channel [b1, b2] 0 = [0, 0, 5, 6] :=
  ⟨[[0, 0]], [[5, 6], [-5, -6]], ⟨rfl, by decide⟩, ⟨rfl, by decide⟩, rfl, rfl⟩

end Wav

/-! ## Callbacks that call the recorder -/

namespace Lock

/-- What a thread has to do, l.99-122, l.218-225: the two locks, the call of the callback. -/
inductive Instr
  | lockData
  | lockCallback
  | call
  | unlockCallback
  | unlockData
  deriving DecidableEq, Repr

/-- `flush`, l.99-122: both guards live until the callback has returned -/
def flush : List Instr := [.lockData, .lockCallback, .call, .unlockCallback, .unlockData]

/-- `set_ondataavailable` and `clear_ondataavailable`, l.217-225 -/
def setCallback : List Instr := [.lockCallback, .unlockCallback]

/-- owners of the locks and the remaining instructions of each thread -/
structure St where
  data : Option Nat
  callback : Option Nat
  todo : Nat → List Instr

/-- One step of thread `k`; `none`: it waits. `body` is what the callback does. -/
def St.step (body : List Instr) (s : St) (k : Nat) : Option St :=
  match s.todo k with
  | [] => none
  | i :: rest =>
    let t : St := { s with todo := fun j => if j = k then rest else s.todo j }
    match i with
    | .lockData => if s.data = none then some { t with data := some k } else none
    | .lockCallback => if s.callback = none then some { t with callback := some k } else none
    | .call => some { t with todo := fun j => if j = k then body ++ rest else s.todo j }
    | .unlockCallback => some { t with callback := if s.callback = some k then none else s.callback }
    | .unlockData => some { t with data := if s.data = some k then none else s.data }

/-- Runs a schedule; threads that cannot go on are skipped. -/
def St.run (body : List Instr) (s : St) : List Nat → St
  | [] => s
  | k :: ks => ((s.step body k).getD s).run body ks

/-- a program uses the locks properly if it releases the data lock only when it owns it -/
theorem stuck_data (body : List Instr) (k : Nat) (rest : List Instr) :
    ∀ (sched : List Nat) (s : St), s.data = some k → s.todo k = .lockData :: rest →
      (s.run body sched).data = some k ∧ (s.run body sched).todo k = .lockData :: rest := by
  intro sched
  induction sched with
  | nil => intro s h1 h2; exact ⟨h1, h2⟩
  | cons j js ih =>
    intro s h1 h2
    simp only [St.run]
    cases hs : s.step body j with
    | none => exact ih s h1 h2
    | some t =>
      rw [Option.getD_some]
      have hjk : j ≠ k := by
        intro hc
        subst hc
        simp [St.step, h2, h1] at hs
      refine ih t ?_ ?_
      · simp only [St.step] at hs
        split at hs
        · cases hs
        · split at hs
          · simp [h1] at hs
          · split at hs
            · injection hs with hs; subst hs; exact h1
            · cases hs
          · injection hs with hs; subst hs; exact h1
          · injection hs with hs; subst hs; exact h1
          · injection hs with hs; subst hs
            show (if s.data = some j then none else s.data) = some k
            rw [if_neg]
            · exact h1
            · rw [h1]; intro hc; injection hc with hc; exact hjk hc.symm
      · simp only [St.step] at hs
        have hk : ∀ l : List Instr, (fun i => if i = j then l else s.todo i) k = .lockData :: rest := by
          intro l
          show (if k = j then l else s.todo k) = _
          rw [if_neg (Ne.symm hjk)]; exact h2
        split at hs
        · cases hs
        · split at hs
          · split at hs
            · injection hs with hs; subst hs; exact hk _
            · cases hs
          · split at hs
            · injection hs with hs; subst hs; exact hk _
            · cases hs
          · injection hs with hs; subst hs; exact hk _
          · injection hs with hs; subst hs; exact hk _
          · injection hs with hs; subst hs; exact hk _

/-- C72, negated: a data callback that calls `stop` blocks the thread it runs on for ever; the data lock is never released
and every later `stop` blocks as well. -/
theorem C72_callback_stop_negated (more : List Instr) (s : St) (k : Nat) (todo : List Instr) (h1 : s.data = none)
    (h2 : s.callback = none) (ht : s.todo k = flush ++ todo) (sched : List Nat) :
    let body := flush ++ more
    let s' := (s.run body [k, k, k]).run body sched
    s'.step body k = none ∧ s'.data = some k ∧
      ∀ j r, s'.todo j = flush ++ r → s'.step body j = none := by
  intro body s'
  have hrun : s.run body [k, k, k] =
      ⟨some k, some k, fun j => if j = k then body ++ ([Instr.unlockCallback, Instr.unlockData] ++ todo) else s.todo j⟩ := by
    have e1 : s.step body k = some ⟨some k, none, fun j => if j = k then
        ([Instr.lockCallback, Instr.call, Instr.unlockCallback, Instr.unlockData] ++ todo) else s.todo j⟩ := by
      simp [St.step, ht, flush, h1, h2]
    simp only [St.run, e1, Option.getD_some]
    simp only [St.step, if_true, List.cons_append, List.nil_append, Option.getD_some]
    congr 1
    funext j
    by_cases hj : j = k <;> simp [hj]
  have hst := stuck_data body k ([Instr.lockCallback, Instr.call, Instr.unlockCallback, Instr.unlockData] ++ more ++
    ([Instr.unlockCallback, Instr.unlockData] ++ todo)) sched (s.run body [k, k, k]) (by rw [hrun])
    (by rw [hrun]; simp [body, flush])
  refine ⟨?_, hst.1, ?_⟩
  · simp only [St.step, s', hst.2, hst.1]
    rfl
  · intro j r hj
    simp only [St.step, hj, flush]
    show (if s'.data = none then _ else none) = none
    rw [if_neg (by rw [hst.1]; simp)]

/-- A callback that does not call the recorder does not block. -/
example : (St.run [] ⟨none, none, fun j => if j = 0 then flush else []⟩ [0, 0, 0, 0, 0]).todo 0 = [] := by decide

end Lock

/-! ## Examples -/

/-- A whole recording of three chunks with a limit of 2 bytes: the second chunk exceeds it. -/
example : ∃ s, (St.new [.ok 7, .ok 8, .ok 9]).run (fun _ => [0]) (fun b : Nat => [b, b]) 2
      (.start :: List.replicate 12 (.thread 0)) = some s ∧ s.threads = [.done] ∧
    s.events = [.data [0, 7, 7, 8, 8], .data [9, 9], .stop] :=
  ⟨_, rfl, rfl, rfl⟩

/-- One that ends with an error. -/
example : ∃ s, (St.new [.ok 7, .err, .ok 9]).run (fun _ => [0]) (fun b : Nat => [b, b]) 100
      (.start :: List.replicate 7 (.thread 0)) = some s ∧ s.threads = [.done] ∧
    s.events = [.data [0, 7, 7], .error, .stop] :=
  ⟨_, rfl, rfl, rfl⟩

/-- The hypotheses of `C72_stop`. -/
example : ∃ s s', (St.new [.ok 7, .ok 8, .ok 9]).run (fun _ => [0]) (fun b : Nat => [b, b]) 100
      (.start :: List.replicate 5 (.thread 0)) = some s ∧ s.threads = [.loop] ∧
    s.step (fun _ => [0]) (fun b : Nat => [b, b]) 100 .stopFlush = some s' ∧ s'.events = [.data [0, 7, 7, 8, 8]] ∧
    s'.track.provider = [.ok 9] :=
  ⟨_, _, rfl, rfl, rfl, rfl, rfl⟩

/-- A buffer of `C72_decode_partial`. -/
example : Wav.Rect 2 [[1, 2], [3, 4]] ∧ Wav.enc [[1, 2], [3, 4]] = [1, 3, 2, 4] := ⟨⟨rfl, by decide⟩, rfl⟩

end Verif.Media.Recorder
