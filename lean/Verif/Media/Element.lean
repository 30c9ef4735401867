import Mathlib.Algebra.Order.Floor.Ring
import Mathlib.Data.Rat.Floor
import Mathlib.Tactic.Ring
import Mathlib.Tactic.Linarith
import Mathlib.Tactic.FieldSimp

/-!
# C73: playback of a media element

Models `/repo/src/media_element.rs` l.92-224. The file reader (crate `creek`) is not part of the repository: it is a type `δ`
of states with a function to read and one to seek, and `File` says what is assumed about it where sound is concerned. A frame
is one sample of every channel (type `α`), so the rearrangement l.200-202 is not modelled. Numbers are rationals: rates and
times that are infinite or NaN are not covered. What the chunks become in the graph is in `Buffer/Stream.lean` (C50).
-/

namespace Verif.Media.Element

variable {δ α : Type}

/-- `MediaElementAction`, l.31-42 -/
inductive Msg
  | seek (t : ℚ)
  | setLoop (b : Bool)
  | play
  | pause
  | setRate (r : ℚ)
  deriving DecidableEq

/-- the file reader: `read`, the frames and the flag of the end of the file or an error, and `seek` -/
structure Disk (δ α : Type) where
  read : δ → Nat → Option (List α × Bool) × δ
  seek : δ → Nat → δ

/-- `RTSStream` and the values it shares with the `MediaElement`, l.12-20, l.48-55 -/
structure St (δ : Type) where
  disk : δ
  queue : List Msg
  time : ℚ
  loop : Bool
  paused : Bool
  rate : ℚ

/-- `new`, l.94-101 -/
def St.new (d : δ) : St δ := ⟨d, [], 0, false, true, 1⟩

/-- the setters, l.126-159: they wait (`none`) while 32 messages are pending -/
def St.send (s : St δ) (m : Msg) : Option (St δ) :=
  if s.queue.length < 32 then some { s with queue := s.queue ++ [m] } else none

/-- a chunk -/
inductive Chunk (α : Type)
  | silence
  | audio (frames : List α) (rate : ℚ)
  | err
  deriving DecidableEq

/-- l.169-182 -/
def St.handle (D : Disk δ α) (sr : ℚ) (s : St δ) : Msg → St δ
  | .seek t => { s with time := t, disk := D.seek s.disk ⌊t * sr⌋₊ }
  | .setLoop b => { s with loop := b }
  | .play => { s with paused := false }
  | .pause => { s with paused := true }
  | .setRate r => { s with rate := r }

/-- l.168-182: one message -/
def St.recv (D : Disk δ α) (sr : ℚ) (s : St δ) : St δ :=
  match s.queue with
  | [] => s
  | m :: ms => { s with queue := ms }.handle D sr m

/-- `is_valid_sample_rate`, `/repo/src/lib.rs` -/
def validRate (r : ℚ) : Bool := 3000 ≤ r && r ≤ 768000

/-- l.184-222; `none` is a panic in `AudioBuffer::from` -/
def St.produce (D : Disk δ α) (sr : ℚ) (s : St δ) : Option (Chunk α × St δ) :=
  if s.paused then some (.silence, s)
  else
    match D.read s.disk ⌊128 * |s.rate|⌋₊ with
    | (none, d) => some (.err, { s with disk := d })
    | (some (fs, eof), d) =>
      if validRate (sr * |s.rate|) then
        if s.loop && eof then some (.audio fs (sr * |s.rate|), { s with disk := D.seek d 0, time := 0 })
        else some (.audio fs (sr * |s.rate|), { s with disk := d, time := s.time + 128 / sr })
      else none

/-- `next`, l.165-223 -/
def St.next (D : Disk δ α) (sr : ℚ) (s : St δ) : Option (Chunk α × St δ) := (s.recv D sr).produce D sr

/-- `n` chunks -/
def St.run (D : Disk δ α) (sr : ℚ) : Nat → St δ → Option (List (Chunk α) × St δ)
  | 0, s => some ([], s)
  | n + 1, s => (s.next D sr).bind fun x => (St.run D sr n x.2).map fun y => (x.1 :: y.1, y.2)

/-! ## Specification -/

/-- The last value that the messages give to something, or the old one. -/
def last {β : Type} (f : Msg → Option β) (old : β) (ms : List Msg) : β := ((ms.filterMap f).getLast?).getD old

def asPaused : Msg → Option Bool
  | .play => some false
  | .pause => some true
  | _ => none

def asLoop : Msg → Option Bool
  | .setLoop b => some b
  | _ => none

def asRate : Msg → Option ℚ
  | .setRate r => some r
  | _ => none

/-- all frames in the chunks -/
def frames : List (Chunk α) → List α
  | [] => []
  | .audio fs _ :: cs => fs ++ frames cs
  | _ :: cs => frames cs

/-- What is assumed about the file reader for a file with these frames: up to the end of the file a read yields the frames at
the position and moves the position; the flag is set by the read that reaches the end. Reads past the end are not
constrained. -/
structure File (D : Disk δ α) (file : List α) (pos : δ → Nat) : Prop where
  seek : ∀ d k, pos (D.seek d k) = k
  read : ∀ d n, pos d < file.length → ∃ d', D.read d n =
    (some ((file.drop (pos d)).take n, decide (file.length ≤ pos d + n)), d') ∧ pos d' = min (pos d + n) file.length

/-! ## Messages -/

theorem last_cons {β : Type} (f : Msg → Option β) (old : β) (m : Msg) (ms : List Msg) :
    last f old (m :: ms) = last f ((f m).getD old) ms := by
  unfold last
  rw [List.filterMap_cons]
  cases f m with
  | none => rfl
  | some b =>
    simp only [Option.getD_some]
    rw [List.getLast?_cons]
    simp

theorem produce_keeps (D : Disk δ α) (sr : ℚ) (s : St δ) (x : Chunk α × St δ) (h : s.produce D sr = some x) :
    x.2.queue = s.queue ∧ x.2.loop = s.loop ∧ x.2.paused = s.paused ∧ x.2.rate = s.rate := by
  unfold St.produce at h
  split at h
  · injection h with h; subst h; exact ⟨rfl, rfl, rfl, rfl⟩
  · split at h
    · injection h with h; subst h; exact ⟨rfl, rfl, rfl, rfl⟩
    · split at h
      · split at h <;> (injection h with h; subst h; exact ⟨rfl, rfl, rfl, rfl⟩)
      · cases h

/-- C73: the messages take effect in the order in which they were sent, one for every chunk. -/
theorem C73_messages (D : Disk δ α) (sr : ℚ) (n : Nat) : ∀ (s s' : St δ) (cs : List (Chunk α)),
    s.run D sr n = some (cs, s') →
    s'.queue = s.queue.drop n ∧ s'.paused = last asPaused s.paused (s.queue.take n) ∧
    s'.loop = last asLoop s.loop (s.queue.take n) ∧ s'.rate = last asRate s.rate (s.queue.take n) := by
  induction n with
  | zero =>
    intro s s' cs h
    injection h with h
    injection h with _ h
    subst h
    simp [last]
  | succ n ih =>
    intro s s' cs h
    simp only [St.run] at h
    cases hx : s.next D sr with
    | none => rw [hx] at h; cases h
    | some x =>
      rw [hx, Option.bind_some] at h
      cases hy : x.2.run D sr n with
      | none => rw [hy] at h; cases h
      | some y =>
        rw [hy] at h
        simp only [Option.map_some, Option.some.injEq, Prod.mk.injEq] at h
        obtain ⟨_, h⟩ := h
        subst h
        obtain ⟨i1, i2, i3, i4⟩ := ih x.2 y.2 y.1 hy
        obtain ⟨k1, k2, k3, k4⟩ := produce_keeps D sr _ x hx
        rw [k1] at i1 i2 i3 i4
        rw [i1, i2, i3, i4, k2, k3, k4]
        cases hq : s.queue with
        | nil => simp [St.recv, hq, last]
        | cons m ms =>
          simp only [St.recv, hq, List.drop_succ_cons, List.take_succ_cons, last_cons]
          cases m <;> simp [St.handle, asPaused, asLoop, asRate]

/-- C73: a paused element yields silence, and neither the position in the file nor the time move, until a message to play or to
seek arrives. -/
theorem C73_paused (D : Disk δ α) (sr : ℚ) (n : Nat) : ∀ (s : St δ), s.paused = true →
    (∀ m ∈ s.queue.take n, m ≠ .play ∧ ∀ t, m ≠ .seek t) →
    ∃ s', s.run D sr n = some (List.replicate n .silence, s') ∧ s'.disk = s.disk ∧ s'.time = s.time := by
  induction n with
  | zero => intro s _ _; exact ⟨s, rfl, rfl, rfl⟩
  | succ n ih =>
    intro s hp hm
    have hrecv : (s.recv D sr).paused = true ∧ (s.recv D sr).disk = s.disk ∧ (s.recv D sr).time = s.time ∧
        (s.recv D sr).queue = s.queue.tail := by
      unfold St.recv
      cases hq : s.queue with
      | nil => exact ⟨hp, rfl, rfl, hq⟩
      | cons m ms =>
        obtain ⟨h1, h2⟩ := hm m (by simp [hq])
        cases m with
        | seek t => exact absurd rfl (h2 t)
        | play => exact absurd rfl h1
        | setLoop b => exact ⟨hp, rfl, rfl, rfl⟩
        | pause => exact ⟨rfl, rfl, rfl, rfl⟩
        | setRate r => exact ⟨hp, rfl, rfl, rfl⟩
    obtain ⟨r1, r2, r3, r4⟩ := hrecv
    have hnext : s.next D sr = some (.silence, s.recv D sr) := by
      simp [St.next, St.produce, r1]
    obtain ⟨s', e1, e2, e3⟩ := ih (s.recv D sr) r1 (by
      intro m h
      refine hm m ?_
      rw [r4] at h
      cases hq : s.queue with
      | nil => rw [hq] at h; simp at h
      | cons a as =>
        rw [hq] at h
        rw [List.take_succ_cons]
        exact List.mem_cons_of_mem _ h)
    refine ⟨s', ?_, e2.trans r2, e3.trans r3⟩
    simp [St.run, hnext, e1, List.replicate_succ]

/-- C73, negated: the comment of `new` says that up to 32 messages are handled per render quantum. With `k` messages before it
`play` takes effect after `k` chunks of silence. -/
theorem C73_batch_negated (D : Disk δ α) (sr : ℚ) (d : δ) (k : Nat) (hk : k < 32) :
    ∃ s : St δ, ((List.replicate k (Msg.setLoop true) ++ [Msg.play]).foldlM St.send (St.new d)) = some s ∧
      ∃ s', s.run D sr k = some (List.replicate k .silence, s') ∧ s'.queue = [Msg.play] := by
  have key : ∀ (ms : List Msg) (s : St δ), s.queue.length + ms.length ≤ 32 →
      ms.foldlM St.send s = some { s with queue := s.queue ++ ms } := by
    intro ms
    induction ms with
    | nil => intro s _; simp
    | cons m ms ih =>
      intro s h
      simp only [List.length_cons] at h
      rw [List.foldlM_cons]
      have : s.send m = some { s with queue := s.queue ++ [m] } := by
        simp only [St.send]
        rw [if_pos (by omega)]
      rw [this]
      simp only [Option.bind_eq_bind, Option.bind_some]
      rw [ih _ (by simp; omega)]
      simp
  refine ⟨{ St.new d with queue := List.replicate k (Msg.setLoop true) ++ [.play] }, ?_, ?_⟩
  · rw [key _ _ (by simp [St.new]; omega)]; rfl
  · obtain ⟨s', h1, _, _⟩ := C73_paused D sr k { St.new d with queue := List.replicate k (Msg.setLoop true) ++ [.play] } rfl
      (by
        intro m hm
        rw [List.take_append_of_le_length (by simp)] at hm
        have := List.eq_of_mem_replicate (List.mem_of_mem_take hm)
        subst this
        exact ⟨(fun h => by cases h), (fun t h => by cases h)⟩)
    refine ⟨s', h1, ?_⟩
    rw [(C73_messages D sr k _ _ _ h1).1]
    simp

/-! ## Sound -/

theorem next_playing (D : Disk δ α) (sr : ℚ) (s : St δ) (hq : s.queue = []) : s.next D sr = s.produce D sr := by
  simp [St.next, St.recv, hq]

/-- C73: an element that plays at rate 1 yields the frames of the file from its position on, all of them and in order, and
its time moves with the position. -/
theorem C73_play_partial (D : Disk δ α) (file : List α) (pos : δ → Nat) (hf : File D file pos) (sr : ℚ)
    (hsr : validRate sr = true) (n : Nat) : ∀ (s : St δ), s.queue = [] → s.paused = false → s.rate = 1 → s.loop = false →
    pos s.disk + 128 * n ≤ file.length →
    ∃ cs s', s.run D sr n = some (cs, s') ∧ cs.length = n ∧ frames cs = (file.drop (pos s.disk)).take (128 * n) ∧
      pos s'.disk = pos s.disk + 128 * n ∧ s'.time - s.time = (pos s'.disk - pos s.disk) / sr := by
  induction n with
  | zero => intro s _ _ _ _ _; exact ⟨[], s, rfl, rfl, by simp [frames], by simp, by simp⟩
  | succ n ih =>
    intro s hq hp hr hl hle
    obtain ⟨d', e1, e2⟩ := hf.read s.disk 128 (by omega)
    have h128 : ⌊(128 : ℚ) * |s.rate|⌋₊ = 128 := by rw [hr]; norm_num
    have hnext : s.next D sr = some (.audio ((file.drop (pos s.disk)).take 128) sr,
        { s with disk := d', time := s.time + 128 / sr }) := by
      rw [next_playing D sr s hq]
      unfold St.produce
      rw [h128, e1]
      simp [hp, hr, hl, hsr]
    have hpos : pos d' = pos s.disk + 128 := by rw [e2]; omega
    obtain ⟨cs, s', r1, r2, r3, r4, r5⟩ := ih { s with disk := d', time := s.time + 128 / sr } hq hp hr hl
      (by show pos d' + _ ≤ _; omega)
    simp only at r3 r4 r5
    refine ⟨_ :: cs, s', by simp only [St.run, hnext, Option.bind_some]; rw [r1]; rfl, by simp [r2], ?_, by omega, ?_⟩
    · simp only [frames]
      rw [r3, hpos, show 128 * (n + 1) = 128 + 128 * n by ring, List.take_add, List.drop_drop]
    · have h5 := r5
      rw [hpos] at h5
      push_cast at h5
      have : ((128 : ℚ)) / sr = 128 / sr := rfl
      rw [show s'.time - s.time = (s'.time - (s.time + 128 / sr)) + 128 / sr by ring, h5, ← add_div]
      congr 1
      ring

/-- C73: a new element that is told to play yields the file from its beginning at rate 1, without looping; its time is
the position in the file. -/
theorem C73_new_partial (D : Disk δ α) (file : List α) (pos : δ → Nat) (hf : File D file pos) (sr : ℚ)
    (hsr : validRate sr = true) (d : δ) (hd : pos d = 0) (n : Nat) (hn : 128 * n ≤ file.length) :
    ∃ s, (St.new d).send .play = some s ∧ ∃ cs s', s.run D sr n = some (cs, s') ∧ cs.length = n ∧
      frames cs = file.take (128 * n) ∧ (0 < n → pos s'.disk = 128 * n ∧ s'.time = pos s'.disk / sr) := by
  refine ⟨{ St.new d with queue := [.play] }, rfl, ?_⟩
  cases n with
  | zero => exact ⟨[], _, rfl, rfl, by simp [frames], by simp⟩
  | succ n =>
    obtain ⟨cs, s', h1, h2, h3, h4, h5⟩ := C73_play_partial D file pos hf sr hsr (n + 1)
      { St.new d with paused := false } rfl rfl rfl rfl (by show pos d + _ ≤ _; omega)
    have e : ({ St.new d with queue := [.play] } : St δ).next D sr =
        ({ St.new d with paused := false } : St δ).next D sr := rfl
    refine ⟨cs, s', ?_, h2, ?_, fun _ => ?_⟩
    · rw [← h1]
      simp only [St.run, e]
    · have : pos ({ St.new d with paused := false } : St δ).disk = 0 := hd
      rw [h3, this, List.drop_zero]
    · have e0 : pos ({ St.new d with paused := false } : St δ).disk = 0 := hd
      rw [e0] at h4 h5
      refine ⟨by omega, ?_⟩
      have : s'.time - 0 = ((pos s'.disk : ℚ) - (0 : Nat)) / sr := h5
      simpa using this

/-- C73: an element that loops at rate 1 yields the file again and again without a gap, and its time is the position in the
file. -/
theorem C73_loop (D : Disk δ α) (file : List α) (pos : δ → Nat) (hf : File D file pos) (sr : ℚ)
    (hsr : validRate sr = true) (n : Nat) : ∀ (s : St δ), s.queue = [] → s.paused = false → s.rate = 1 →
    s.loop = true → pos s.disk < file.length → s.time = pos s.disk / sr →
    ∃ cs s' k, s.run D sr n = some (cs, s') ∧ cs.length = n ∧ (∀ c ∈ cs, ∃ fs, c = .audio fs sr ∧ fs ≠ []) ∧
      file.take (pos s.disk) ++ frames cs = (List.replicate k file).flatten ++ file.take (pos s'.disk) ∧
      pos s'.disk < file.length ∧ s'.time = pos s'.disk / sr := by
  induction n with
  | zero => intro s _ _ _ _ hlt ht; exact ⟨[], s, 0, rfl, rfl, (fun c hc => by cases hc), by simp [frames], hlt, ht⟩
  | succ n ih =>
    intro s hq hp hr hl hlt ht
    obtain ⟨d', e1, e2⟩ := hf.read s.disk 128 hlt
    have h128 : ⌊(128 : ℚ) * |s.rate|⌋₊ = 128 := by rw [hr]; norm_num
    have hfs : (file.drop (pos s.disk)).take 128 ≠ [] := by
      intro hc
      have := congrArg List.length hc
      rw [List.length_take, List.length_drop, List.length_nil] at this
      omega
    by_cases he : file.length ≤ pos s.disk + 128
    · have hnext : s.next D sr = some (.audio ((file.drop (pos s.disk)).take 128) sr,
          { s with disk := D.seek d' 0, time := 0 }) := by
        rw [next_playing D sr s hq]
        unfold St.produce
        rw [h128, e1]
        simp [hp, hr, hl, hsr, he]
      have hpos : pos (D.seek d' 0) = 0 := hf.seek d' 0
      have hl0 : 0 < file.length := by omega
      obtain ⟨cs, s', k, r1, r2, r3, r4, r5, r6⟩ := ih { s with disk := D.seek d' 0, time := 0 } hq hp hr hl
        (by show pos (D.seek d' 0) < _; omega) (by show (0 : ℚ) = pos (D.seek d' 0) / sr; rw [hpos]; simp)
      simp only at r4
      rw [hpos, List.take_zero, List.nil_append] at r4
      refine ⟨_ :: cs, s', k + 1, by simp only [St.run, hnext, Option.bind_some]; rw [r1]; rfl, by simp [r2], ?_, ?_, r5, r6⟩
      · intro c hc
        rcases List.mem_cons.mp hc with hc | hc
        · exact ⟨_, hc, hfs⟩
        · exact r3 c hc
      · simp only [frames]
        rw [r4, List.take_of_length_le (l := file.drop (pos s.disk)) (by rw [List.length_drop]; omega), ← List.append_assoc, List.take_append_drop,
          List.replicate_succ, List.flatten_cons, List.append_assoc]
    · have hnext : s.next D sr = some (.audio ((file.drop (pos s.disk)).take 128) sr,
          { s with disk := d', time := s.time + 128 / sr }) := by
        rw [next_playing D sr s hq]
        unfold St.produce
        rw [h128, e1]
        simp [hp, hr, hsr, he]
      have hpos : pos d' = pos s.disk + 128 := by rw [e2]; omega
      obtain ⟨cs, s', k, r1, r2, r3, r4, r5, r6⟩ := ih { s with disk := d', time := s.time + 128 / sr } hq hp hr hl
        (by show pos d' < _; omega) (by show s.time + 128 / sr = pos d' / sr; rw [ht, hpos]; push_cast; ring)
      simp only at r4
      refine ⟨_ :: cs, s', k, by simp only [St.run, hnext, Option.bind_some]; rw [r1]; rfl, by simp [r2], ?_, ?_, r5, r6⟩
      · intro c hc
        rcases List.mem_cons.mp hc with hc | hc
        · exact ⟨_, hc, hfs⟩
        · exact r3 c hc
      · simp only [frames]
        rw [← r4, hpos, List.take_add, List.append_assoc]

/-- C73, negated: at a rate other than 1 the time is not the position: at rate 2 it lags behind by half. -/
theorem C73_time_rate_negated (D : Disk δ α) (file : List α) (pos : δ → Nat) (hf : File D file pos) (sr : ℚ)
    (hsr : validRate (sr * 2) = true) (hsr0 : 0 < sr) (s : St δ) (hq : s.queue = []) (hp : s.paused = false)
    (hr : s.rate = 2) (hl : s.loop = false) (hpos : pos s.disk + 256 ≤ file.length) (ht : s.time = pos s.disk / sr) :
    ∃ c s', s.next D sr = some (c, s') ∧ pos s'.disk = pos s.disk + 256 ∧ s'.time = (pos s.disk + 128) / sr ∧
      s'.time ≠ pos s'.disk / sr := by
  obtain ⟨d', e1, e2⟩ := hf.read s.disk 256 (by omega)
  have h256 : ⌊(128 : ℚ) * |s.rate|⌋₊ = 256 := by rw [hr]; norm_num
  have hpos' : pos d' = pos s.disk + 256 := by rw [e2]; omega
  refine ⟨.audio ((file.drop (pos s.disk)).take 256) (sr * 2), { s with disk := d', time := s.time + 128 / sr }, ?_, hpos', ?_, ?_⟩
  · rw [next_playing D sr s hq]
    unfold St.produce
    rw [h256, e1]
    simp [hp, hr, hl, hsr]
  · show s.time + 128 / sr = _
    rw [ht, add_div]
  · show s.time + 128 / sr ≠ pos d' / sr
    rw [ht, hpos', ← add_div]
    intro hc
    rw [div_left_inj' hsr0.ne'] at hc
    push_cast at hc
    linarith

/-- C73, negated: without loop the time runs past the end of a file whose length is not a multiple of 128. -/
theorem C73_time_end_negated (D : Disk δ α) (file : List α) (pos : δ → Nat) (hf : File D file pos) (sr : ℚ)
    (hsr : validRate sr = true) (hsr0 : 0 < sr) (s : St δ) (hq : s.queue = []) (hp : s.paused = false) (hr : s.rate = 1)
    (hl : s.loop = false) (h1 : pos s.disk < file.length) (h2 : file.length < pos s.disk + 128)
    (ht : s.time = pos s.disk / sr) :
    ∃ c s', s.next D sr = some (c, s') ∧ (file.length : ℚ) / sr < s'.time := by
  obtain ⟨d', e1, e2⟩ := hf.read s.disk 128 h1
  have h128 : ⌊(128 : ℚ) * |s.rate|⌋₊ = 128 := by rw [hr]; norm_num
  refine ⟨.audio ((file.drop (pos s.disk)).take 128) sr, { s with disk := d', time := s.time + 128 / sr }, ?_, ?_⟩
  · rw [next_playing D sr s hq]
    unfold St.produce
    rw [h128, e1]
    simp [hp, hr, hl, hsr]
  · show _ < s.time + 128 / sr
    rw [ht, ← add_div]
    apply div_lt_div_of_pos_right _ hsr0
    exact_mod_cast h2

/-- C73: `next` panics, on the render thread, exactly if it plays a part of the file at a rate that makes the sample rate of the
chunk invalid. -/
theorem C73_panic (D : Disk δ α) (sr : ℚ) (s : St δ) :
    s.next D sr = none ↔ (s.recv D sr).paused = false ∧
      (D.read (s.recv D sr).disk ⌊128 * |(s.recv D sr).rate|⌋₊).1 ≠ none ∧
      ¬ (3000 ≤ sr * |(s.recv D sr).rate| ∧ sr * |(s.recv D sr).rate| ≤ 768000) := by
  have hv : ∀ r : ℚ, validRate r = true ↔ (3000 ≤ r ∧ r ≤ 768000) := by simp [validRate]
  unfold St.next St.produce
  generalize s.recv D sr = t
  cases hp : t.paused with
  | true => simp
  | false =>
    simp only [Bool.false_eq_true, if_false, true_and]
    rcases hd : D.read t.disk ⌊128 * |t.rate|⌋₊ with ⟨_ | ⟨fs, eof⟩, d⟩
    · simp
    · simp only [← hv]
      cases hvr : validRate (sr * |t.rate|) with
      | false => simp
      | true =>
        cases t.loop <;> cases eof <;> simp

/-- C73, negated: a rate of zero, which should halt the playback, panics on the render thread; every file that plays meets
this. -/
theorem C73_rate_zero_negated (D : Disk δ α) (file : List α) (pos : δ → Nat) (hf : File D file pos) (sr : ℚ) (s : St δ)
    (hp : s.paused = false) (hq : s.queue = [.setRate 0]) (h1 : pos s.disk < file.length) : s.next D sr = none := by
  rw [C73_panic]
  have hr : s.recv D sr = { s with queue := [], rate := 0 } := by simp [St.recv, hq, St.handle]
  obtain ⟨d', e1, _⟩ := hf.read s.disk 0 h1
  rw [hr]
  refine ⟨hp, ?_, by norm_num⟩
  simp only [abs_zero, mul_zero, Nat.floor_zero, e1]
  simp

/-- C73, negated: a negative rate plays forwards. -/
theorem C73_reverse_negated (D : Disk δ α) (sr : ℚ) (s : St δ) :
    (St.produce D sr { s with rate := -s.rate }).map (fun x => (x.1, x.2.disk, x.2.time)) =
      (s.produce D sr).map fun x => (x.1, x.2.disk, x.2.time) := by
  unfold St.produce
  simp only [abs_neg]
  cases s.paused with
  | true => rfl
  | false =>
    simp only [Bool.false_eq_true, if_false]
    rcases D.read s.disk ⌊128 * |s.rate|⌋₊ with ⟨_ | ⟨fs, eof⟩, d⟩
    · rfl
    · simp only
      cases validRate (sr * |s.rate|) with
      | false => rfl
      | true => cases s.loop <;> cases eof <;> rfl

/-- C73, negated: a seek to a negative time is reported as such, although the file is read from its beginning. -/
theorem C73_seek_negated (D : Disk δ α) (file : List α) (pos : δ → Nat) (hf : File D file pos) (sr : ℚ) (hsr : 0 < sr)
    (s : St δ) (t : ℚ) (ht : t < 0) (hp : s.paused = true) (hq : s.queue = [.seek t]) :
    ∃ s', s.next D sr = some (.silence, s') ∧ s'.time = t ∧ pos s'.disk = 0 := by
  refine ⟨{ s with queue := [], time := t, disk := D.seek s.disk ⌊t * sr⌋₊ }, ?_, rfl, ?_⟩
  · simp [St.next, St.recv, hq, St.handle, St.produce, hp]
  · show pos (D.seek _ _) = 0
    rw [hf.seek]
    exact Nat.floor_of_nonpos (by nlinarith)

/-! ## Examples -/

/-- A reader as assumed. -/
def memory (file : List α) : Disk Nat α :=
  ⟨fun p n => if p < file.length then (some ((file.drop p).take n, decide (file.length ≤ p + n)), min (p + n) file.length)
    else (none, p), fun _ k => k⟩

theorem memory_file (file : List α) : File (memory file) file id := by
  constructor
  · intro d k; rfl
  · intro d n h
    refine ⟨min (d + n) file.length, ?_, rfl⟩
    show (if d < file.length then _ else _) = _
    rw [if_pos (show d < file.length from h)]
    rfl

/-- A file of three frames that loops. -/
example : ∃ s', (St.run (memory [1, 2, 3]) 48000 3 ⟨0, [.setLoop true, .play], 0, false, true, 1⟩) =
    some ([Chunk.silence, .audio [1, 2, 3] 48000, .audio [1, 2, 3] 48000], s') ∧ s'.time = 0 := by
  refine ⟨⟨0, [], 0, true, false, 1⟩, ?_, rfl⟩
  have : ⌊(128 : ℚ)⌋₊ = 128 := by norm_num
  simp [St.run, St.next, St.recv, St.handle, St.produce, memory, validRate, this]
  norm_num

end Verif.Media.Element
