import Verif.Buffer.Track

/-!
# C72: recording a media stream

Models `MediaRecorder` (`/repo/src/media_recorder/mod.rs` l.62-131, l.252-302): control thread and recorder threads in
small steps, with the track of `Buffer/Track.lean`. A chunk `b : β` is encoded as the bytes `enc b`, the file header for it
is `hdr b`. `flush` holds the lock of the data while it runs, so it is one step; `stop` (the flag and the callback) is one
step; a thread can stop anywhere in between. The recorder records the first track only. Timecodes are not modelled.
Callbacks are recorded as events; those that call the recorder again are in `Media/RecorderProps.lean`, `Lock`.
-/

namespace Verif.Media.Recorder

open Verif.Buffer

variable {β τ : Type}

/-- an item of the track -/
inductive Item (β : Type)
  | ok (b : β)
  | err
  deriving DecidableEq, Repr

/-- what the callbacks report -/
inductive Ev (τ : Type)
  | data (blob : List τ)
  | error
  | stop
  deriving DecidableEq, Repr

/-- program counter of a recorder thread, l.264-295 -/
inductive Pc (β : Type)
  /-- before the first item, l.265 -/
  | first
  /-- with the first item, l.274-276 -/
  | begin (b : β)
  /-- before the next item, l.278 -/
  | loop
  /-- with an item, l.279-289 -/
  | got (x : Item β)
  /-- before `record`, l.291 -/
  | chunk (b : β)
  /-- in `record`, before `flush`, l.77-79 -/
  | flushing
  /-- the stream has ended, l.294 -/
  | endFlush
  /-- after that, l.295 -/
  | endStop
  /-- `handle_error` before `flush`, l.84 -/
  | errFlush
  /-- before the callback, l.86-94 -/
  | errCall
  /-- before `stop`, l.96 -/
  | errStop
  | done
  deriving DecidableEq, Repr

/-- The state: `MediaRecorderInner`, l.62-69, the track, the threads and where the control thread is in `stop`. -/
structure St (β τ : Type) where
  track : Track.St (Item β)
  threads : List (Pc β)
  blob : List τ
  active : Bool
  events : List (Ev τ)
  onData : Bool
  onError : Bool
  onStop : Bool
  stopping : Bool

/-- `MediaRecorder::new`, l.196-215, followed by the setters of the callbacks -/
def St.new (items : List (Item β)) : St β τ := ⟨Track.St.new items, [], [], false, [], true, true, true, false⟩

/-- `flush`, l.99-122 -/
def St.flush (s : St β τ) : St β τ :=
  { s with blob := [], events := if s.onData then s.events ++ [.data s.blob] else s.events }

/-- `stop` of the inner struct, l.124-130 -/
def St.stop (s : St β τ) : St β τ :=
  { s with active := false, onStop := false, events := if s.onStop then s.events ++ [.stop] else s.events }

/-- the error callback, l.86-94 -/
def St.fail (s : St β τ) : St β τ :=
  { s with onError := false, events := if s.onError then s.events ++ [.error] else s.events }

def St.setPc (s : St β τ) (k : Nat) (p : Pc β) : St β τ := { s with threads := s.threads.set k p }

/-- One step of thread `k`, l.264-295. `limit` is 128 KiB. -/
def St.thread (hdr enc : β → List τ) (limit : Nat) (s : St β τ) (k : Nat) : Option (St β τ) :=
  match s.threads[k]? with
  | none => none
  | some .done => none
  | some .first =>
    match s.track.next k with
    | (none, t) => some ({ s with track := t }.setPc k .done)
    | (some .err, t) => some ({ s with track := t }.setPc k .errFlush)
    | (some (.ok b), t) => some ({ s with track := t }.setPc k (.begin b))
  | some (.begin b) => some ({ s with blob := hdr b ++ enc b }.setPc k .loop)
  | some .loop =>
    match s.track.next k with
    | (none, t) => some ({ s with track := t }.setPc k .endFlush)
    | (some x, t) => some ({ s with track := t }.setPc k (.got x))
  | some (.got x) =>
    if s.active then
      match x with
      | .err => some (s.setPc k .errFlush)
      | .ok b => some (s.setPc k (.chunk b))
    else some (s.setPc k .done)
  | some (.chunk b) =>
    let blob := s.blob ++ enc b
    some ({ s with blob := blob }.setPc k (if blob.length > limit then .flushing else .loop))
  | some .flushing => some (s.flush.setPc k .loop)
  | some .endFlush => some (s.flush.setPc k .endStop)
  | some .endStop => some (s.stop.setPc k .done)
  | some .errFlush => some (s.flush.setPc k .errCall)
  | some .errCall => some (s.fail.setPc k .errStop)
  | some .errStop => some (s.stop.setPc k .done)

/-- steps of the system -/
inductive Act
  /-- `start`, l.252-297; not possible (panic) if active -/
  | start
  /-- `stop`, first part, l.300 -/
  | stopFlush
  /-- `stop`, second part, l.301 -/
  | stopFinish
  | thread (k : Nat)
  deriving DecidableEq, Repr

def St.step (hdr enc : β → List τ) (limit : Nat) (s : St β τ) : Act → Option (St β τ)
  | .start => if s.active then none else some { s with active := true, threads := s.threads ++ [.first] }
  | .stopFlush => if s.stopping then none else some { s.flush with stopping := true }
  | .stopFinish => if s.stopping then some { s.stop with stopping := false } else none
  | .thread k => s.thread hdr enc limit k

def St.run (hdr enc : β → List τ) (limit : Nat) (s : St β τ) : List Act → Option (St β τ)
  | [] => some s
  | a :: rest => (s.step hdr enc limit a).bind fun s' => s'.run hdr enc limit rest

/-! ## Specification -/

/-- the bytes delivered -/
def delivered : List (Ev τ) → List τ
  | [] => []
  | .data b :: rest => b ++ delivered rest
  | _ :: rest => delivered rest

/-- the chunks before the first error -/
def chunks : List (Item β) → List β
  | .ok b :: rest => b :: chunks rest
  | _ => []

/-- the file: a header for the first chunk, and all chunks -/
def file (hdr enc : β → List τ) (items : List (Item β)) : List τ :=
  match chunks items with
  | [] => []
  | b :: bs => hdr b ++ ((b :: bs).map enc).flatten

/-- the bytes of chunks -/
def bytes (enc : β → List τ) (items : List (Item β)) : List τ := ((chunks items).map enc).flatten

/-- events after the data: nothing while recording -/
def isData : Ev τ → Bool
  | .data _ => true
  | _ => false

theorem delivered_append (a b : List (Ev τ)) : delivered (a ++ b) = delivered a ++ delivered b := by
  induction a with
  | nil => rfl
  | cons x xs ih => cases x <;> simp [delivered, ih]

/-! ## One recording -/

/-- The invariant for a single recording: what is delivered, in the blob and in the hands of the thread is the file, as
long as the thread runs; a prefix of it afterwards. `noStop` is "the control thread has not called `stop`". -/
def Inv (hdr enc : β → List τ) (items : List (Item β)) (noStop : Bool) (s : St β τ) : Prop :=
  s.onData = true ∧
  (s.threads.length ≤ 1) ∧ (s.track.ended = false → s.track.iter 0 = s.track.position) ∧
  (noStop = true → s.stopping = false) ∧
  match s.threads with
  | [] => s.track.provider = items ∧ s.track.ended = false ∧ delivered s.events = [] ∧ s.blob = [] ∧
      (noStop = true → s.events = [] ∧ s.active = false ∧ s.onStop = true ∧ s.onError = true)
  | p :: _ =>
    (noStop = true → p ≠ .done → s.active = true ∧ s.onStop = true) ∧
    (noStop = true → s.onError = true ∨ p = .errStop ∨ p = .done) ∧
    match p with
    | .first => s.track.provider = items ∧ s.track.ended = false ∧ delivered s.events = [] ∧ s.blob = [] ∧
        (noStop = true → s.events = [])
    | .begin b => s.track.ended = false ∧ delivered s.events = [] ∧ s.blob = [] ∧ items = .ok b :: s.track.provider ∧
        (noStop = true → s.events = [])
    | .loop => s.track.ended = false ∧
        delivered s.events ++ s.blob ++ bytes enc s.track.provider = file hdr enc items ∧
        (∃ b r, items = .ok b :: r) ∧ (.err ∈ items ↔ .err ∈ s.track.provider) ∧
        (noStop = true → s.events.all isData = true)
    | .flushing => s.track.ended = false ∧
        delivered s.events ++ s.blob ++ bytes enc s.track.provider = file hdr enc items ∧
        (∃ b r, items = .ok b :: r) ∧ (.err ∈ items ↔ .err ∈ s.track.provider) ∧
        (noStop = true → s.events.all isData = true)
    | .got x => s.track.ended = false ∧
        delivered s.events ++ s.blob ++ bytes enc (x :: s.track.provider) = file hdr enc items ∧
        (∃ b r, items = .ok b :: r) ∧ (.err ∈ items ↔ .err ∈ x :: s.track.provider) ∧
        (noStop = true → s.events.all isData = true)
    | .chunk b => s.track.ended = false ∧
        delivered s.events ++ s.blob ++ bytes enc (.ok b :: s.track.provider) = file hdr enc items ∧
        (∃ b r, items = .ok b :: r) ∧ (.err ∈ items ↔ .err ∈ s.track.provider) ∧
        (noStop = true → s.events.all isData = true)
    | .endFlush => delivered s.events ++ s.blob = file hdr enc items ∧ (∃ b r, items = .ok b :: r) ∧ .err ∉ items ∧
        (noStop = true → s.events.all isData = true)
    | .endStop => delivered s.events ++ s.blob = file hdr enc items ∧ (∃ b r, items = .ok b :: r) ∧ .err ∉ items ∧
        (noStop = true → s.events.all isData = true ∧ s.blob = [])
    | .errFlush => delivered s.events ++ s.blob = file hdr enc items ∧ .err ∈ items ∧
        (noStop = true → s.events.all isData = true)
    | .errCall => delivered s.events ++ s.blob = file hdr enc items ∧ .err ∈ items ∧
        (noStop = true → s.events.all isData = true ∧ s.blob = [] ∧ s.onError = true)
    | .errStop => delivered s.events ++ s.blob = file hdr enc items ∧ .err ∈ items ∧
        (noStop = true → (∃ d, s.events = d ++ [.error] ∧ d.all isData = true) ∧ s.blob = [])
    | .done => (delivered s.events ++ s.blob) <+: file hdr enc items ∧
        (noStop = true → items ≠ [] → delivered s.events = file hdr enc items ∧
          (.err ∉ items → ∃ d, s.events = d ++ [.stop] ∧ d.all isData = true) ∧
          (.err ∈ items → ∃ d, s.events = d ++ [.error, .stop] ∧ d.all isData = true))

theorem file_ok (hdr enc : β → List τ) (b : β) (r : List (Item β)) :
    file hdr enc (.ok b :: r) = hdr b ++ enc b ++ bytes enc r := by
  simp [file, chunks, bytes]

theorem file_first_err (hdr enc : β → List τ) (r : List (Item β)) : file hdr enc (.err :: r) = [] := rfl

theorem bytes_ok (enc : β → List τ) (b : β) (r : List (Item β)) : bytes enc (.ok b :: r) = enc b ++ bytes enc r := by
  simp [bytes, chunks]

theorem bytes_err (enc : β → List τ) (r : List (Item β)) : bytes enc (.err :: r) = [] := rfl

theorem flush_delivered (s : St β τ) (h : s.onData = true) : delivered s.flush.events = delivered s.events ++ s.blob := by
  simp [St.flush, h, delivered_append, delivered]

theorem flush_all (s : St β τ) (h : s.onData = true) (ha : s.events.all isData = true) :
    s.flush.events.all isData = true := by
  simp only [St.flush, h, if_true]
  rw [List.all_append, ha]; rfl

/-- the only iterator gets the next chunk of the provider -/
theorem next_only (t : Track.St (Item β)) (he : t.ended = false) (hp : t.iter 0 = t.position) :
    (t.provider = [] ∧ (t.next 0).1 = none ∧ (t.next 0).2.ended = true) ∨
    (∃ x r, t.provider = x :: r ∧ (t.next 0).1 = some x ∧ (t.next 0).2.provider = r ∧ (t.next 0).2.ended = false ∧
      (t.next 0).2.iter 0 = (t.next 0).2.position) := by
  cases hpr : t.provider with
  | nil => left; simp [Track.St.next, he, hp, hpr]
  | cons x r => right; exact ⟨x, r, rfl, by simp [Track.St.next, he, hp, hpr]⟩

theorem inv_thread (hdr enc : β → List τ) (limit : Nat) (items : List (Item β)) (n : Bool) (s s' : St β τ) (k : Nat)
    (h : Inv hdr enc items n s) (hs : s.thread hdr enc limit k = some s') : Inv hdr enc items n s' := by
  obtain ⟨i1, i2, i3, i4, i5⟩ := h
  cases ht : s.threads with
  | nil => simp [St.thread, ht] at hs
  | cons p ps =>
    rw [ht] at i5 i2
    have hps : ps = [] := by
      cases ps with
      | nil => rfl
      | cons _ _ => simp at i2
    subst hps
    have hk : k = 0 := by
      rcases Nat.eq_zero_or_pos k with h | h
      · exact h
      · have : ([p] : List (Pc β))[k]? = none := List.getElem?_eq_none (by simp; omega)
        simp [St.thread, ht, this] at hs
    subst hk
    simp only at i5
    obtain ⟨j1, j2, j3⟩ := i5
    unfold St.thread at hs
    rw [ht] at hs
    cases p with
    | done => simp at hs
    | first =>
      obtain ⟨a1, a2, a3, a4, a5⟩ := j3
      simp only [List.getElem?_cons_zero] at hs
      rcases next_only s.track a2 (i3 a2) with ⟨b1, b2, b3⟩ | ⟨x, r, b1, b2, b3, b4, b5⟩
      · have : s.track.next 0 = (none, (s.track.next 0).2) := by rw [← b2]
        rw [this] at hs
        simp only [Option.some.injEq] at hs
        subst hs
        refine ⟨i1, by simp [St.setPc, ht], ?_, i4, ?_⟩
        · intro hc; simp [St.setPc, b3] at hc
        · simp only [St.setPc, ht, List.set_cons_zero]
          refine ⟨fun _ hc => absurd rfl hc, fun _ => by simp, ?_, ?_⟩
          · rw [a3, a4]; exact List.nil_prefix
          · intro _ hc
            rw [a1] at b1
            exact absurd b1 hc
      · have : s.track.next 0 = (some x, (s.track.next 0).2) := by rw [← b2]
        rw [this] at hs
        cases x with
        | err =>
          simp only [Option.some.injEq] at hs
          subst hs
          refine ⟨i1, by simp [St.setPc, ht], fun _ => b5, i4, ?_⟩
          simp only [St.setPc, ht, List.set_cons_zero]
          refine ⟨fun hn _ => j1 hn (by simp), fun hn => ?_, ?_, ?_, ?_⟩
          · rcases j2 hn with h | h | h
            · exact Or.inl h
            · cases h
            · cases h
          · rw [a3, a4, ← a1, b1]; rfl
          · rw [← a1, b1]; simp
          · intro hn; rw [a5 hn]; rfl
        | ok b =>
          simp only [Option.some.injEq] at hs
          subst hs
          refine ⟨i1, by simp [St.setPc, ht], fun _ => b5, i4, ?_⟩
          simp only [St.setPc, ht, List.set_cons_zero]
          refine ⟨fun hn _ => j1 hn (by simp), fun hn => ?_, b4, a3, a4, ?_, a5⟩
          · rcases j2 hn with h | h | h
            · exact Or.inl h
            · cases h
            · cases h
          · rw [b3, ← a1, b1]
    | «begin» b =>
      obtain ⟨a1, a2, a3, a4, a5⟩ := j3
      simp only [List.getElem?_cons_zero, Option.some.injEq] at hs
      subst hs
      refine ⟨i1, by simp [St.setPc, ht], i3, i4, ?_⟩
      simp only [St.setPc, ht, List.set_cons_zero]
      refine ⟨fun hn _ => j1 hn (by simp), fun hn => ?_, a1, ?_, ⟨b, _, a4⟩, ?_, ?_⟩
      · rcases j2 hn with h | h | h
        · exact Or.inl h
        · cases h
        · cases h
      · rw [a2, a4, file_ok]; simp
      · rw [a4]; simp
      · intro hn; rw [a5 hn]; rfl
    | loop =>
      obtain ⟨a1, a2, a3, a4, a5⟩ := j3
      simp only [List.getElem?_cons_zero] at hs
      rcases next_only s.track a1 (i3 a1) with ⟨b1, b2, b3⟩ | ⟨x, r, b1, b2, b3, b4, b5⟩
      · have : s.track.next 0 = (none, (s.track.next 0).2) := by rw [← b2]
        rw [this] at hs
        simp only [Option.some.injEq] at hs
        subst hs
        refine ⟨i1, by simp [St.setPc, ht], ?_, i4, ?_⟩
        · intro hc; simp [St.setPc, b3] at hc
        · simp only [St.setPc, ht, List.set_cons_zero]
          refine ⟨fun hn _ => j1 hn (by simp), fun hn => ?_, ?_, a3, ?_, a5⟩
          · rcases j2 hn with h | h | h
            · exact Or.inl h
            · cases h
            · cases h
          · rw [← a2, b1]; simp [bytes, chunks]
          · intro he
            have := a4.mp he
            rw [b1] at this
            cases this
      · have : s.track.next 0 = (some x, (s.track.next 0).2) := by rw [← b2]
        rw [this] at hs
        simp only [Option.some.injEq] at hs
        subst hs
        refine ⟨i1, by simp [St.setPc, ht], fun _ => b5, i4, ?_⟩
        simp only [St.setPc, ht, List.set_cons_zero]
        refine ⟨fun hn _ => j1 hn (by simp), fun hn => ?_, b4, ?_, a3, ?_, a5⟩
        · rcases j2 hn with h | h | h
          · exact Or.inl h
          · cases h
          · cases h
        · rw [b3, ← b1]; exact a2
        · rw [b3, ← b1]; exact a4
    | got x =>
      obtain ⟨a1, a2, a3, a4, a5⟩ := j3
      simp only [List.getElem?_cons_zero] at hs
      have j2' : n = true → s.onError = true := fun hn => by
        rcases j2 hn with h | h | h
        · exact h
        · cases h
        · cases h
      split at hs
      · cases x with
        | err =>
          simp only [Option.some.injEq] at hs
          subst hs
          refine ⟨i1, by simp [St.setPc, ht], i3, i4, ?_⟩
          simp only [St.setPc, ht, List.set_cons_zero]
          refine ⟨fun hn _ => j1 hn (by simp), fun hn => Or.inl (j2' hn), ?_, a4.mpr (by simp), a5⟩
          rw [← a2, bytes_err, List.append_nil]
        | ok b =>
          simp only [Option.some.injEq] at hs
          subst hs
          refine ⟨i1, by simp [St.setPc, ht], i3, i4, ?_⟩
          simp only [St.setPc, ht, List.set_cons_zero]
          exact ⟨fun hn _ => j1 hn (by simp), fun hn => Or.inl (j2' hn), a1, a2, a3, by rw [a4]; simp, a5⟩
      · rename_i hact
        simp only [Option.some.injEq] at hs
        subst hs
        refine ⟨i1, by simp [St.setPc, ht], i3, i4, ?_⟩
        simp only [St.setPc, ht, List.set_cons_zero]
        refine ⟨fun _ hc => absurd rfl hc, fun _ => by simp, ⟨_, a2⟩, ?_⟩
        intro hn
        exact absurd (j1 hn (by simp)).1 hact
    | chunk b =>
      obtain ⟨a1, a2, a3, a4, a5⟩ := j3
      simp only [List.getElem?_cons_zero, Option.some.injEq] at hs
      subst hs
      have j2' : n = true → s.onError = true := fun hn => by
        rcases j2 hn with h | h | h
        · exact h
        · cases h
        · cases h
      refine ⟨i1, by simp [St.setPc, ht], i3, i4, ?_⟩
      have e : delivered s.events ++ (s.blob ++ enc b) ++ bytes enc s.track.provider = file hdr enc items := by
        rw [← a2, bytes_ok]; simp
      simp only [St.setPc, ht, List.set_cons_zero]
      split
      · exact ⟨fun hn _ => j1 hn (by simp), fun hn => Or.inl (j2' hn), a1, e, a3, a4, a5⟩
      · exact ⟨fun hn _ => j1 hn (by simp), fun hn => Or.inl (j2' hn), a1, e, a3, a4, a5⟩
    | flushing =>
      obtain ⟨a1, a2, a3, a4, a5⟩ := j3
      simp only [List.getElem?_cons_zero, Option.some.injEq] at hs
      subst hs
      refine ⟨i1, by simp [St.setPc, St.flush, ht], i3, i4, ?_⟩
      have hd := flush_delivered s i1
      simp only [St.setPc, St.flush, ht, List.set_cons_zero] at hd ⊢
      refine ⟨fun hn _ => j1 hn (by simp), fun hn => ?_, a1, ?_, a3, a4, fun hn => flush_all s i1 (a5 hn)⟩
      · rcases j2 hn with h | h | h
        · exact Or.inl h
        · cases h
        · cases h
      · rw [hd, List.append_nil]; exact a2
    | endFlush =>
      obtain ⟨a1, a2, a3, a4⟩ := j3
      simp only [List.getElem?_cons_zero, Option.some.injEq] at hs
      subst hs
      refine ⟨i1, by simp [St.setPc, St.flush, ht], i3, i4, ?_⟩
      have hd := flush_delivered s i1
      simp only [St.setPc, St.flush, ht, List.set_cons_zero] at hd ⊢
      refine ⟨fun hn _ => j1 hn (by simp), fun hn => ?_, ?_, a2, a3, fun hn => ⟨flush_all s i1 (a4 hn), by simp⟩⟩
      · rcases j2 hn with h | h | h
        · exact Or.inl h
        · cases h
        · cases h
      · rw [hd, List.append_nil]; exact a1
    | endStop =>
      obtain ⟨a1, a2, a3, a4⟩ := j3
      simp only [List.getElem?_cons_zero, Option.some.injEq] at hs
      subst hs
      refine ⟨i1, by simp [St.setPc, St.stop, ht], i3, i4, ?_⟩
      have hd : delivered s.stop.events = delivered s.events := by
        simp only [St.stop]; split
        · simp [delivered_append, delivered]
        · rfl
      simp only [St.setPc, St.stop, ht, List.set_cons_zero] at hd ⊢
      refine ⟨fun _ hc => absurd rfl hc, fun _ => by simp, ?_, ?_⟩
      · rw [hd, a1]; exact List.prefix_rfl
      · intro hn _
        rw [hd]
        have hb := (a4 hn).2
        rw [hb, List.append_nil] at a1
        refine ⟨a1, fun _ => ⟨s.events, ?_, (a4 hn).1⟩, fun hc => absurd hc a3⟩
        rw [if_pos (j1 hn (by simp)).2]
    | errFlush =>
      obtain ⟨a1, a2, a3⟩ := j3
      simp only [List.getElem?_cons_zero, Option.some.injEq] at hs
      subst hs
      refine ⟨i1, by simp [St.setPc, St.flush, ht], i3, i4, ?_⟩
      have hd := flush_delivered s i1
      simp only [St.setPc, St.flush, ht, List.set_cons_zero] at hd ⊢
      have j2' : n = true → s.onError = true := fun hn => by
        rcases j2 hn with h | h | h
        · exact h
        · cases h
        · cases h
      refine ⟨fun hn _ => j1 hn (by simp), fun hn => Or.inl (j2' hn), ?_, a2,
        fun hn => ⟨flush_all s i1 (a3 hn), by simp, j2' hn⟩⟩
      rw [hd, List.append_nil]; exact a1
    | errCall =>
      obtain ⟨a1, a2, a3⟩ := j3
      simp only [List.getElem?_cons_zero, Option.some.injEq] at hs
      subst hs
      refine ⟨i1, by simp [St.setPc, St.fail, ht], i3, i4, ?_⟩
      have hd : delivered s.fail.events = delivered s.events := by
        simp only [St.fail]; split
        · simp [delivered_append, delivered]
        · rfl
      simp only [St.setPc, St.fail, ht, List.set_cons_zero] at hd ⊢
      refine ⟨fun hn _ => j1 hn (by simp), fun _ => by simp, ?_, a2, ?_⟩
      · rw [hd]; exact a1
      · intro hn
        obtain ⟨c1, c2, c3⟩ := a3 hn
        rw [if_pos c3]
        exact ⟨⟨s.events, rfl, c1⟩, c2⟩
    | errStop =>
      obtain ⟨a1, a2, a3⟩ := j3
      simp only [List.getElem?_cons_zero, Option.some.injEq] at hs
      subst hs
      refine ⟨i1, by simp [St.setPc, St.stop, ht], i3, i4, ?_⟩
      have hd : delivered s.stop.events = delivered s.events := by
        simp only [St.stop]; split
        · simp [delivered_append, delivered]
        · rfl
      simp only [St.setPc, St.stop, ht, List.set_cons_zero] at hd ⊢
      refine ⟨fun _ hc => absurd rfl hc, fun _ => by simp, ?_, ?_⟩
      · rw [hd, a1]; exact List.prefix_rfl
      · intro hn _
        rw [hd]
        obtain ⟨⟨d, d1, d2⟩, hb⟩ := a3 hn
        rw [hb, List.append_nil] at a1
        refine ⟨a1, fun hc => absurd a2 hc, fun _ => ⟨d, ?_, d2⟩⟩
        rw [if_pos (j1 hn (by simp)).2, d1]
        simp

theorem stop_delivered (s : St β τ) : delivered s.stop.events = delivered s.events := by
  simp only [St.stop]; split
  · simp [delivered_append, delivered]
  · rfl

theorem inv_step (hdr enc : β → List τ) (limit : Nat) (items : List (Item β)) (n : Bool) (s s' : St β τ) (a : Act)
    (h : Inv hdr enc items n s) (hs : s.step hdr enc limit a = some s') (h1 : a = .start → s.threads = [])
    (h2 : n = true → a ≠ .stopFlush ∧ a ≠ .stopFinish) : Inv hdr enc items n s' := by
  cases a with
  | thread k => exact inv_thread hdr enc limit items n s s' k h hs
  | start =>
    obtain ⟨i1, i2, i3, i4, i5⟩ := h
    have ht := h1 rfl
    rw [ht] at i5
    obtain ⟨a1, a2, a3, a4, a5⟩ := i5
    simp only [St.step] at hs
    split at hs
    · cases hs
    · injection hs with hs
      subst hs
      refine ⟨i1, by simp [ht], i3, i4, ?_⟩
      simp only [ht, List.nil_append]
      exact ⟨fun hn _ => ⟨by simp, (a5 hn).2.2.1⟩, fun hn => Or.inl (a5 hn).2.2.2, a1, a2, a3, a4, fun hn => (a5 hn).1⟩
  | stopFlush =>
    have hn : n = false := by
      cases n with
      | false => rfl
      | true => exact absurd rfl (h2 rfl).1
    subst hn
    simp only [St.step] at hs
    split at hs
    · cases hs
    · injection hs with hs
      obtain ⟨i1, i2, i3, i4, i5⟩ := h
      have hd := flush_delivered s i1
      have key : ∀ l, delivered s.events ++ s.blob = l → delivered s.flush.events ++ s.flush.blob = l := by
        intro l hl; rw [hd]; simpa [St.flush] using hl
      have nil : delivered s.events = [] → s.blob = [] → delivered s.flush.events = [] := by
        intro e1 e2; rw [hd, e1, e2]; rfl
      subst hs
      refine ⟨i1, i2, i3, (fun hc => by cases hc), ?_⟩
      show match s.threads with
        | [] => _
        | p :: _ => _
      cases ht : s.threads with
      | nil =>
        rw [ht] at i5
        obtain ⟨a1, a2, a3, a4, a5⟩ := i5
        exact ⟨a1, a2, nil a3 a4, rfl, fun hc => by cases hc⟩
      | cons p ps =>
        rw [ht] at i5
        obtain ⟨_, _, j3⟩ := i5
        refine ⟨(fun hc => by cases hc), (fun hc => by cases hc), ?_⟩
        cases p with
        | first => obtain ⟨a1, a2, a3, a4, a5⟩ := j3; exact ⟨a1, a2, nil a3 a4, rfl, fun hc => by cases hc⟩
        | «begin» b => obtain ⟨a1, a2, a3, a4, a5⟩ := j3; exact ⟨a1, nil a2 a3, rfl, a4, fun hc => by cases hc⟩
        | loop =>
          obtain ⟨a1, a2, a3, a4, a5⟩ := j3
          refine ⟨a1, ?_, a3, a4, fun hc => by cases hc⟩
          show delivered s.flush.events ++ [] ++ _ = _
          rw [hd, List.append_nil]; exact a2
        | flushing =>
          obtain ⟨a1, a2, a3, a4, a5⟩ := j3
          refine ⟨a1, ?_, a3, a4, fun hc => by cases hc⟩
          show delivered s.flush.events ++ [] ++ _ = _
          rw [hd, List.append_nil]; exact a2
        | got x =>
          obtain ⟨a1, a2, a3, a4, a5⟩ := j3
          refine ⟨a1, ?_, a3, a4, fun hc => by cases hc⟩
          show delivered s.flush.events ++ [] ++ _ = _
          rw [hd, List.append_nil]; exact a2
        | chunk x =>
          obtain ⟨a1, a2, a3, a4, a5⟩ := j3
          refine ⟨a1, ?_, a3, a4, fun hc => by cases hc⟩
          show delivered s.flush.events ++ [] ++ _ = _
          rw [hd, List.append_nil]; exact a2
        | endFlush => obtain ⟨a1, a2, a3, _⟩ := j3; exact ⟨key _ a1, a2, a3, fun hc => by cases hc⟩
        | endStop => obtain ⟨a1, a2, a3, _⟩ := j3; exact ⟨key _ a1, a2, a3, fun hc => by cases hc⟩
        | errFlush => obtain ⟨a1, a2, _⟩ := j3; exact ⟨key _ a1, a2, fun hc => by cases hc⟩
        | errCall => obtain ⟨a1, a2, _⟩ := j3; exact ⟨key _ a1, a2, fun hc => by cases hc⟩
        | errStop => obtain ⟨a1, a2, _⟩ := j3; exact ⟨key _ a1, a2, fun hc => by cases hc⟩
        | done =>
          obtain ⟨a1, _⟩ := j3
          refine ⟨?_, fun hc => by cases hc⟩
          rw [← key _ rfl] at a1
          exact a1
  | stopFinish =>
    have hn : n = false := by
      cases n with
      | false => rfl
      | true => exact absurd rfl (h2 rfl).2
    subst hn
    simp only [St.step] at hs
    split at hs
    · injection hs with hs
      obtain ⟨i1, i2, i3, i4, i5⟩ := h
      have hd := stop_delivered s
      subst hs
      refine ⟨i1, i2, i3, (fun hc => by cases hc), ?_⟩
      show match s.threads with
        | [] => _
        | p :: _ => _
      cases ht : s.threads with
      | nil =>
        rw [ht] at i5
        obtain ⟨a1, a2, a3, a4, a5⟩ := i5
        exact ⟨a1, a2, hd.trans a3, a4, fun hc => by cases hc⟩
      | cons p ps =>
        rw [ht] at i5
        obtain ⟨_, _, j3⟩ := i5
        refine ⟨(fun hc => by cases hc), (fun hc => by cases hc), ?_⟩
        have key : ∀ (l r : List τ), delivered s.events ++ s.blob ++ r = l → delivered s.stop.events ++ s.blob ++ r = l := by
          intro l r hl; rw [hd]; exact hl
        have key' : ∀ (l : List τ), delivered s.events ++ s.blob = l → delivered s.stop.events ++ s.blob = l := by
          intro l hl; rw [hd]; exact hl
        cases p with
        | first => obtain ⟨a1, a2, a3, a4, a5⟩ := j3; exact ⟨a1, a2, hd.trans a3, a4, fun hc => by cases hc⟩
        | «begin» b => obtain ⟨a1, a2, a3, a4, a5⟩ := j3; exact ⟨a1, hd.trans a2, a3, a4, fun hc => by cases hc⟩
        | loop => obtain ⟨a1, a2, a3, a4, a5⟩ := j3; exact ⟨a1, key _ _ a2, a3, a4, fun hc => by cases hc⟩
        | flushing => obtain ⟨a1, a2, a3, a4, a5⟩ := j3; exact ⟨a1, key _ _ a2, a3, a4, fun hc => by cases hc⟩
        | got x => obtain ⟨a1, a2, a3, a4, a5⟩ := j3; exact ⟨a1, key _ _ a2, a3, a4, fun hc => by cases hc⟩
        | chunk x => obtain ⟨a1, a2, a3, a4, a5⟩ := j3; exact ⟨a1, key _ _ a2, a3, a4, fun hc => by cases hc⟩
        | endFlush => obtain ⟨a1, a2, a3, _⟩ := j3; exact ⟨key' _ a1, a2, a3, fun hc => by cases hc⟩
        | endStop => obtain ⟨a1, a2, a3, _⟩ := j3; exact ⟨key' _ a1, a2, a3, fun hc => by cases hc⟩
        | errFlush => obtain ⟨a1, a2, _⟩ := j3; exact ⟨key' _ a1, a2, fun hc => by cases hc⟩
        | errCall => obtain ⟨a1, a2, _⟩ := j3; exact ⟨key' _ a1, a2, fun hc => by cases hc⟩
        | errStop => obtain ⟨a1, a2, _⟩ := j3; exact ⟨key' _ a1, a2, fun hc => by cases hc⟩
        | done =>
          obtain ⟨a1, _⟩ := j3
          refine ⟨?_, fun hc => by cases hc⟩
          rw [← key' _ rfl] at a1
          exact a1
    · cases hs

theorem threads_length (hdr enc : β → List τ) (limit : Nat) (s s' : St β τ) (a : Act) (hs : s.step hdr enc limit a = some s') :
    s'.threads.length = s.threads.length + if a = .start then 1 else 0 := by
  cases a with
  | start =>
    simp only [St.step] at hs
    split at hs
    · cases hs
    · injection hs with hs; subst hs; simp
  | stopFlush =>
    simp only [St.step] at hs
    split at hs
    · cases hs
    · injection hs with hs; subst hs; simp [St.flush]
  | stopFinish =>
    simp only [St.step] at hs
    split at hs
    · injection hs with hs; subst hs; simp [St.stop]
    · cases hs
  | thread k =>
    simp only [St.step, St.thread] at hs
    split at hs
    · cases hs
    · cases hs
    · split at hs <;> (injection hs with hs; subst hs; simp [St.setPc])
    · injection hs with hs; subst hs; simp [St.setPc]
    · split at hs <;> (injection hs with hs; subst hs; simp [St.setPc])
    · split at hs
      · split at hs <;> (injection hs with hs; subst hs; simp [St.setPc])
      · injection hs with hs; subst hs; simp [St.setPc]
    all_goals (injection hs with hs; subst hs; simp [St.setPc, St.flush, St.stop, St.fail])

theorem inv_run (hdr enc : β → List τ) (limit : Nat) (items : List (Item β)) (n : Bool) :
    ∀ (acts : List Act) (s s' : St β τ), Inv hdr enc items n s → s.run hdr enc limit acts = some s' →
      s.threads.length + acts.count .start ≤ 1 → (n = true → .stopFlush ∉ acts ∧ .stopFinish ∉ acts) →
      Inv hdr enc items n s' := by
  intro acts
  induction acts with
  | nil => intro s s' h hr _ _; injection hr with hr; subst hr; exact h
  | cons a rest ih =>
    intro s s' h hr hc hn
    simp only [St.run, Option.bind_eq_some_iff] at hr
    obtain ⟨s1, h1, h2⟩ := hr
    have hl := threads_length hdr enc limit s s1 a h1
    have hcount : (a :: rest).count Act.start = rest.count Act.start + if a = .start then 1 else 0 := by
      rw [List.count_cons]; congr 1; by_cases ha : a = .start <;> simp [ha]
    refine ih s1 s' (inv_step hdr enc limit items n s s1 a h h1 ?_ ?_) h2 ?_ ?_
    · intro ha
      rw [hcount, if_pos ha] at hc
      exact List.length_eq_zero_iff.mp (by omega)
    · intro hn'
      obtain ⟨m1, m2⟩ := hn hn'
      exact ⟨fun hc => m1 (by rw [hc]; exact List.mem_cons_self), fun hc => m2 (by rw [hc]; exact List.mem_cons_self)⟩
    · rw [hcount] at hc; omega
    · intro hn'
      obtain ⟨m1, m2⟩ := hn hn'
      exact ⟨fun hc => m1 (List.mem_cons_of_mem _ hc), fun hc => m2 (List.mem_cons_of_mem _ hc)⟩

theorem inv_new (hdr enc : β → List τ) (items : List (Item β)) (n : Bool) : Inv hdr enc items n (St.new items) := by
  refine ⟨rfl, by simp [St.new], fun _ => rfl, fun _ => rfl, ?_⟩
  exact ⟨rfl, rfl, rfl, rfl, fun _ => ⟨rfl, rfl, rfl, rfl⟩⟩

end Verif.Media.Recorder
