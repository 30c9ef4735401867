import Verif.Buffer.Model
import Mathlib.Algebra.Order.Field.Rat
import Mathlib.Data.Rat.Floor
import Mathlib.Algebra.Order.Floor.Ring
import Mathlib.Data.List.Induction
import Mathlib.Data.List.Infix

/-!
# C77: microphone input

Models `MicrophoneRender::render` and `MicrophoneStream::next` (`/repo/src/io/microphone.rs` l.37-67, l.85-103)
with the channel of capacity 3 between them (`/repo/src/io/cpal.rs` l.458-460, `/repo/src/io/cubeb.rs` l.487-488).
The conversion of the sample format of the device is a function `conv`. The device calls `render` with
interleaved samples of any length, at any moment; the consumer (the media stream track of C50) calls `next` at
any moment.
-/

namespace Verif.Io.Microphone

open Verif.Buffer

variable {K S V : Type} [Field K] [LinearOrder K]

/-- `data.iter().skip(i).step_by(n)`, microphone.rs l.87-95: the elements at `i`, `i + n`, `i + 2 n`, … -/
def channelOf (n i : Nat) (data : List S) : List S :=
  (List.range ((data.length - i + n - 1) / n)).filterMap fun k => data[i + k * n]?

/-- The buffer that a callback with the given data makes, microphone.rs l.86-99; `none` is a panic. -/
def capture (conv : S → V) (n : Nat) (rate : K) (data : List S) : Option (Buf K V) :=
  Buf.from ((List.range n).map fun i => (channelOf n i data).map conv) rate

/-- The channel (capacity 3), whether the device is still there, and ghost: the callbacks so far that did not
find the channel full, the number of those that did, and what the reader got. -/
structure St (K V : Type) where
  queue : List (Buf K V) := []
  alive : Bool := true
  accepted : List (Buf K V) := []
  dropped : Nat := 0
  /-- `some b`: a captured buffer, `none`: a buffer of silence -/
  got : List (Option (Buf K V)) := []
  ended : Bool := false

inductive Op (K V : Type) where
  /-- a callback of the device; `try_send`, microphone.rs l.98-102 -/
  | push (b : Buf K V)
  /-- `MicrophoneStream::next`, microphone.rs l.40-66 -/
  | next
  /-- the device is gone: `MicrophoneRender` is dropped -/
  | gone

/-- microphone.rs l.98-102 -/
def St.push (s : St K V) (b : Buf K V) : St K V :=
  if s.queue.length < 3 then { s with queue := s.queue ++ [b], accepted := s.accepted ++ [b] }
  else { s with dropped := s.dropped + 1 }

/-- microphone.rs l.40-66 -/
def St.next (s : St K V) : St K V :=
  match s.queue with
  | b :: q => { s with queue := q, got := s.got ++ [some b] }
  | [] => if s.alive then { s with got := s.got ++ [none] } else { s with ended := true }

def step (s : St K V) : Op K V → St K V
  | .push b => if s.alive then s.push b else s
  | .next => s.next
  | .gone => { s with alive := false }

def run (s : St K V) (ops : List (Op K V)) : St K V := ops.foldl step s

/-! ## Specification -/

/-- what the reader got without the silence -/
def sounds (got : List (Option (Buf K V))) : List (Buf K V) := got.filterMap id

/-! ## Theorems -/

theorem filterMap_range {g : Nat → Option S} {m : Nat} (h : ∀ k < m, (g k).isSome) :
    ((List.range m).filterMap g).length = m ∧
    ∀ k, ((List.range m).filterMap g)[k]? = if k < m then g k else none := by
  induction m with
  | zero => simp
  | succ m ih =>
    obtain ⟨hl, hg⟩ := ih fun k hk => h k (by omega)
    obtain ⟨x, hx⟩ := Option.isSome_iff_exists.1 (h m (by omega))
    have e : (List.range (m + 1)).filterMap g = (List.range m).filterMap g ++ [x] := by
      rw [List.range_succ, List.filterMap_append]
      simp [hx]
    rw [e]
    refine ⟨by simp [hl], fun k => ?_⟩
    rcases Nat.lt_trichotomy k m with hk | hk | hk
    · rw [List.getElem?_append_left (by omega), hg, if_pos hk, if_pos (by omega)]
    · subst hk
      rw [List.getElem?_append_right (by omega), hl, if_pos (by omega), hx]
      simp
    · rw [List.getElem?_append_right (by omega), hl, if_neg (by omega)]
      simp
      omega

theorem channelOf_get (n i : Nat) (hi : i < n) (data : List S) (hd : n ∣ data.length) :
    (channelOf n i data).length = data.length / n ∧
    ∀ k, (channelOf n i data)[k]? = if k < data.length / n then data[i + k * n]? else none := by
  obtain ⟨m, hm⟩ := hd
  have hn : 0 < n := by omega
  have hdiv : data.length / n = m := by rw [hm, Nat.mul_div_cancel_left _ hn]
  have hcount : (data.length - i + n - 1) / n = m := by
    rw [hm]
    cases m with
    | zero =>
      rw [Nat.mul_zero, Nat.zero_sub, Nat.zero_add]
      exact Nat.div_eq_of_lt (by omega)
    | succ m =>
      rw [Nat.mul_succ]
      have e : n * m + n - i + n - 1 = (n - i + n - 1) + n * m := by omega
      rw [e, Nat.add_mul_div_left _ _ hn]
      have : (n - i + n - 1) / n = 1 := by
        rw [Nat.div_eq_iff hn]
        omega
      omega
  have hlt : ∀ k < m, i + k * n < data.length := by
    intro k hk
    have : (k + 1) * n ≤ m * n := Nat.mul_le_mul_right n hk
    rw [Nat.add_mul, Nat.one_mul] at this
    rw [hm, Nat.mul_comm n m]
    omega
  unfold channelOf
  rw [hcount, hdiv]
  exact filterMap_range fun k hk => by simp [List.getElem?_eq_getElem (hlt k hk)]

/-- **C77** A callback with `m` frames of `n` interleaved channels (1 to 32) is captured as a buffer with `n`
channels of `m` frames, whose frame `k` of channel `i` is the sample at position `k n + i`. -/
theorem C77_deinterleave (conv : S → V) {n m : Nat} {rate : K} (hn : 0 < n) (hn' : n ≤ 32)
    (hr : validRate rate) {data : List S} (hd : data.length = m * n) :
    ∃ b, capture conv n rate data = some b ∧ b.channels.length = n ∧ b.length = m ∧ b.WF ∧
      b.rate = rate ∧ ∀ i < n, ∀ k < m, b.sample i k = (data[k * n + i]?).map conv := by
  have hdvd : n ∣ data.length := ⟨m, by rw [hd, Nat.mul_comm]⟩
  have hdiv : data.length / n = m := by rw [hd, Nat.mul_div_cancel _ hn]
  have hlen : ∀ c ∈ (List.range n).map fun i => (channelOf n i data).map conv, c.length = m := by
    intro c hc
    obtain ⟨i, hi, rfl⟩ := List.mem_map.1 hc
    rw [List.length_map, (channelOf_get n i (List.mem_range.1 hi) data hdvd).1, hdiv]
  have hhead : (((List.range n).map fun i => (channelOf n i data).map conv).headD []).length = m := by
    obtain ⟨n', rfl⟩ : ∃ n', n = n' + 1 := ⟨n - 1, by omega⟩
    rw [List.range_succ_eq_map, List.map_cons]
    apply hlen
    rw [List.range_succ_eq_map, List.map_cons]
    simp
  have hl : Buf.length (⟨(List.range n).map fun i => (channelOf n i data).map conv, rate⟩ : Buf K V) = m := by
    obtain ⟨n', rfl⟩ : ∃ n', n = n' + 1 := ⟨n - 1, by omega⟩
    rw [List.range_succ_eq_map, List.map_cons] at hhead
    simp only [List.range_succ_eq_map, List.map_cons, Buf.length]
    exact hhead
  have hfrom : capture conv n rate data =
      some ⟨(List.range n).map fun i => (channelOf n i data).map conv, rate⟩ := by
    unfold capture Buf.from
    rw [if_pos]
    refine ⟨hr, by simpa using hn, by simpa using hn', ?_⟩
    intro c hc
    rw [hlen c hc, hhead]
  refine ⟨_, hfrom, by simp, hl, ?_, rfl, ?_⟩
  · intro c hc
    rw [hl]
    exact hlen c hc
  · intro i hi k hk
    have := (channelOf_get n i hi data hdvd).2 k
    rw [hdiv, if_pos hk] at this
    simp [Buf.sample, hi, this, Nat.add_comm]

omit [Field K] [LinearOrder K] in
/-- Invariant: what was accepted has been read or is in the channel. -/
theorem inv {s : St K V} (ops : List (Op K V)) (h : s.accepted = sounds s.got ++ s.queue)
    (hq : s.queue.length ≤ 3) (he : s.ended = true → s.queue = [] ∧ s.alive = false) :
    (run s ops).accepted = sounds (run s ops).got ++ (run s ops).queue ∧
      (run s ops).queue.length ≤ 3 ∧
      ((run s ops).ended = true → (run s ops).queue = [] ∧ (run s ops).alive = false) := by
  induction ops generalizing s with
  | nil => exact ⟨h, hq, he⟩
  | cons o ops ih =>
    simp only [run, List.foldl_cons]
    refine ih ?_ ?_ ?_ <;> cases o <;> simp only [step, St.push, St.next]
    · split
      · split
        · simp [h, sounds]
        · exact h
      · exact h
    · split
      · rename_i hq'
        simp [h, hq', sounds]
      · rename_i hq'
        split <;> simp [h, hq', sounds]
    · exact h
    · split
      · split
        · simp; omega
        · exact hq
      · exact hq
    · split
      · rename_i hq'
        simp only [hq', List.length_cons] at hq
        simp; omega
      · split <;> exact hq
    · exact hq
    · split
      · rename_i ha
        split
        · intro h'
          simp [he h'] at ha
        · exact he
      · exact he
    · split
      · rename_i hq'
        intro h'
        simp [(he h').1] at hq'
      · rename_i hq'
        split
        · exact he
        · rename_i ha
          exact fun _ => ⟨hq', by simpa using ha⟩
    · intro h'
      exact ⟨(he h').1, trivial⟩

omit [Field K] [LinearOrder K] in
/-- **C77** Order and completeness: at any time, what the reader got (apart from silence) followed by the at
most three buffers that wait for it are the buffers captured so far, each once and in order, except for
those that found the channel full; and the stream only ends when the device is gone and every accepted
buffer has been delivered. -/
theorem C77_order_partial (ops : List (Op K V)) :
    sounds (run {} ops).got ++ (run {} ops).queue = (run {} ops).accepted ∧
    (run {} ops).queue.length ≤ 3 ∧
    ((run {} ops).ended = true → sounds (run {} ops).got = (run {} ops).accepted) := by
  obtain ⟨h1, h2, h3⟩ := inv (s := ({} : St K V)) ops rfl (by simp) (fun h => by simp at h)
  refine ⟨h1.symm, h2, fun h => ?_⟩
  rw [h1, (h3 h).1, List.append_nil]

/-- the buffers that the device captures in a history (until it is gone) -/
def pushed : List (Op K V) → List (Buf K V)
  | [] => []
  | .push b :: ops => b :: pushed ops
  | .next :: ops => pushed ops
  | .gone :: _ => []

omit [Field K] [LinearOrder K] in
/-- **C77** Every captured buffer is accepted or counted as dropped, and the accepted ones are a subsequence
of the captured ones. -/
theorem C77_dropped (ops : List (Op K V)) :
    (run {} ops).accepted.Sublist (pushed ops) ∧
    (run {} ops).accepted.length + (run {} ops).dropped = (pushed ops).length := by
  have dead : ∀ (ops : List (Op K V)) (s : St K V), s.alive = false →
      (run s ops).accepted = s.accepted ∧ (run s ops).dropped = s.dropped := by
    intro ops
    induction ops with
    | nil => intro s _; exact ⟨rfl, rfl⟩
    | cons o ops ih =>
      intro s hs
      simp only [run, List.foldl_cons]
      cases o with
      | push b =>
        have e : step s (.push b) = s := by simp [step, hs]
        rw [e]
        exact ih s hs
      | next =>
        have e : (step s .next).accepted = s.accepted ∧ (step s .next).dropped = s.dropped ∧
            (step s .next).alive = false := by
          simp only [step, St.next]
          split
          · exact ⟨rfl, rfl, hs⟩
          · simp [hs]
        obtain ⟨h1, h2⟩ := ih _ e.2.2
        exact ⟨h1.trans e.1, h2.trans e.2.1⟩
      | gone => exact ih _ rfl
  suffices ∀ (s : St K V), s.alive = true → ∃ l, (run s ops).accepted = s.accepted ++ l ∧
      l.Sublist (pushed ops) ∧ l.length + (run s ops).dropped = (pushed ops).length + s.dropped by
    obtain ⟨l, h1, h2, h3⟩ := this {} rfl
    simp only [List.nil_append] at h1
    rw [h1]
    exact ⟨h2, by simpa using h3⟩
  induction ops with
  | nil => intro s _; exact ⟨[], by simp [run], by simp [pushed], by simp [run, pushed]⟩
  | cons o ops ih =>
    intro s hs
    simp only [run, List.foldl_cons]
    cases o with
    | push b =>
      have ha : (step s (.push b)).alive = true := by
        simp only [step, hs, if_true, St.push]
        split <;> rfl
      obtain ⟨l, h1, h2, h3⟩ := ih _ ha
      by_cases hq : s.queue.length < 3
      · have e : step s (.push b) = { s with queue := s.queue ++ [b], accepted := s.accepted ++ [b] } := by
          simp [step, hs, St.push, hq]
        rw [e] at h1 h3 ⊢
        refine ⟨b :: l, ?_, by simpa [pushed] using h2, ?_⟩
        · simpa [run] using h1
        · simp only [pushed, List.length_cons]
          simp only [run] at h3
          omega
      · have e : step s (.push b) = { s with dropped := s.dropped + 1 } := by
          simp [step, hs, St.push, hq]
        rw [e] at h1 h3 ⊢
        refine ⟨l, by simpa [run] using h1, ?_, ?_⟩
        · exact h2.trans (by simp [pushed])
        · simp only [pushed, List.length_cons]
          simp only [run] at h3
          omega
    | next =>
      have e : (step s .next).accepted = s.accepted ∧ (step s .next).dropped = s.dropped ∧
          (step s .next).alive = true := by
        simp only [step, St.next]
        split
        · exact ⟨rfl, rfl, hs⟩
        · simp [hs]
      obtain ⟨l, h1, h2, h3⟩ := ih _ e.2.2
      rw [e.1] at h1
      rw [e.2.1] at h3
      exact ⟨l, h1, by simpa [pushed] using h2, by simpa [pushed, run] using h3⟩
    | gone =>
      obtain ⟨h1, h2⟩ := dead ops (step s .gone) rfl
      exact ⟨[], (by rw [List.append_nil]; exact h1), by simp [pushed], by simp only [pushed, List.length_nil, Nat.zero_add]; exact h2⟩

/-- the numbers of buffers captured and asked for before each moment -/
def counts (ops : List (Op K V)) : Nat × Nat :=
  (ops.countP fun | .push _ => true | _ => false, ops.countP fun | .next => true | _ => false)

omit [Field K] [LinearOrder K] in
/-- **C77** A reader that stays between zero and three buffers behind the device loses nothing and hears no
silence: it gets exactly the captured buffers in order. -/
theorem C77_complete (ops : List (Op K V)) (hg : Op.gone ∉ ops)
    (hpace : ∀ pre, pre <+: ops → (counts pre).2 ≤ (counts pre).1 ∧ (counts pre).1 ≤ (counts pre).2 + 3) :
    (run {} ops).got = ((pushed ops).take (counts ops).2).map some ∧ (run {} ops).dropped = 0 := by
  suffices h : (run {} ops).got = ((pushed ops).take (counts ops).2).map some ∧
      (run {} ops).queue = (pushed ops).drop (counts ops).2 ∧ (run {} ops).dropped = 0 ∧
      (run {} ops).alive = true ∧ (pushed ops).length = (counts ops).1 from ⟨h.1, h.2.2.1⟩
  induction ops using List.reverseRecOn with
  | nil => simp [run, pushed, counts]
  | append_singleton ops o ih =>
    have hp : ∀ pre, pre <+: ops →
        (counts pre).2 ≤ (counts pre).1 ∧ (counts pre).1 ≤ (counts pre).2 + 3 :=
      fun pre h => hpace pre (h.trans (List.prefix_append _ _))
    obtain ⟨h1, h2, h3, h4, h5⟩ := ih (fun h => hg (by simp [h])) hp
    have hpo := hp ops (List.prefix_refl _)
    have hpn := hpace (ops ++ [o]) (List.prefix_refl _)
    have hrun : run {} (ops ++ [o]) = step (run ({} : St K V) ops) o := by simp [run]
    have hpush : ∀ (ops : List (Op K V)), Op.gone ∉ ops → ∀ l, pushed (ops ++ l) = pushed ops ++ pushed l := by
      intro ops
      induction ops with
      | nil => intro _ l; rfl
      | cons a ops ih =>
        intro hg l
        have := ih (fun h => hg (by simp [h])) l
        cases a with
        | push b => simp [pushed, this]
        | next => simp [pushed, this]
        | gone => simp at hg
    rw [hrun, hpush ops (fun h => hg (by simp [h]))]
    cases o with
    | gone => simp at hg
    | push b =>
      have hc : counts (ops ++ [.push b]) = ((counts ops).1 + 1, (counts ops).2) := by
        simp [counts, List.countP_append]
      rw [hc] at hpn ⊢
      have hql : (run ({} : St K V) ops).queue.length < 3 := by
        rw [h2, List.length_drop, h5]
        simp only at hpn
        omega
      simp only [step, h4, if_true, St.push, hql]
      refine ⟨?_, ?_, h3, trivial, by simp [pushed, h5]⟩
      · rw [h1, List.take_append_of_le_length (by omega)]
      · rw [h2, List.drop_append_of_le_length (by omega)]
        rfl
    | next =>
      have hc : counts (ops ++ [.next]) = ((counts ops).1, (counts ops).2 + 1) := by
        simp [counts, List.countP_append]
      rw [hc] at hpn ⊢
      simp only at hpn
      have hlt : (counts ops).2 < (pushed ops).length := by omega
      rw [List.drop_eq_getElem_cons hlt] at h2
      simp only [step, St.next, h2, pushed, List.append_nil]
      refine ⟨?_, trivial, h3, h4, h5⟩
      rw [h1, List.take_succ_eq_append_getElem hlt, List.map_append]
      rfl

/-- **C77** negated: a device with more than 32 channels makes the callback of the input stream panic, with the
first frame. -/
theorem C77_negated_channels (conv : S → V) {n : Nat} {rate : K} (hn : 32 < n) (data : List S) :
    capture conv n rate data = none := by
  simp only [capture, Buf.from]
  rw [if_neg]
  simp
  omega

omit [Field K] [LinearOrder K] in
/-- **C77** negated: a reader that asks once too early hears silence although no sound was lost, and from then
on everything comes later; if the device then catches up, captured buffers are lost. -/
theorem C77_negated_gap (a b c d : Buf K V) :
    (run {} [.next, .push a, .next, .push b, .next]).got = [none, some a, some b] ∧
    (run {} [.push a, .push b, .push c, .push d, .next]).got = [some a] ∧
    (run {} [.push a, .push b, .push c, .push d, .next]).dropped = 1 := by
  refine ⟨rfl, rfl, rfl⟩

/-! ## Examples -/

example : capture (fun x : ℤ => (x : ℚ) / 2) 2 (8000 : ℚ) [2, 4, 6, 8] = some ⟨[[1, 3], [2, 4]], 8000⟩ := by
  decide +kernel

example (a b : Buf ℚ ℚ) : ∀ pre, pre <+: [Op.push a, .push b, .next, .next] →
    (counts pre).2 ≤ (counts pre).1 ∧ (counts pre).1 ≤ (counts pre).2 + 3 := by
  intro pre h
  rw [← List.mem_inits] at h
  simp [List.inits] at h
  rcases h with rfl | rfl | rfl | rfl | rfl <;> simp [counts]

end Verif.Io.Microphone
