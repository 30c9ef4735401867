import Verif.Decode.Model

/-!
# C75: decoding of audio files
-/

namespace Verif.Decode

open Verif.Buffer Verif.Float

variable {K : Type}

/-! ## Specification -/

/-- The packets of the selected track, in the order of the file. -/
def own (track : Nat) (l : List (Read K)) : List (Decoded K) :=
  l.filterMap fun
    | .packet t d => if t = track then some d else none
    | _ => none

/-- The reader got to the end of the file (no premature end, no error). -/
def Intact (l : List (Read K)) : Prop := ∀ r ∈ l, ∃ t d, r = Read.packet t d

/-- The samples of channel `ch` in all the chunks, one after the other. -/
def stream (cs : List (Buf K (Option K))) (ch : Nat) : List (Option K) :=
  cs.flatMap fun c => (c.channels[ch]?).getD []

/-- All chunks have rate `ρ`, `n` channels, and channels of equal length. -/
def Uniform (ρ : K) (n : Nat) (cs : List (Buf K (Option K))) : Prop :=
  ∀ c ∈ cs, c.rate = ρ ∧ c.channels.length = n ∧ c.WF

/-- The buffer that holds all the chunks. -/
def whole (ρ : K) (n : Nat) (cs : List (Buf K (Option K))) : Buf K (Option K) :=
  ⟨(List.range n).map (stream cs), ρ⟩

/-! ## Proofs -/

theorem own_cons (track : Nat) (x : Read K) (l : List (Read K)) :
    own track (x :: l) = own track [x] ++ own track l := by
  simp only [own, List.filterMap_cons, List.filterMap_nil]
  split <;> simp

/-- Reads that are passed over: packets of other tracks and packets with recoverable errors. -/
def Skipped (track : Nat) (r : Read K) : Prop :=
  ∃ t d, r = Read.packet t d ∧ (t = track → d = .recoverable)

theorem next_cons_skip {track : Nat} {x : Read K} {l : List (Read K)} (h : Skipped track x) :
    next track (x :: l) = next track l := by
  obtain ⟨t, d, rfl, hd⟩ := h
  by_cases ht : t = track
  · simp [next, ht, hd ht]
  · simp [next, ht]

/-- The chunks among the decoded packets. -/
def chunksOf (ds : List (Decoded K)) : List (Buf K (Option K)) :=
  ds.filterMap fun | .chunk c => some c | _ => none

/-- Packets of the track that are decoded to chunks of one layout, or cannot be decoded. -/
def Fine (ρ : K) (n : Nat) (d : Decoded K) : Prop :=
  d = .recoverable ∨ ∃ c, d = .chunk c ∧ c.rate = ρ ∧ c.channels.length = n

variable [Field K] [LinearOrder K] [FloorSemiring K] {r64 r32 : K → K}

theorem loop_eq (track : Nat) (target : K) (rate : Option K) (buffer : Option (Buf K (Option K)))
    (l : List (Read K)) :
    loop r64 r32 track target rate buffer l =
      match (next track l).1 with
      | .done => finish r64 r32 buffer target
      | .err => .err
      | .ok chunk =>
        if rate.any fun r => decide (r ≠ chunk.rate) then .err
        else
          match buffer with
          | none => loop r64 r32 track target (some (rate.getD chunk.rate)) (some chunk) (next track l).2
          | some b =>
            if b.channels.length ≠ chunk.channels.length then .err
            else match b.extend chunk with
              | none => .panic
              | some b' =>
                loop r64 r32 track target (some (rate.getD chunk.rate)) (some b') (next track l).2 := by
  rw [loop]
  split <;> rename_i h1 <;> simp only [h1]
  congr 1

theorem loop_skip {track : Nat} {target : K} {rate : Option K} {buffer : Option (Buf K (Option K))}
    {x : Read K} {l : List (Read K)} (h : Skipped track x) :
    loop r64 r32 track target rate buffer (x :: l) = loop r64 r32 track target rate buffer l := by
  rw [loop_eq, loop_eq, next_cons_skip h]

theorem loop_done {track : Nat} {target : K} {rate : Option K} {buffer : Option (Buf K (Option K))}
    {l : List (Read K)} (h : (next track l).1 = .done) :
    loop r64 r32 track target rate buffer l = finish r64 r32 buffer target := by
  rw [loop]
  split <;> simp_all

theorem loop_err {track : Nat} {target : K} {rate : Option K} {buffer : Option (Buf K (Option K))}
    {l : List (Read K)} (h : (next track l).1 = .err) :
    loop r64 r32 track target rate buffer l = .err := by
  rw [loop]
  split <;> simp_all

theorem loop_first {track : Nat} {target : K} {c : Buf K (Option K)}
    {l : List (Read K)} (h : (next track l).1 = .ok c) :
    loop r64 r32 track target none none l =
      loop r64 r32 track target (some c.rate) (some c) (next track l).2 := by
  rw [loop]
  split <;> simp_all

theorem loop_rate {track : Nat} {target ρ : K} {c : Buf K (Option K)}
    {buffer : Option (Buf K (Option K))}
    {l : List (Read K)} (h : (next track l).1 = .ok c) (hr : c.rate ≠ ρ) :
    loop r64 r32 track target (some ρ) buffer l = .err := by
  rw [loop]
  split <;> simp_all
  intro e
  exact absurd e.symm hr

theorem loop_channels {track : Nat} {target ρ : K} {b c : Buf K (Option K)}
    {l : List (Read K)} (h : (next track l).1 = .ok c) (hr : b.channels.length ≠ c.channels.length) :
    loop r64 r32 track target (some ρ) (some b) l = .err := by
  rw [loop]
  split <;> simp_all

theorem loop_extend {track : Nat} {target ρ : K} {b c : Buf K (Option K)}
    {l : List (Read K)} (h : (next track l).1 = .ok c) (hb : b.rate = ρ) (hc : c.rate = ρ)
    (hn : b.channels.length = c.channels.length) :
    loop r64 r32 track target (some ρ) (some b) l =
      loop r64 r32 track target (some ρ)
        (some ⟨List.zipWith (· ++ ·) b.channels c.channels, ρ⟩) (next track l).2 := by
  rw [loop]
  subst hb
  split <;> rename_i h1 <;> rw [h] at h1 <;> simp_all
  subst h1
  simp [Buf.extend, hn, hc]

omit [Field K] [LinearOrder K] [FloorSemiring K] in
theorem whole_extend (ρ : K) (n : Nat) (cs : List (Buf K (Option K))) (c : Buf K (Option K))
    (hc : c.channels.length = n) :
    (⟨List.zipWith (· ++ ·) (whole ρ n cs).channels c.channels, ρ⟩ : Buf K (Option K)) =
      whole ρ n (cs ++ [c]) := by
  simp only [whole, Buf.mk.injEq, and_true]
  apply List.ext_getElem
  · simp [hc]
  · intro i h1 h2
    simp only [List.length_zipWith, List.length_map, List.length_range] at h1
    simp [stream, List.getElem?_eq_getElem (show i < c.channels.length by omega)]

omit [Field K] [LinearOrder K] [FloorSemiring K] in
theorem whole_single (ρ : K) (n : Nat) (c : Buf K (Option K)) (hc : c.channels.length = n)
    (hr : c.rate = ρ) : whole ρ n [c] = c := by
  obtain ⟨ch, r⟩ := c
  subst hr
  simp only [whole, Buf.mk.injEq, and_true]
  apply List.ext_getElem
  · simpa using hc.symm
  · intro i h1 h2
    simp [stream, List.getElem?_eq_getElem h2]

/-- The state of the loop after a part of the file without errors: everything read so far is in the buffer. -/
theorem loop_prefix {track : Nat} {target ρ : K} {n : Nat} {pre l : List (Read K)}
    {cs : List (Buf K (Option K))} (hi : Intact pre) (hg : ∀ d ∈ own track pre, Fine ρ n d) :
    loop r64 r32 track target (some ρ) (some (whole ρ n cs)) (pre ++ l) =
      loop r64 r32 track target (some ρ) (some (whole ρ n (cs ++ chunksOf (own track pre)))) l := by
  induction pre generalizing cs with
  | nil => simp [own, chunksOf]
  | cons x pre ih =>
    have hi' : Intact pre := fun r hr => hi r (by simp [hr])
    obtain ⟨t, d, rfl⟩ := hi x (by simp)
    have hg' : ∀ d ∈ own track pre, Fine ρ n d := by
      intro d hd
      apply hg
      rw [own_cons]
      exact List.mem_append_right _ hd
    by_cases ht : t = track
    · subst ht
      have ho : own t (.packet t d :: pre) = d :: own t pre := by simp [own]
      rcases hg d (by simp [ho]) with rfl | ⟨c, rfl, hr, hc⟩
      · rw [List.cons_append, loop_skip ⟨_, _, rfl, fun _ => rfl⟩, ih hi' hg', ho]
        simp [chunksOf]
      · have hn : next t (.packet t (.chunk c) :: (pre ++ l)) = (.ok c, pre ++ l) := by simp [next]
        rw [List.cons_append, loop_extend (b := whole ρ n cs) (ρ := ρ) (c := c) (by rw [hn]) rfl hr
          (by simp [whole, hc]), hn, whole_extend _ _ _ _ hc, ih hi' hg', ho]
        simp [chunksOf]
    · rw [List.cons_append, loop_skip ⟨_, _, rfl, fun h => absurd h ht⟩, ih hi' hg']
      simp [own, ht]

/-- The same from the beginning. -/
theorem decode_prefix {track : Nat} {target ρ : K} {n : Nat} {pre l : List (Read K)}
    (hi : Intact pre) (hg : ∀ d ∈ own track pre, Fine ρ n d) :
    (chunksOf (own track pre) = [] ∧
      decode r64 r32 track target (pre ++ l) = loop r64 r32 track target none none l) ∨
    (chunksOf (own track pre) ≠ [] ∧ decode r64 r32 track target (pre ++ l) =
      loop r64 r32 track target (some ρ) (some (whole ρ n (chunksOf (own track pre)))) l) := by
  induction pre with
  | nil => simp [own, decode, chunksOf]
  | cons x pre ih =>
    have hi' : Intact pre := fun r hr => hi r (by simp [hr])
    obtain ⟨t, d, rfl⟩ := hi x (by simp)
    have hg' : ∀ d ∈ own track pre, Fine ρ n d := by
      intro d hd
      apply hg
      rw [own_cons]
      exact List.mem_append_right _ hd
    by_cases ht : t = track
    · subst ht
      have ho : own t (.packet t d :: pre) = d :: own t pre := by simp [own]
      rcases hg d (by simp [ho]) with rfl | ⟨c, rfl, hr, hc⟩
      · have hs : chunksOf (own t (.packet t .recoverable :: pre)) = chunksOf (own t pre) := by
          simp [ho, chunksOf]
        rw [hs, List.cons_append, decode, loop_skip ⟨_, _, rfl, fun _ => rfl⟩]
        exact ih hi' hg'
      · have hn : next t (.packet t (.chunk c) :: (pre ++ l)) = (.ok c, pre ++ l) := by simp [next]
        have := loop_prefix (r64 := r64) (r32 := r32) (target := target) (l := l) hi' hg' (cs := [c])
        rw [whole_single _ _ _ hc hr] at this
        right
        rw [List.cons_append, decode, loop_first (c := c) (by rw [hn]), hn, hr, this, ho]
        simp [chunksOf]
    · have hs : own track (.packet t d :: pre) = own track pre := by simp [own, ht]
      rw [hs, List.cons_append, decode, loop_skip ⟨_, _, rfl, fun h => absurd h ht⟩]
      exact ih hi' hg'

omit [Field K] [LinearOrder K] [FloorSemiring K] in
theorem whole_wf {ρ : K} {n : Nat} {cs : List (Buf K (Option K))} (h : Uniform ρ n cs) :
    (whole ρ n cs).WF ∧ (whole ρ n cs).length = if n = 0 then 0 else (cs.map (·.length)).sum := by
  have key : ∀ ch < n, (stream cs ch).length = (cs.map (·.length)).sum := by
    intro ch hch
    induction cs with
    | nil => simp [stream]
    | cons c cs ih =>
      obtain ⟨-, hn, hw⟩ := h c (by simp)
      have hlt : ch < c.channels.length := by omega
      have := ih fun x hx => h x (by simp [hx])
      simp only [stream] at this
      simp [stream, this, List.getElem?_eq_getElem hlt, hw _ (List.getElem_mem hlt)]
  have hl : (whole ρ n cs).length = if n = 0 then 0 else (cs.map (·.length)).sum := by
    cases n with
    | zero => simp [whole, Buf.length]
    | succ n =>
      simp only [whole, Buf.length, List.range_succ_eq_map, List.map_cons, Nat.succ_ne_zero, if_false]
      exact key 0 (by omega)
  refine ⟨?_, hl⟩
  intro c hc
  obtain ⟨ch, hch, rfl⟩ := List.mem_map.1 hc
  have hch := List.mem_range.1 hch
  rw [hl, key ch hch, if_neg (by omega)]

theorem resample_total [IsStrictOrderedRing K] {N : Nat} (h64 : Rounding r64 N) (h32 : Rounding r32 1)
    {b : Buf K (Option K)} (hb : b.WF) {sr : K} (hsr : validRate sr) (hs : b.length - 1 ≤ N)
    (hN : 1 ≤ N) : ∃ b', b.resample r64 r32 sr = some b' ∧ b'.rate = sr ∧
      b'.channels.length = b.channels.length := by
  by_cases h1 : |b.rate - sr| ≤ 1 / 10 ∨ b.length = 0
  · refine ⟨⟨b.channels, sr⟩, ?_, rfl, rfl⟩
    simp only [Buf.resample]
    rw [if_neg (not_not.2 hsr)]
    by_cases h2 : |b.rate - sr| ≤ 1 / 10
    · rw [if_pos h2]
    · rw [if_neg h2, if_pos (h1.resolve_left h2)]
  · push Not at h1
    obtain ⟨h1, h2⟩ := h1
    have h2 : 0 < b.length := Nat.pos_of_ne_zero h2
    rcases Nat.lt_or_ge (targetLength r64 b.length b.rate sr) 2 with ht | ht
    · refine ⟨⟨b.channels.map fun c => (List.range (targetLength r64 b.length b.rate sr)).map
        fun _ => none, sr⟩, ?_, rfl, by simp⟩
      simp only [Buf.resample]
      rw [if_neg (not_not.2 hsr), if_neg (not_le.2 h1), if_neg (by omega), mapM_eq_map,
        Option.map_some]
      intro c hc
      apply mapM_eq_map
      intro i hi
      have hi := List.mem_range.1 hi
      have ht : targetLength r64 b.length b.rate sr = 1 := by omega
      have hcl := hb c hc
      have e0 : c[0]? = some c[0] := List.getElem?_eq_getElem (by omega)
      have hm : min (0 + 1) (b.length - 1) < c.length := by omega
      have e1 := List.getElem?_eq_getElem hm
      simp only [frameAt, playhead, ht, prevIndex, if_true, Nat.sub_self]
      rw [e0, e1]
      rfl
    · exact ⟨_, resample_eq h64 h32 hb hsr h1 h2 hs hN ht, rfl, by simp⟩

/-! ## C75 -/

/-- **C75** A file that the reader can read to its end, all packets of whose track decode to chunks of one
layout, is decoded to the samples of all chunks one after the other, converted to the sample rate of the
context; it does not matter how long the chunks are and what other tracks there are between them. -/
theorem C75_complete [IsStrictOrderedRing K] {N : Nat} (h64 : Rounding r64 N) (h32 : Rounding r32 1)
    (hN : 1 ≤ N) {track : Nat} {target ρ : K} (ht : validRate target) {n : Nat} {l : List (Read K)}
    {cs : List (Buf K (Option K))} (hi : Intact l) (ho : own track l = cs.map .chunk)
    (hu : Uniform ρ n cs) (hcs : cs ≠ []) (hlen : (cs.map (·.length)).sum - 1 ≤ N) :
    ∃ all b : Buf K (Option K), all.rate = ρ ∧ all.channels.length = n ∧
      (∀ ch < n, all.channels[ch]? = some (stream cs ch)) ∧
      all.resample r64 r32 target = some b ∧ decode r64 r32 track target l = .ok b ∧
      b.rate = target ∧ b.channels.length = n := by
  have hc : chunksOf (own track l) = cs := by
    rw [ho]
    clear ho hu hcs hlen
    induction cs with
    | nil => rfl
    | cons c cs ih =>
      simp only [chunksOf] at ih
      simp [chunksOf, ih]
  have hg : ∀ d ∈ own track l, Fine ρ n d := by
    intro d hd
    rw [ho] at hd
    obtain ⟨c, hc, rfl⟩ := List.mem_map.1 hd
    exact .inr ⟨c, rfl, (hu c hc).1, (hu c hc).2.1⟩
  obtain ⟨hw, hl⟩ := whole_wf hu
  have hl' : (whole ρ n cs).length - 1 ≤ N := by
    rw [hl]
    split <;> omega
  obtain ⟨b, hb, hr, hn⟩ := resample_total h64 h32 hw ht hl' hN
  refine ⟨whole ρ n cs, b, rfl, by simp [whole], ?_, hb, ?_, hr, by rw [hn]; simp [whole]⟩
  · intro ch hch
    simp [whole, hch]
  · rcases decode_prefix (r64 := r64) (r32 := r32) (target := target) (l := []) hi hg with ⟨h, -⟩ | ⟨-, h⟩
    · exact absurd (hc ▸ h) hcs
    · rw [List.append_nil, hc] at h
      rw [h, loop_done (by simp [next])]
      simp [finish, hb]

/-- **C75** At the sample rate of the file every sample of the result is the sample of the file. -/
theorem C75_samples {track : Nat} {target ρ : K} (ht : validRate target) (hρ : |ρ - target| ≤ 1 / 10)
    {n : Nat} {l : List (Read K)} {cs : List (Buf K (Option K))} (hi : Intact l)
    (ho : own track l = cs.map .chunk) (hu : Uniform ρ n cs) (hcs : cs ≠ []) :
    ∃ b, decode r64 r32 track target l = .ok b ∧ b.rate = target ∧ b.channels.length = n ∧
      ∀ ch < n, ∀ i, b.sample ch i = (stream cs ch)[i]? := by
  have hc : chunksOf (own track l) = cs := by
    rw [ho]
    clear ho hu hcs
    induction cs with
    | nil => rfl
    | cons c cs ih =>
      simp only [chunksOf] at ih
      simp [chunksOf, ih]
  have hg : ∀ d ∈ own track l, Fine ρ n d := by
    intro d hd
    rw [ho] at hd
    obtain ⟨c, hc, rfl⟩ := List.mem_map.1 hd
    exact .inr ⟨c, rfl, (hu c hc).1, (hu c hc).2.1⟩
  refine ⟨⟨(whole ρ n cs).channels, target⟩, ?_, rfl, by simp [whole], ?_⟩
  · rcases decode_prefix (r64 := r64) (r32 := r32) (target := target) (l := []) hi hg with ⟨h, -⟩ | ⟨-, h⟩
    · exact absurd (hc ▸ h) hcs
    · rw [List.append_nil, hc] at h
      rw [h, loop_done (by simp [next])]
      have : (whole ρ n cs).rate = ρ := rfl
      simp only [finish, Buf.resample]
      rw [if_neg (not_not.2 ht), this, if_pos hρ]
  · intro ch hch i
    simp [Buf.sample, whole, hch]

/-- What ends the decoding with an error after packets of layout `(ρ, n)`: an error of the reader, a packet
with a fatal error, a chunk with another rate or number of channels. -/
def Bad (track : Nat) (ρ : K) (n : Nat) : Read K → Prop
  | .error => True
  | .packet t .fatal => t = track
  | .packet t (.chunk c) => t = track ∧ (c.rate ≠ ρ ∨ c.channels.length ≠ n)
  | _ => False

/-- **C75** An error of the reader, a fatal error of the decoder, and a change of the sample rate or of the
number of channels make the whole decoding fail, wherever in the file they are (after at least one chunk):
a part of the file is never passed off as the whole. -/
theorem C75_error {track : Nat} {target ρ : K} {n : Nat} {pre post : List (Read K)} {bad : Read K}
    (hi : Intact pre) (hg : ∀ d ∈ own track pre, Fine ρ n d)
    (hne : ∃ c, Decoded.chunk c ∈ own track pre) (hb : Bad track ρ n bad) :
    decode r64 r32 track target (pre ++ bad :: post) = .err := by
  rcases decode_prefix (r64 := r64) (r32 := r32) (target := target) (l := bad :: post) hi hg with
    ⟨h, -⟩ | ⟨-, h⟩
  · obtain ⟨c, hc⟩ := hne
    have : c ∈ chunksOf (own track pre) := List.mem_filterMap.2 ⟨_, hc, rfl⟩
    rw [h] at this
    exact absurd this (by simp)
  · rw [h]
    cases bad with
    | eof => exact absurd hb (by simp [Bad])
    | error => exact loop_err (by simp [next])
    | packet t d =>
      cases d with
      | recoverable => exact absurd hb (by simp [Bad])
      | fatal =>
        simp only [Bad] at hb
        exact loop_err (by simp [next, hb])
      | chunk c =>
        simp only [Bad] at hb
        obtain ⟨rfl, hb⟩ := hb
        by_cases hr : c.rate = ρ
        · refine loop_channels (c := c) (by simp [next]) ?_
          have := hb.resolve_left (by simpa using hr)
          simp only [whole, List.length_map, List.length_range]
          exact fun e => this e.symm
        · exact loop_rate (c := c) (by simp [next]) hr

/-- **C75** Decoding never panics, whatever the reader and the decoder return, as long as the channels of
each chunk have equal lengths. -/
theorem C75_no_panic [IsStrictOrderedRing K] {N : Nat} (h64 : Rounding r64 N) (h32 : Rounding r32 1)
    (hN : 1 ≤ N) {track : Nat} {target : K} (ht : validRate target) {l : List (Read K)}
    (hw : ∀ c, Decoded.chunk c ∈ own track l → c.WF)
    (hlen : ((chunksOf (own track l)).map (·.length)).sum - 1 ≤ N) :
    decode r64 r32 track target l ≠ .panic := by
  -- invariant: what has been read and what is still to come fit
  have key : ∀ (m : Nat) (l : List (Read K)) (cs : List (Buf K (Option K))) (ρ : K) (n : Nat),
      l.length = m → cs ≠ [] → Uniform ρ n cs →
      (∀ c, Decoded.chunk c ∈ own track l → c.WF) →
      (cs.map (·.length)).sum + ((chunksOf (own track l)).map (·.length)).sum - 1 ≤ N →
      loop r64 r32 track target (some ρ) (some (whole ρ n cs)) l ≠ .panic := by
    intro m
    induction m with
    | zero =>
      intro l cs ρ n hl _ hu _ hs
      obtain rfl := List.length_eq_zero_iff.1 hl
      obtain ⟨hw, hl⟩ := whole_wf hu
      have hl' : (whole ρ n cs).length - 1 ≤ N := by
        rw [hl]
        split <;> omega
      obtain ⟨b, hb, -⟩ := resample_total h64 h32 hw ht hl' hN
      rw [loop_done (by simp [next])]
      simp [finish, hb]
    | succ m ih =>
      intro l cs ρ n hl hcs hu hw hs
      cases l with
      | nil => simp at hl
      | cons x l =>
        simp only [List.length_cons, Nat.add_right_cancel_iff] at hl
        have fin : finish r64 r32 (some (whole ρ n cs)) target ≠ .panic := by
          obtain ⟨hw, hl⟩ := whole_wf hu
          have hl' : (whole ρ n cs).length - 1 ≤ N := by
            rw [hl]
            split <;> omega
          obtain ⟨b, hb, -⟩ := resample_total h64 h32 hw ht hl' hN
          simp [finish, hb]
        cases x with
        | eof => rwa [loop_done (by simp [next])]
        | error =>
          rw [loop_err (by simp [next])]
          simp
        | packet t d =>
          by_cases htt : t = track
          · subst htt
            have ho : own t (.packet t d :: l) = d :: own t l := by simp [own]
            rw [ho] at hw hs
            cases d with
            | recoverable =>
              rw [loop_skip ⟨_, _, rfl, fun _ => rfl⟩]
              exact ih l cs ρ n hl hcs hu (fun c hc => hw c (by simp [hc])) (by simpa [chunksOf] using hs)
            | fatal =>
              rw [loop_err (by simp [next])]
              simp
            | chunk c =>
              have hn : next t (.packet t (.chunk c) :: l) = (.ok c, l) := by simp [next]
              by_cases hr : c.rate = ρ
              · by_cases hc : c.channels.length = n
                · rw [loop_extend (b := whole ρ n cs) (ρ := ρ) (c := c) (by rw [hn]) rfl hr
                    (by simp [whole, hc]), hn, whole_extend _ _ _ _ hc]
                  refine ih l _ ρ n hl (by simp) ?_ (fun c hc => hw c (by simp [hc])) ?_
                  · intro x hx
                    rcases List.mem_append.1 hx with hx | hx
                    · exact hu x hx
                    · obtain rfl := List.mem_singleton.1 hx
                      exact ⟨hr, hc, hw x (by simp)⟩
                  · simp only [chunksOf, List.filterMap_cons, List.map_cons, List.sum_cons,
                      List.map_append, List.sum_append, List.map_nil, List.sum_nil] at hs ⊢
                    omega
                · rw [loop_channels (c := c) (by rw [hn]) (by
                    simp only [whole, List.length_map, List.length_range]
                    exact fun e => hc e.symm)]
                  simp
              · rw [loop_rate (c := c) (by rw [hn]) hr]
                simp
          · rw [loop_skip ⟨_, _, rfl, fun h => absurd h htt⟩]
            have ho : own track (.packet t d :: l) = own track l := by simp [own, htt]
            rw [ho] at hw hs
            exact ih l cs ρ n hl hcs hu hw hs
  -- up to the first chunk
  have h0 : finish r64 r32 none target ≠ (.panic : Res K) := by
    have hf : Buf.from [[]] target = some (⟨[[]], target⟩ : Buf K (Option K)) := by
      simp [Buf.from, ht]
    simp only [finish, hf, Buf.resample]
    rw [if_neg (not_not.2 ht), sub_self, abs_zero, if_pos (by positivity)]
    simp
  rw [decode]
  induction l with
  | nil => rwa [loop_done (by simp [next])]
  | cons x l ih =>
    cases x with
    | eof => rwa [loop_done (by simp [next])]
    | error =>
          rw [loop_err (by simp [next])]
          simp
    | packet t d =>
      by_cases htt : t = track
      · subst htt
        have ho : own t (.packet t d :: l) = d :: own t l := by simp [own]
        rw [ho] at hw hlen
        cases d with
        | recoverable =>
          rw [loop_skip ⟨_, _, rfl, fun _ => rfl⟩]
          exact ih (fun c hc => hw c (by simp [hc])) (by simpa [chunksOf] using hlen)
        | fatal =>
              rw [loop_err (by simp [next])]
              simp
        | chunk c =>
          have hn : next t (.packet t (.chunk c) :: l) = (.ok c, l) := by simp [next]
          rw [loop_first (c := c) (by rw [hn]), hn]
          rw [← whole_single c.rate c.channels.length c rfl rfl]
          refine key _ l [c] _ _ rfl (by simp) ?_ (fun c hc => hw c (by simp [hc])) ?_
          · intro x hx
            obtain rfl := List.mem_singleton.1 hx
            exact ⟨rfl, rfl, hw x (by simp)⟩
          · simpa [chunksOf] using hlen
      · rw [loop_skip ⟨_, _, rfl, fun h => absurd h htt⟩]
        have ho : own track (.packet t d :: l) = own track l := by simp [own, htt]
        rw [ho] at hw hlen
        exact ih hw hlen

/-- **C75** negated: a file that ends prematurely is decoded without an error to what precedes the end. -/
theorem C75_negated_truncated {track : Nat} {target ρ : K} {n : Nat} {pre post : List (Read K)}
    (hi : Intact pre) (hg : ∀ d ∈ own track pre, Fine ρ n d) :
    decode r64 r32 track target (pre ++ .eof :: post) = decode r64 r32 track target pre := by
  rcases decode_prefix (r64 := r64) (r32 := r32) (target := target) (l := .eof :: post) hi hg with
    ⟨h1, h⟩ | ⟨h1, h⟩ <;>
  rcases decode_prefix (r64 := r64) (r32 := r32) (target := target) (l := []) hi hg with
    ⟨h2, h'⟩ | ⟨h2, h'⟩
  · rw [List.append_nil] at h'
    rw [h, h', loop_done (by simp [next]), loop_done (by simp [next])]
  · exact absurd h1 h2
  · exact absurd h2 h1
  · rw [List.append_nil] at h'
    rw [h, h', loop_done (by simp [next]), loop_done (by simp [next])]

/-- a chunk of one channel at 8 kHz -/
def exChunk (xs : List ℚ) : Buf ℚ (Option ℚ) := ⟨[xs.map some], 8000⟩

/-- **C75** negated: a packet that cannot be decoded is left out without an error, so that everything after
it is heard too early: sample 2 of the file is 30, sample 2 of the result is 50. -/
theorem C75_negated_corrupt :
    decode id id 0 (8000 : ℚ) [.packet 0 (.chunk (exChunk [10, 20])), .packet 0 .recoverable,
      .packet 0 (.chunk (exChunk [50, 60]))] = .ok (exChunk [10, 20, 50, 60]) ∧
    decode id id 0 (8000 : ℚ) [.packet 0 (.chunk (exChunk [10, 20])), .packet 0 (.chunk (exChunk [30, 40])),
      .packet 0 (.chunk (exChunk [50, 60]))] = .ok (exChunk [10, 20, 30, 40, 50, 60]) := by
  constructor <;> simp [decode, loop_eq, next, exChunk, Buf.extend, finish, Buf.resample, validRate] <;>
    norm_num

/-- **C75** negated: a file with more channels than an `AudioBuffer` may have (32) is decoded to a buffer
that no constructor accepts. -/
theorem C75_negated_channels :
    decode id id 0 (8000 : ℚ) [.packet 0 (.chunk ⟨List.replicate 33 [some 1], 8000⟩)] =
      .ok ⟨List.replicate 33 [some 1], 8000⟩ ∧
    Buf.from (List.replicate 33 [some (1 : ℚ)]) (8000 : ℚ) = none := by
  constructor
  · rw [decode, loop_first (c := ⟨List.replicate 33 [some 1], 8000⟩) (by simp [next]),
      loop_done (by simp [next])]
    simp only [finish, Buf.resample, validRate]
    norm_num
  · simp [Buf.from]

/-! ## Examples -/

/-- two tracks, chunks of different lengths -/
def exFile : List (Read ℚ) :=
  [.packet 1 .fatal, .packet 0 (.chunk (exChunk [1, 2, 3])), .packet 1 (.chunk ⟨[], 1⟩),
    .packet 0 (.chunk (exChunk [])), .packet 0 (.chunk (exChunk [9]))]

example : Intact exFile ∧ own 0 exFile = [exChunk [1, 2, 3], exChunk [], exChunk [9]].map .chunk ∧
    Uniform (8000 : ℚ) 1 [exChunk [1, 2, 3], exChunk [], exChunk [9]] ∧
    stream [exChunk [1, 2, 3], exChunk [], exChunk [9]] 0 = [some 1, some 2, some 3, some 9] := by
  refine ⟨?_, rfl, ?_, rfl⟩
  · intro r hr
    simp [exFile] at hr
    rcases hr with rfl | rfl | rfl | rfl | rfl <;> exact ⟨_, _, rfl⟩
  · intro c hc
    simp at hc
    rcases hc with rfl | rfl | rfl <;> exact ⟨rfl, rfl, by decide⟩

example : Bad 0 (8000 : ℚ) 1 (.packet 0 (.chunk ⟨[[], []], 8000⟩)) ∧ Bad 0 (8000 : ℚ) 1 .error ∧
    Bad 0 (8000 : ℚ) 1 (.packet 0 .fatal) := by
  simp [Bad]

end Verif.Decode
