import Verif.Thread.Model
import Mathlib.Tactic.Common
import Mathlib.Tactic.Ring

/-! # Helper lemmas for the real-time render thread -/

namespace Verif.Thread

variable {G K : Type} [Zero K]

/-- interleaved samples of a quantum, missing channels are silent -/
def block (ch : Nat) (q : Quantum K) : List K :=
  (List.range (rqs * ch)).map fun k => q.getD (k % ch) (fun _ => 0) (k / ch)

theorem block_length (ch : Nat) (q : Quantum K) : (block ch q).length = rqs * ch := by simp [block]

def expand (ch : Nat) : Seg K → List K
  | .quantum _ q => block ch q
  | .silence n => List.replicate n 0

omit [Zero K] in
theorem writeChan_length (ch i off : Nat) (c : Nat → K) (buf : List K) :
    (writeChan ch i off c buf).length = buf.length := by simp [writeChan]

theorem copyOut_aux (ch off : Nat) (q : Quantum K) (is : List Nat) (buf : List K)
    (his : ∀ i ∈ is, i < q.length) (hb : ∀ k < buf.length, off + k / ch < rqs) :
    ∃ out, copyOut ch off q is buf = some out ∧ out.length = buf.length ∧
      ∀ k (hk : k < buf.length), out[k]? = some (if k % ch ∈ is then
        q.getD (k % ch) (fun _ => 0) (off + k / ch) else buf[k]) := by
  induction is generalizing buf with
  | nil => exact ⟨buf, rfl, rfl, fun k hk => by simp [hk]⟩
  | cons i is ih =>
    have hi := his i (by simp)
    obtain ⟨out, h1, h2, h3⟩ := ih (writeChan ch i off q[i] buf)
      (fun j hj => his j (by simp [hj])) (by rw [writeChan_length]; exact hb)
    rw [writeChan_length] at h2
    refine ⟨out, ?_, h2, ?_⟩
    · simp only [copyOut, List.getElem?_eq_getElem hi]; exact h1
    · intro k hk
      rw [h3 k (by rw [writeChan_length]; exact hk)]
      congr 1
      by_cases h4 : k % ch ∈ is
      · simp [h4]
      · simp only [h4, if_false, List.mem_cons, or_false]
        by_cases h5 : k % ch = i
        · have h6 := hb k hk
          simp [writeChan, h5, h6, hi]
        · simp [writeChan, h5]

theorem copyOut_eq {ch off : Nat} (hch : 0 < ch) {q : Quantum K} (hq : ch ≤ q.length) {buf : List K}
    (hb : ∀ k < buf.length, off + k / ch < rqs) :
    copyOut ch off q (List.range ch) buf =
      some ((List.range buf.length).map fun k => q.getD (k % ch) (fun _ => 0) (off + k / ch)) := by
  obtain ⟨out, h1, h2, h3⟩ := copyOut_aux ch off q (List.range ch) buf
    (fun i hi => lt_of_lt_of_le (List.mem_range.1 hi) hq) hb
  rw [h1]
  congr 1
  apply List.ext_getElem?
  intro k
  by_cases hk : k < buf.length
  · rw [h3 k hk, if_pos (List.mem_range.2 (Nat.mod_lt _ hch))]
    simp [hk]
  · rw [List.getElem?_eq_none (by omega), List.getElem?_eq_none (by simp; omega)]

theorem copyOut_block {ch off : Nat} (hch : 0 < ch) {q : Quantum K} (hq : ch ≤ q.length) {buf : List K}
    (hb : off * ch + buf.length ≤ rqs * ch) :
    copyOut ch off q (List.range ch) buf = some (((block ch q).drop (off * ch)).take buf.length) := by
  rw [copyOut_eq hch hq]
  · congr 1
    apply List.ext_getElem?
    intro k
    by_cases hk : k < buf.length
    · have h1 : off * ch + k < rqs * ch := by omega
      rw [List.getElem?_take_of_lt hk, List.getElem?_drop, block, List.getElem?_map, List.getElem?_map,
        List.getElem?_range hk, List.getElem?_range h1]
      simp only [Option.map_some]
      have h2 : (off * ch + k) % ch = k % ch := by rw [Nat.mul_comm]; exact Nat.mul_add_mod _ _ _
      have h3 : (off * ch + k) / ch = off + k / ch := by
        rw [Nat.mul_comm, Nat.mul_add_div hch]
      rw [h2, h3]
    · rw [List.getElem?_eq_none (by simp; omega), List.getElem?_eq_none (by simp; omega)]
  · intro k hk
    have : off * ch + k < rqs * ch := by omega
    have h3 : (off * ch + k) / ch = off + k / ch := by
      rw [Nat.mul_comm, Nat.mul_add_div hch]
    rw [← h3]
    exact (Nat.div_lt_iff_lt_mul hch).2 this

theorem pad_length (ch : Nat) (q : Quantum K) : ch ≤ (pad ch q).length := by
  unfold pad
  split
  · rw [List.length_append, List.length_replicate]; omega
  · omega

theorem pad_block (ch : Nat) (q : Quantum K) : block ch (pad ch q) = block ch q := by
  unfold block
  apply List.map_congr_left
  intro k _
  congr 1
  unfold pad
  split
  · by_cases h : k % ch < q.length
    · simp [List.getD, List.getElem?_append_left h]
    · have h1 : q.length ≤ k % ch := by omega
      have h3 : q[k % ch]? = none := List.getElem?_eq_none h1
      rw [List.getD, List.getElem?_append_right h1, List.getD, h3]
      by_cases h2 : k % ch - q.length < ch - q.length
      · rw [List.getElem?_replicate_of_lt h2]; rfl
      · rw [List.getElem?_eq_none (by rw [List.length_replicate]; omega)]
  · rfl

/-! ## Messages -/

omit [Zero K] in
theorem handle_fields {s s' : St G K} {m : Msg G} {b : Bool} (h : s.handle m = some (s', b)) :
    s'.offset = s.offset ∧ s'.log = s.log ∧ s'.frames = s.frames := by
  cases m with
  | graph f =>
    simp only [St.handle] at h
    split at h
    · rename_i g hg
      cases hf : f g with
      | none => simp [hf] at h
      | some g' => simp [hf] at h; obtain ⟨rfl, _⟩ := h; exact ⟨rfl, rfl, rfl⟩
    · cases h
  | closeAndRecycle =>
    simp only [St.handle] at h
    split at h
    · simp at h; obtain ⟨rfl, _⟩ := h; exact ⟨rfl, rfl, rfl⟩
    · cases h
  | suspend => simp [St.handle] at h; obtain ⟨rfl, _⟩ := h; exact ⟨rfl, rfl, rfl⟩
  | resume => simp [St.handle] at h; obtain ⟨rfl, _⟩ := h; exact ⟨rfl, rfl, rfl⟩
  | close => simp [St.handle] at h; obtain ⟨rfl, _⟩ := h; exact ⟨rfl, rfl, rfl⟩
  | startup g => simp [St.handle] at h; obtain ⟨rfl, _⟩ := h; exact ⟨rfl, rfl, rfl⟩

omit [Zero K] in
theorem handleAll_ind {I : St G K → Prop} {ms : List (Msg G)}
    (hI : ∀ m ∈ ms, ∀ s s' b, I s → s.handle m = some (s', b) → I s')
    {s s' : St G K} (hs : I s) (h : s.handleAll ms = some s') : I s' := by
  induction ms generalizing s with
  | nil => simp [St.handleAll] at h; subst h; exact hs
  | cons m ms ih =>
    simp only [St.handleAll] at h
    split at h
    · cases h
    · rename_i s1 h1
      cases h
      exact hI m (by simp) _ _ _ hs h1
    · rename_i s1 h1
      exact ih (fun m hm => hI m (by simp [hm])) (hI m (by simp) _ _ _ hs h1) h

omit [Zero K] in
theorem poll_ind {I : St G K → Prop} {bs : List (List (Msg G))}
    (hI : ∀ b ∈ bs, ∀ m ∈ b, ∀ s s' b, I s → s.handle m = some (s', b) → I s')
    {s s' : St G K} {bs' : List (List (Msg G))} (hs : I s) (h : s.poll bs = some (s', bs')) :
    I s' ∧ ∀ b ∈ bs', b ∈ bs := by
  unfold St.poll at h
  split at h
  · cases bs with
    | nil =>
      simp [St.handleAll] at h
      obtain ⟨rfl, rfl⟩ := h
      exact ⟨hs, fun b h => h⟩
    | cons b bs =>
      simp only [List.headD_cons, List.tail_cons, Option.map_eq_some_iff] at h
      obtain ⟨s1, h1, h2⟩ := h
      cases h2
      exact ⟨handleAll_ind (fun m hm => hI b (by simp) m hm) hs h1, fun b h => by simp [h]⟩
  · cases h
    exact ⟨hs, fun b h => h⟩

omit [Zero K] in
theorem poll_fields {s s' : St G K} {bs bs' : List (List (Msg G))} (h : s.poll bs = some (s', bs')) :
    s'.offset = s.offset ∧ s'.log = s.log ∧ s'.frames = s.frames :=
  (poll_ind (I := fun t => t.offset = s.offset ∧ t.log = s.log ∧ t.frames = s.frames)
    (fun _ _ m _ t t' b ht h => by
      obtain ⟨h1, h2, h3⟩ := handle_fields h
      exact ⟨h1.trans ht.1, h2.trans ht.2.1, h3.trans ht.2.2⟩) ⟨rfl, rfl, rfl⟩ h).1

/-! ## Samples written -/

/-- rendered but not yet written samples -/
def pending (ch : Nat) (s : St G K) : List K :=
  match s.offset with
  | none => []
  | some (off, q) => (block ch q).drop (off * ch)

def OffOk (ch : Nat) (s : St G K) : Prop :=
  ∀ off q, s.offset = some (off, q) → off ≤ rqs ∧ ch ≤ q.length

theorem renderChunks_out (sem : Sem G K) {ch : Nat} (hch : 0 < ch) (m r : Nat) (hr : r < rqs * ch)
    (hr' : r % ch = 0) (buf : List K) (hbuf : buf.length = m * (rqs * ch) + r) (s : St G K)
    (hs : s.offset = none) (bs : List (List (Msg G))) {s' : St G K} {out : List K}
    {bs' : List (List (Msg G))}
    (h : renderChunks sem ch (List.replicate m (rqs * ch) ++ if r = 0 then [] else [r]) buf s bs =
      some (s', out, bs')) :
    out.length = buf.length ∧ OffOk ch s' ∧ ∃ segs, s'.log = s.log ++ segs ∧
      out ++ pending ch s' = segs.flatMap (expand ch) := by
  induction m generalizing buf s bs s' out bs' with
  | zero =>
    by_cases hr0 : r = 0
    · subst hr0
      simp [renderChunks] at h
      obtain ⟨rfl, rfl, rfl⟩ := h
      refine ⟨rfl, by simp [OffOk, hs], [], by simp, ?_⟩
      have : buf = [] := List.length_eq_zero_iff.1 (by simpa using hbuf)
      simp [pending, hs, this]
    · have hlen : buf.length = r := by omega
      simp only [List.replicate_zero, List.nil_append, if_neg hr0, renderChunks] at h
      split at h
      · cases h
      · rename_i g hg
        rw [copyOut_block hch (pad_length ch _) (by simp; omega)] at h
        simp only [if_pos (ne_of_lt hr)] at h
        split at h
        · cases h
        · rename_i s1 bs1 hp
          obtain ⟨p1, p2, p3⟩ := poll_fields hp
          simp at h
          obtain ⟨rfl, rfl, rfl⟩ := h
          have htake : List.drop r buf = [] := by rw [List.drop_eq_nil_iff]; omega
          have hmin : min r buf.length = r := by omega
          refine ⟨by simp [htake, block_length]; omega, ?_, [_], p2, ?_⟩
          · intro off q hoq
            rw [p1] at hoq
            simp at hoq
            obtain ⟨rfl, rfl⟩ := hoq
            exact ⟨(Nat.div_le_iff_le_mul_add_pred hch).2 (by
              rw [Nat.mul_comm] at hr; omega), pad_length ch _⟩
          · have hdiv : r / ch * ch = r := Nat.div_mul_cancel (Nat.dvd_of_mod_eq_zero hr')
            simp [htake, pending, p1, hdiv, hmin, pad_block, expand, List.take_append_drop]
  | succ m ih =>
    simp only [List.replicate_succ, List.cons_append, renderChunks] at h
    split at h
    · cases h
    · rename_i g hg
      have hsm : (m + 1) * (rqs * ch) = m * (rqs * ch) + rqs * ch := by ring
      have hle : rqs * ch ≤ buf.length := by omega
      have hmin : min (rqs * ch) buf.length = rqs * ch := by omega
      rw [copyOut_block hch (pad_length ch _) (by simp [hmin])] at h
      simp only [ne_eq, not_true_eq_false, if_false] at h
      split at h
      · cases h
      · rename_i s1 bs1 hp
        obtain ⟨p1, p2, p3⟩ := poll_fields hp
        split at h
        · cases h
        · rename_i s2 out2 bs2 h2
          simp at h
          obtain ⟨rfl, rfl, rfl⟩ := h
          have hd : (buf.drop (rqs * ch)).length = m * (rqs * ch) + r := by
            rw [List.length_drop]; omega
          obtain ⟨k1, k2, segs, k3, k4⟩ := ih _ hd s1 (by rw [p1]; exact hs) bs1 h2
          refine ⟨?_, k2, Seg.quantum s.frames (sem.render g s.frames).2 :: segs, ?_, ?_⟩
          · simp [block_length, k1]; omega
          · rw [k3, p2]; simp
          · have ht : (block ch (pad ch (sem.render g s.frames).2)).take (rqs * ch) =
                block ch (sem.render g s.frames).2 := by
              rw [pad_block, List.take_of_length_le (by rw [block_length])]
            simp only [Nat.zero_mul, List.drop_zero, List.length_take, hmin, List.append_assoc, k4, ht,
              List.flatMap_cons, expand]

theorem renderRest_out (sem : Sem G K) {ch : Nat} (hch : 0 < ch) (buf : List K)
    (hbuf : buf.length % ch = 0) (s : St G K)
    (hs : s.offset = none) (bs : List (List (Msg G))) {s' : St G K} {out : List K}
    {bs' : List (List (Msg G))} (h : renderRest sem ch buf s bs = some (s', out, bs')) :
    out.length = buf.length ∧ OffOk ch s' ∧ ∃ segs, s'.log = s.log ++ segs ∧
      out ++ pending ch s' = segs.flatMap (expand ch) := by
  unfold renderRest at h
  split at h
  · cases h
  · rename_i s1 bs1 hp
    obtain ⟨p1, p2, p3⟩ := poll_fields hp
    split at h
    · simp at h
      obtain ⟨rfl, rfl, rfl⟩ := h
      refine ⟨by simp, by simp [OffOk, p1, hs], [_], by simp [p2]; rfl, ?_⟩
      simp [pending, p1, hs, expand]
    · have hc : 0 < rqs * ch := Nat.mul_pos (by decide) hch
      have hmod : buf.length % (rqs * ch) % ch = 0 := by
        rw [Nat.mod_mod_of_dvd _ (Nat.dvd_mul_left ch rqs)]; exact hbuf
      have := renderChunks_out sem hch (buf.length / (rqs * ch)) (buf.length % (rqs * ch))
        (Nat.mod_lt _ hc) hmod buf (Nat.div_add_mod' _ _).symm s1 (by rw [p1]; exact hs) bs1 h
      rwa [p2] at this

theorem renderInner_out (sem : Sem G K) {ch : Nat} (hch : 0 < ch) (buf : List K)
    (hbuf : buf.length % ch = 0) (s : St G K) (hs : OffOk ch s) (bs : List (List (Msg G)))
    {s' : St G K} {out : List K} {bs' : List (List (Msg G))}
    (h : renderInner sem ch buf s bs = some (s', out, bs')) :
    out.length = buf.length ∧ OffOk ch s' ∧ ∃ segs, s'.log = s.log ++ segs ∧
      out ++ pending ch s' = pending ch s ++ segs.flatMap (expand ch) := by
  unfold renderInner at h
  split at h
  · rename_i ho
    have := renderRest_out sem hch buf hbuf s ho bs h
    simpa [pending, ho] using this
  · rename_i off prev ho
    obtain ⟨o1, o2⟩ := hs _ _ ho
    simp only at h
    have hn : off * ch + min ((rqs - off) * ch) buf.length ≤ rqs * ch := by
      have : off * ch + (rqs - off) * ch = rqs * ch := by rw [← Nat.add_mul]; congr 1; omega
      omega
    have hb : (buf.take (min ((rqs - off) * ch) buf.length)).length =
        min ((rqs - off) * ch) buf.length := by simp
    rw [copyOut_block hch o2 (by rw [hb]; exact hn)] at h
    simp only [hb] at h
    generalize hN : min ((rqs - off) * ch) buf.length = N at *
    have hNle : N ≤ buf.length := by omega
    have hlen : (((block ch prev).drop (off * ch)).take N).length = N := by
      simp [block_length]; omega
    have hNmod : N % ch = 0 := by
      rcases Nat.le_total ((rqs - off) * ch) buf.length with h | h
      · rw [← hN, Nat.min_eq_left h]; exact Nat.mul_mod_left _ _
      · rw [← hN, Nat.min_eq_right h]; exact hbuf
    split at h
    · rename_i hempty
      simp only [Option.some.injEq, Prod.mk.injEq] at h
      obtain ⟨rfl, rfl, rfl⟩ := h
      have hbl : buf.length = N := by
        simp at hempty; omega
      refine ⟨by rw [hlen, hbl], ?_, [], by simp, ?_⟩
      · intro off' q' hoq
        simp only [hlen, Option.some.injEq, Prod.mk.injEq] at hoq
        obtain ⟨rfl, rfl⟩ := hoq
        refine ⟨?_, o2⟩
        have : off * ch + N / ch * ch ≤ rqs * ch := by
          have := Nat.div_mul_le_self N ch; omega
        rw [← Nat.add_mul] at this
        have := Nat.le_of_mul_le_mul_right this hch
        omega
      · simp only [pending, ho, hlen, List.flatMap_nil, List.append_nil]
        have : (off + N / ch) * ch = off * ch + N := by
          rw [Nat.add_mul, Nat.div_mul_cancel (Nat.dvd_of_mod_eq_zero hNmod)]
        rw [this, ← List.drop_drop, List.take_append_drop]
    · rename_i hempty
      split at h
      · cases h
      · rename_i s2 out2 bs2 h2
        simp only [Option.some.injEq, Prod.mk.injEq] at h
        obtain ⟨rfl, rfl, rfl⟩ := h
        have hN2 : N = (rqs - off) * ch := by
          simp at hempty; omega
        have hmod2 : (buf.drop N).length % ch = 0 := by
          rw [List.length_drop]
          exact Nat.sub_mod_eq_zero_of_mod_eq (by rw [hbuf, hNmod])
        obtain ⟨k1, k2, segs, k3, k4⟩ := renderRest_out sem hch (buf.drop N) hmod2
          { s with offset := none } rfl bs h2
        refine ⟨?_, k2, segs, k3, ?_⟩
        · rw [List.length_append, hlen, k1, List.length_drop]; omega
        · rw [List.append_assoc, k4]
          simp only [pending, ho]
          rw [List.take_of_length_le]
          rw [List.length_drop, block_length, hN2, Nat.sub_mul]

theorem run_out (sem : Sem G K) {ch : Nat} (hch : 0 < ch) (bufs : List (List K))
    (hbufs : ∀ b ∈ bufs, b.length % ch = 0) (s : St G K) (hs : OffOk ch s) (bs : List (List (Msg G)))
    {s' : St G K} {out : List K} {bs' : List (List (Msg G))}
    (h : run sem ch bufs s bs = some (s', out, bs')) :
    out.length = (bufs.map List.length).sum ∧ OffOk ch s' ∧ ∃ segs, s'.log = s.log ++ segs ∧
      out ++ pending ch s' = pending ch s ++ segs.flatMap (expand ch) := by
  induction bufs generalizing s bs s' out bs' with
  | nil =>
    simp [run] at h
    obtain ⟨rfl, rfl, rfl⟩ := h
    exact ⟨rfl, hs, [], by simp, by simp⟩
  | cons buf bufs ih =>
    simp only [run] at h
    split at h
    · cases h
    · rename_i s1 out1 bs1 h1
      split at h
      · cases h
      · rename_i s2 out2 bs2 h2
        simp only [Option.some.injEq, Prod.mk.injEq] at h
        obtain ⟨rfl, rfl, rfl⟩ := h
        obtain ⟨a1, a2, segs1, a3, a4⟩ := renderInner_out sem hch buf (hbufs buf (by simp)) s hs bs h1
        obtain ⟨b1, b2, segs2, b3, b4⟩ := ih (fun b hb => hbufs b (by simp [hb])) s1 a2 bs1 h2
        refine ⟨by simp [a1, b1], b2, segs1 ++ segs2, by rw [b3, a3, List.append_assoc], ?_⟩
        rw [List.append_assoc, b4, ← List.append_assoc, a4, List.flatMap_append, List.append_assoc]

/-! ## Induction principle for invariants -/

/-- `I` is preserved by everything the thread does -/
structure Preserved (sem : Sem G K) (I : St G K → Prop) : Prop where
  handle : ∀ s m s' b, I s → s.handle m = some (s', b) → I s'
  offset : ∀ s o, I s → I { s with offset := o }
  silence : ∀ s n, I s → I { s with log := s.log ++ [Seg.silence n] }
  quantum : ∀ s g, I s → s.graph = some g →
    I { s with frames := s.frames + rqs, graph := some (sem.render g s.frames).1,
               log := s.log ++ [Seg.quantum s.frames (sem.render g s.frames).2] }

theorem renderChunks_ind {sem : Sem G K} {I : St G K → Prop} (hI : Preserved sem I) {ch : Nat}
    (ns : List Nat) (buf : List K) (s : St G K) (hs : I s) (bs : List (List (Msg G))) {s' : St G K}
    {out : List K} {bs' : List (List (Msg G))}
    (h : renderChunks sem ch ns buf s bs = some (s', out, bs')) : I s' := by
  induction ns generalizing buf s bs s' out bs' with
  | nil => simp [renderChunks] at h; obtain ⟨rfl, _⟩ := h; exact hs
  | cons n ns ih =>
    simp only [renderChunks] at h
    split at h
    · cases h
    · rename_i g hg
      split at h
      · cases h
      · split at h
        · cases h
        · rename_i s1 bs1 hp
          split at h
          · cases h
          · rename_i s2 out2 bs2 h2
            simp only [Option.some.injEq, Prod.mk.injEq] at h
            obtain ⟨rfl, _⟩ := h
            refine ih _ _ ?_ _ h2
            refine (poll_ind (fun _ _ m _ s s' b => hI.handle s m s' b) ?_ hp).1
            have := hI.quantum s g hs hg
            split
            · exact hI.offset _ _ this
            · exact this

theorem renderRest_ind {sem : Sem G K} {I : St G K → Prop} (hI : Preserved sem I) {ch : Nat}
    (buf : List K) (s : St G K) (hs : I s) (bs : List (List (Msg G))) {s' : St G K}
    {out : List K} {bs' : List (List (Msg G))}
    (h : renderRest sem ch buf s bs = some (s', out, bs')) : I s' := by
  unfold renderRest at h
  split at h
  · cases h
  · rename_i s1 bs1 hp
    have h1 := (poll_ind (fun _ _ m _ s s' b => hI.handle s m s' b) hs hp).1
    split at h
    · simp at h
      obtain ⟨rfl, _⟩ := h
      exact hI.silence _ _ h1
    · exact renderChunks_ind hI _ _ _ h1 _ h

theorem renderInner_ind {sem : Sem G K} {I : St G K → Prop} (hI : Preserved sem I) {ch : Nat}
    (buf : List K) (s : St G K) (hs : I s) (bs : List (List (Msg G))) {s' : St G K}
    {out : List K} {bs' : List (List (Msg G))}
    (h : renderInner sem ch buf s bs = some (s', out, bs')) : I s' := by
  unfold renderInner at h
  split at h
  · exact renderRest_ind hI _ _ hs _ h
  · simp only at h
    split at h
    · cases h
    · split at h
      · simp only [Option.some.injEq, Prod.mk.injEq] at h
        obtain ⟨rfl, _⟩ := h
        exact hI.offset _ _ hs
      · split at h
        · cases h
        · rename_i h2
          simp only [Option.some.injEq, Prod.mk.injEq] at h
          obtain ⟨rfl, _⟩ := h
          exact renderRest_ind hI _ _ (hI.offset _ _ hs) _ h2

theorem run_ind {sem : Sem G K} {I : St G K → Prop} (hI : Preserved sem I) {ch : Nat}
    (bufs : List (List K)) (s : St G K) (hs : I s) (bs : List (List (Msg G))) {s' : St G K}
    {out : List K} {bs' : List (List (Msg G))}
    (h : run sem ch bufs s bs = some (s', out, bs')) : I s' := by
  induction bufs generalizing s bs s' out bs' with
  | nil => simp [run] at h; obtain ⟨rfl, _⟩ := h; exact hs
  | cons buf bufs ih =>
    simp only [run] at h
    split at h
    · cases h
    · rename_i s1 out1 bs1 h1
      split at h
      · cases h
      · rename_i s2 out2 bs2 h2
        simp only [Option.some.injEq, Prod.mk.injEq] at h
        obtain ⟨rfl, _⟩ := h
        exact ih s1 (renderInner_ind hI buf s hs bs h1) bs1 h2

/-! ## Rendering without control messages -/

/-- the next `n` quanta of a graph that is left alone -/
def renderSeq (sem : Sem G K) : Nat → G → Nat → List (Seg K)
  | 0, _, _ => []
  | n + 1, g, f => .quantum f (sem.render g f).2 :: renderSeq sem n (sem.render g f).1 (f + rqs)

def graphSeq (sem : Sem G K) : Nat → G → Nat → G
  | 0, g, _ => g
  | n + 1, g, f => graphSeq sem n (sem.render g f).1 (f + rqs)

omit [Zero K] in
theorem renderSeq_append (sem : Sem G K) (m n : Nat) (g : G) (f : Nat) :
    renderSeq sem m g f ++ renderSeq sem n (graphSeq sem m g f) (f + rqs * m) =
      renderSeq sem (m + n) g f := by
  induction m generalizing g f with
  | zero => simp [renderSeq, graphSeq]
  | succ m ih =>
    have := ih (sem.render g f).1 (f + rqs)
    rw [show m + 1 + n = (m + n) + 1 by omega]
    simp only [renderSeq, graphSeq, List.cons_append]
    rw [← this]
    congr 3
    simp only [rqs]; omega

omit [Zero K] in
theorem graphSeq_add (sem : Sem G K) (m n : Nat) (g : G) (f : Nat) :
    graphSeq sem n (graphSeq sem m g f) (f + rqs * m) = graphSeq sem (m + n) g f := by
  induction m generalizing g f with
  | zero => simp [graphSeq]
  | succ m ih =>
    have := ih (sem.render g f).1 (f + rqs)
    rw [show m + 1 + n = (m + n) + 1 by omega]
    simp only [graphSeq]
    rw [← this]
    congr 1
    simp only [rqs]; omega

/-- nothing happens but rendering: `n` quanta later -/
structure Later (sem : Sem G K) (ch : Nat) (g : G) (n : Nat) (s s' : St G K) : Prop where
  graph : s'.graph = some (graphSeq sem n g s.frames)
  frames : s'.frames = s.frames + rqs * n
  log : s'.log = s.log ++ renderSeq sem n g s.frames
  susp : s'.suspended = s.suspended
  off : OffOk ch s → OffOk ch s'

omit [Zero K] in
theorem poll_nil {s : St G K} {bs : List (List (Msg G))} (hb : ∀ b ∈ bs, b = []) :
    ∃ bs', s.poll bs = some (s, bs') ∧ ∀ b ∈ bs', b = [] := by
  unfold St.poll
  split
  · cases bs with
    | nil => exact ⟨[], rfl, by simp⟩
    | cons b bs =>
      have : b = [] := hb b (by simp)
      subst this
      exact ⟨bs, rfl, fun b h => hb b (by simp [h])⟩
  · exact ⟨bs, rfl, hb⟩

theorem renderChunks_quiet (sem : Sem G K) {ch : Nat} (hch : 0 < ch) (ns : List Nat)
    (hns : ∀ n ∈ ns, n ≤ rqs * ch) (buf : List K) (s : St G K) (g : G) (hg : s.graph = some g)
    (bs : List (List (Msg G))) (hb : ∀ b ∈ bs, b = []) :
    ∃ s' out bs' n, renderChunks sem ch ns buf s bs = some (s', out, bs') ∧ Later sem ch g n s s' ∧
      ∀ b ∈ bs', b = [] := by
  induction ns generalizing buf s g bs with
  | nil =>
    exact ⟨s, buf, bs, 0, rfl, ⟨hg, rfl, by simp [renderSeq], rfl, id⟩, hb⟩
  | cons n ns ih =>
    simp only [renderChunks, hg]
    have hn := hns n (by simp)
    rw [copyOut_block hch (pad_length ch _) (by simp; omega)]
    simp only
    generalize hs1 : (if n ≠ rqs * ch then _ else _ : St G K) = s1
    have f1 : s1.graph = some (sem.render g s.frames).1 := by rw [← hs1]; split <;> rfl
    have f2 : s1.frames = s.frames + rqs := by rw [← hs1]; split <;> rfl
    have f3 : s1.log = s.log ++ [Seg.quantum s.frames (sem.render g s.frames).2] := by
      rw [← hs1]; split <;> rfl
    have f4 : s1.suspended = s.suspended := by rw [← hs1]; split <;> rfl
    have f5 : OffOk ch s → OffOk ch s1 := by
      intro ho off q hoq
      rw [← hs1] at hoq
      split at hoq
      · simp at hoq
        obtain ⟨rfl, rfl⟩ := hoq
        refine ⟨?_, pad_length ch _⟩
        apply Nat.div_le_of_le_mul
        rw [Nat.mul_comm]; exact hn
      · exact ho off q hoq
    obtain ⟨bs1, hp, hb1⟩ := poll_nil (s := s1) hb
    rw [hp]
    obtain ⟨s', out, bs', k, h1, h2, h3⟩ := ih (fun n h => hns n (by simp [h])) (buf.drop n) s1 _ f1 bs1 hb1
    simp only [h1]
    refine ⟨s', _, bs', k + 1, rfl, ⟨?_, ?_, ?_, h2.susp.trans f4, fun h => h2.off (f5 h)⟩, h3⟩
    · rw [h2.graph, f2]; rfl
    · rw [h2.frames, f2]; simp only [rqs]; omega
    · rw [h2.log, f3, f2]; simp [renderSeq]

theorem chunkLens_le (n : Nat) {c : Nat} (hc : 0 < c) : ∀ k ∈ chunkLens n c, k ≤ c := by
  intro k hk
  unfold chunkLens at hk
  rcases List.mem_append.1 hk with h | h
  · exact (List.eq_of_mem_replicate h).le
  · split at h
    · cases h
    · simp at h
      subst h
      exact (Nat.mod_lt _ hc).le

theorem renderInner_quiet (sem : Sem G K) {ch : Nat} (hch : 0 < ch)
    (hact : ∀ g f, sem.active g = true → sem.active (sem.render g f).1 = true)
    (buf : List K) (s : St G K) (hs : OffOk ch s) (g : G) (hg : s.graph = some g)
    (ha : sem.active g = true) (hsus : s.suspended = false)
    (bs : List (List (Msg G))) (hb : ∀ b ∈ bs, b = []) :
    ∃ s' out bs' n, renderInner sem ch buf s bs = some (s', out, bs') ∧ Later sem ch g n s s' ∧
      ∀ b ∈ bs', b = [] := by
  have rest : ∀ (buf : List K) (s : St G K), s.graph = some g → s.suspended = false →
      ∃ s' out bs' n, renderRest sem ch buf s bs = some (s', out, bs') ∧ Later sem ch g n s s' ∧
        ∀ b ∈ bs', b = [] := by
    intro buf s hg hsus
    obtain ⟨bs1, hp, hb1⟩ := poll_nil (s := s) hb
    simp only [renderRest, hp]
    rw [if_neg (by simp [St.mute, hsus, hg, ha])]
    exact renderChunks_quiet sem hch _ (chunkLens_le _ (by simp only [rqs]; omega)) buf s g hg bs1 hb1
  unfold renderInner
  cases ho : s.offset with
  | none => exact rest buf s hg hsus
  | some p =>
    obtain ⟨off, prev⟩ := p
    obtain ⟨o1, o2⟩ := hs _ _ ho
    simp only
    have hn : off * ch + min ((rqs - off) * ch) buf.length ≤ rqs * ch := by
      have : off * ch + (rqs - off) * ch = rqs * ch := by rw [← Nat.add_mul]; congr 1; omega
      omega
    rw [copyOut_block hch o2 (by simpa using hn)]
    simp only
    split
    · refine ⟨_, _, bs, 0, rfl, ⟨hg, rfl, by simp [renderSeq], rfl, fun _ => ?_⟩, hb⟩
      intro off' q' hoq
      simp only [Option.some.injEq, Prod.mk.injEq] at hoq
      obtain ⟨rfl, rfl⟩ := hoq
      refine ⟨?_, o2⟩
      generalize hL : (List.take _ (List.drop _ (block ch prev))).length = L
      have hL2 : L ≤ (rqs - off) * ch := by
        rw [← hL, List.length_take, List.length_take]
        omega
      have : L / ch ≤ rqs - off := Nat.div_le_of_le_mul (by rw [Nat.mul_comm]; exact hL2)
      omega
    · obtain ⟨s', out, bs', n, h1, h2, h3⟩ := rest (buf.drop (min ((rqs - off) * ch) buf.length))
        { s with offset := none } hg hsus
      simp only [h1]
      exact ⟨s', _, bs', n, rfl, ⟨h2.graph, h2.frames, h2.log, h2.susp,
        fun _ => h2.off (by simp [OffOk])⟩, h3⟩

theorem graphSeq_active (sem : Sem G K)
    (hact : ∀ g f, sem.active g = true → sem.active (sem.render g f).1 = true) (n : Nat) (g : G) (f : Nat)
    (h : sem.active g = true) : sem.active (graphSeq sem n g f) = true := by
  induction n generalizing g f with
  | zero => exact h
  | succ n ih => exact ih _ _ (hact _ _ h)

theorem run_quiet (sem : Sem G K) {ch : Nat} (hch : 0 < ch)
    (hact : ∀ g f, sem.active g = true → sem.active (sem.render g f).1 = true)
    (bufs : List (List K)) (s : St G K) (hs : OffOk ch s) (g : G) (hg : s.graph = some g)
    (ha : sem.active g = true) (hsus : s.suspended = false)
    (bs : List (List (Msg G))) (hb : ∀ b ∈ bs, b = []) :
    ∃ s' out bs' n, run sem ch bufs s bs = some (s', out, bs') ∧ Later sem ch g n s s' := by
  induction bufs generalizing s g bs with
  | nil => exact ⟨s, [], bs, 0, rfl, ⟨hg, rfl, by simp [renderSeq], rfl, id⟩⟩
  | cons buf bufs ih =>
    obtain ⟨s1, out1, bs1, n1, h1, h2, h3⟩ :=
      renderInner_quiet sem hch hact buf s hs g hg ha hsus bs hb
    obtain ⟨s2, out2, bs2, n2, k1, k2⟩ := ih s1 (h2.off hs) _ h2.graph
      (graphSeq_active sem hact _ _ _ ha) (h2.susp.trans hsus) bs1 h3
    simp only [run, h1, k1]
    refine ⟨s2, _, bs2, n1 + n2, rfl, ⟨?_, ?_, ?_, k2.susp.trans h2.susp, fun h => k2.off (h2.off h)⟩⟩
    · rw [k2.graph, h2.frames, graphSeq_add]
    · rw [k2.frames, h2.frames]; simp only [rqs]; omega
    · rw [k2.log, h2.log, h2.frames, List.append_assoc, renderSeq_append]

end Verif.Thread
