import Verif.Buffer.Stream

/-!
# C50: media streams are re-chunked without loss
-/

namespace Verif.Buffer

open Verif.Float (Rounding)

variable {K V : Type}

/-- samples of channel `c` -/
def Buf.chan (b : Buf K V) (c : Nat) : List V := (b.channels[c]?).getD []

/-- samples of channel `c` of a sequence of buffers, one after the other -/
def joined (bs : List (Buf K V)) (c : Nat) : List V := (bs.map (·.chan c)).flatten

/-- a proper buffer with `n` channels and the given rate -/
structure Good (n : Nat) (rate : K) (b : Buf K V) : Prop where
  wf : b.WF
  chans : b.channels.length = n
  rate : b.rate = rate

theorem Good.chan_length {n : Nat} {rate : K} {b : Buf K V} (h : Good n rate b) {c : Nat} (hc : c < n) :
    (b.chan c).length = b.length := by
  have hc' : c < b.channels.length := h.chans ▸ hc
  simp only [Buf.chan, List.getElem?_eq_getElem hc', Option.getD_some]
  exact h.wf _ (List.getElem_mem hc')

theorem length_of_chan {b : Buf K V} (h : 0 < b.channels.length) : b.length = (b.chan 0).length := by
  cases hb : b.channels with
  | nil => simp [hb] at h
  | cons c cs => simp [Buf.length, Buf.chan, hb]

/-- a buffer whose channels have the lengths they should -/
theorem good_of {n : Nat} (hn : 0 < n) {rate : K} {b : Buf K V} {len : Nat} (h1 : b.channels.length = n)
    (h2 : b.rate = rate) (h3 : ∀ c < n, (b.chan c).length = len) : Good n rate b ∧ b.length = len := by
  have hl : b.length = len := by rw [length_of_chan (by omega), h3 0 hn]
  refine ⟨⟨fun c hc => ?_, h1, h2⟩, hl⟩
  obtain ⟨i, hi, rfl⟩ := List.getElem_of_mem hc
  have := h3 i (h1 ▸ hi)
  simp only [Buf.chan, List.getElem?_eq_getElem hi, Option.getD_some] at this
  rw [this, hl]

theorem good_of_map {n : Nat} (hn : 0 < n) {rate : K} {cs : List (List V)} (hcs : cs.length = n) {L : Nat}
    {f : List V → List V} (hf : ∀ c, (f c).length = L) : Good n rate (⟨cs.map f, rate⟩ : Buf K V) := by
  refine (good_of hn (b := ⟨cs.map f, rate⟩) (len := L) (by simp [hcs]) rfl fun c hc => ?_).1
  have hc' : c < cs.length := hcs.symm ▸ hc
  simp [Buf.chan, List.getElem?_eq_getElem hc', hf]

theorem extend_good [DecidableEq K] {n : Nat} (hn : 0 < n) {rate : K} {b o : Buf K V} (hb : Good n rate b)
    (ho : Good n rate o) :
    ∃ b', b.extend o = some b' ∧ Good n rate b' ∧ b'.length = b.length + o.length ∧
      ∀ c < n, b'.chan c = b.chan c ++ o.chan c := by
  have hch : ∀ c < n, (⟨List.zipWith (· ++ ·) b.channels o.channels, b.rate⟩ : Buf K V).chan c
      = b.chan c ++ o.chan c := by
    intro c hc
    have h1 : c < b.channels.length := hb.chans ▸ hc
    have h2 : c < o.channels.length := ho.chans ▸ hc
    simp [Buf.chan, List.getElem?_zipWith, List.getElem?_eq_getElem h1, List.getElem?_eq_getElem h2]
  refine ⟨_, if_pos ⟨hb.rate.trans ho.rate.symm, hb.chans.trans ho.chans.symm⟩, ?_⟩
  have := good_of hn (b := ⟨List.zipWith (· ++ ·) b.channels o.channels, b.rate⟩)
    (len := b.length + o.length) (by simp [hb.chans, ho.chans]) hb.rate (fun c hc => by
      rw [hch c hc, List.length_append, hb.chan_length hc, ho.chan_length hc])
  exact ⟨this.1, this.2, hch⟩

theorem splitOff_good {n : Nat} (hn : 0 < n) {rate : K} {b : Buf K V} (hb : Good n rate b) {i : Nat}
    (hi : i ≤ b.length) :
    ∃ x, b.splitOff i = some x ∧ Good n rate x.1 ∧ Good n rate x.2 ∧ x.1.length = i ∧
      x.2.length = b.length - i ∧ ∀ c < n, b.chan c = x.1.chan c ++ x.2.chan c := by
  have h1 : ∀ c < n, (⟨b.channels.map (·.take i), b.rate⟩ : Buf K V).chan c = (b.chan c).take i := by
    intro c hc
    have h1 : c < b.channels.length := hb.chans ▸ hc
    simp [Buf.chan, List.getElem?_eq_getElem h1]
  have h2 : ∀ c < n, (⟨b.channels.map (·.drop i), b.rate⟩ : Buf K V).chan c = (b.chan c).drop i := by
    intro c hc
    have h1 : c < b.channels.length := hb.chans ▸ hc
    simp [Buf.chan, List.getElem?_eq_getElem h1]
  refine ⟨_, if_pos fun c hc => by rw [hb.wf c hc]; exact hi, ?_⟩
  have g1 := good_of hn (b := ⟨b.channels.map (·.take i), b.rate⟩) (len := i) (by simp [hb.chans])
    hb.rate (fun c hc => by rw [h1 c hc, List.length_take, hb.chan_length hc]; omega)
  have g2 := good_of hn (b := ⟨b.channels.map (·.drop i), b.rate⟩) (len := b.length - i)
    (by simp [hb.chans]) hb.rate (fun c hc => by rw [h2 c hc, List.length_drop, hb.chan_length hc])
  exact ⟨g1.1, g2.1, g1.2, g2.2, fun c hc => by
    dsimp only
    rw [h1 c hc, h2 c hc, List.take_append_drop]⟩

variable [Field K] [LinearOrder K] [Zero V]

theorem new_good {n : Nat} (hn : 0 < n) (hn' : n ≤ 32) {rate : K} (hr : validRate rate) {len : Nat}
    (hl : 0 < len) :
    ∃ b : Buf K V, Buf.new n len rate = some b ∧ Good n rate b ∧ b.length = len ∧
      ∀ c < n, b.chan c = List.replicate len 0 := by
  have hch : ∀ c < n, (⟨List.replicate n (List.replicate len 0), rate⟩ : Buf K V).chan c
      = List.replicate len 0 := by
    intro c hc
    simp [Buf.chan, hc]
  have g := good_of hn (b := (⟨List.replicate n (List.replicate len 0), rate⟩ : Buf K V)) (len := len)
    (by simp) rfl (fun c hc => by rw [hch c hc, List.length_replicate])
  exact ⟨_, if_pos ⟨hr, hl, hn, hn'⟩, g.1, g.2, hch⟩

/-- number of frames still to come -/
def frames (g : Buf K V → Buf K V) (ds : List (Buf K V)) : Nat := (ds.map fun d => (g d).length).sum

/-- what is left of the state: buffered samples and chunks to come -/
def pending (g : Buf K V → Buf K V) (r : Option (Buf K V)) (ds : List (Buf K V)) (c : Nat) : List V :=
  (r.map (·.chan c)).getD [] ++ joined (ds.map g) c

theorem fill_spec {n : Nat} (hn : 0 < n) (hn' : n ≤ 32) {rate : K} (hr : validRate rate) {len : Nat}
    {rs : Buf K V → Option (Buf K V)} {g : Buf K V → Buf K V} :
    ∀ (ds : List (Buf K V)) (_ : ∀ d ∈ ds, rs d = some (g d) ∧ Good n rate (g d)) (b : Buf K V)
      (_ : Good n rate b),
    ∃ (o : Buf K V) (r : Option (Buf K V)) (ds' : List (Buf K V)) (z : Nat),
      fill rs rate len b (ds.map some) = some (.buf o, ⟨rate, len, ds'.map some, r⟩) ∧
      Good n rate o ∧ o.length = len ∧ ds'.IsSuffix ds ∧ (∀ b' ∈ r, Good n rate b' ∧ 0 < b'.length) ∧
      (0 < z → r = none ∧ ds' = []) ∧ (z ≤ len - (b.length + frames g ds)) ∧
      ∀ c < n, b.chan c ++ joined (ds.map g) c ++ List.replicate z 0 =
        o.chan c ++ pending g r ds' c := by
  intro ds
  induction ds with
  | nil =>
    intro _ b hb
    simp only [fill, List.map_nil]
    by_cases h1 : b.length < len
    · obtain ⟨pad, hp, hpg, hpl, hpc⟩ := new_good (V := V) hn hn' hr (len := len - b.length) (by omega)
      obtain ⟨b', hb', hbg, hbl, hbc⟩ := extend_good hn hb hpg
      refine ⟨b', none, [], len - b.length, ?_, hbg, by omega, List.suffix_refl _, by simp, by simp,
        by simp [frames], ?_⟩
      · rw [if_pos h1, hb.chans, hp, Option.bind_some, hb']
        rfl
      · intro c hc
        rw [hbc c hc, hpc c hc]
        simp [joined, pending]
    · rw [if_neg h1]
      by_cases h2 : b.length = len
      · refine ⟨b, none, [], 0, if_pos h2, hb, h2, List.suffix_refl _, by simp, by simp, by omega, ?_⟩
        intro c hc
        simp [joined, pending]
      · rw [if_neg h2]
        obtain ⟨⟨a, r⟩, hx, hg1, hg2, hl1, hl2, hcc⟩ := splitOff_good hn hb (i := len) (by omega)
        refine ⟨a, some r, [], 0, ?_, hg1, hl1, List.suffix_refl _, ?_, by simp, by omega, ?_⟩
        · rw [hx]; rfl
        · rintro b' hb'
          obtain rfl := Option.some.inj hb'
          exact ⟨hg2, by simp only at hl2; omega⟩
        · intro c hc
          rw [hcc c hc]
          simp [joined, pending]
  | cons d ds ih =>
    intro hds b hb
    simp only [fill, List.map_cons]
    by_cases h1 : b.length < len
    · rw [if_pos h1]
      obtain ⟨hd1, hd2⟩ := hds d (by simp)
      obtain ⟨b', hb', hbg, hbl, hbc⟩ := extend_good hn hb hd2
      obtain ⟨o, r, ds', z, e1, e2, e3, e4, e5, e6, e7, e8⟩ :=
        ih (fun x hx => hds x (by simp [hx])) b' hbg
      refine ⟨o, r, ds', z, ?_, e2, e3, e4.trans (List.suffix_cons _ _), e5, e6, ?_, ?_⟩
      · rw [hd1, Option.bind_some, hb', Option.bind_some, e1]
      · simp only [frames, List.map_cons, List.sum_cons] at e7 ⊢
        omega
      · intro c hc
        rw [← e8 c hc, hbc c hc]
        simp [joined]
    · rw [if_neg h1]
      by_cases h2 : b.length = len
      · refine ⟨b, none, d :: ds, 0, if_pos h2, hb, h2, List.suffix_refl _, by simp, by simp, by omega, ?_⟩
        intro c hc
        simp [pending]
      · rw [if_neg h2]
        obtain ⟨⟨a, r⟩, hx, hg1, hg2, hl1, hl2, hcc⟩ := splitOff_good hn hb (i := len) (by omega)
        refine ⟨a, some r, d :: ds, 0, ?_, hg1, hl1, List.suffix_refl _, ?_, by simp, by omega, ?_⟩
        · rw [hx]; rfl
        · rintro b' hb'
          obtain rfl := Option.some.inj hb'
          exact ⟨hg2, by simp only at hl2; omega⟩
        · intro c hc
          rw [hcc c hc]
          simp [pending]

/-- The complete run from a state, as long as no chunk fails. -/
theorem run_spec {n : Nat} (hn : 0 < n) (hn' : n ≤ 32) {rate : K} (hr : validRate rate) {len : Nat}
    (hlen : 0 < len) {rs : Buf K V → Option (Buf K V)} {g : Buf K V → Buf K V} (m : Nat) :
    ∀ (ds : List (Buf K V)) (_ : ∀ d ∈ ds, rs d = some (g d) ∧ Good n rate (g d))
      (r : Option (Buf K V)) (_ : ∀ b ∈ r, Good n rate b ∧ 0 < b.length)
      (_ : (pending g r ds 0).length + ds.length ≤ m),
    ∃ (outs : List (Buf K V)) (z : Nat),
      Rs.run rs (outs.length + 1) ⟨rate, len, ds.map some, r⟩
        = some (outs.map .buf ++ [.done], ⟨rate, len, [], none⟩) ∧
      (∀ o ∈ outs, Good n rate o ∧ o.length = len) ∧ z ≤ len ∧
      ((∀ d ∈ ds, 0 < (g d).length) → z < len) ∧
      ∀ c < n, joined outs c = pending g r ds c ++ List.replicate z 0 := by
  induction m with
  | zero =>
    intro ds hds r hrg hm
    have hd : ds = [] := List.eq_nil_of_length_eq_zero (by omega)
    subst hd
    have hr' : r = none := by
      cases r with
      | none => rfl
      | some b =>
        have h := hrg b rfl
        have h2 := h.1.chan_length hn
        simp [pending, joined] at hm
        rw [hm] at h2
        simp at h2
        omega
    subst hr'
    exact ⟨[], 0, rfl, by simp, by omega, fun _ => hlen, fun c _ => by simp [joined, pending]⟩
  | succ m ih =>
    intro ds hds r hrg hm
    -- the call of `next` is a call of `fill`
    have step : (r = none ∧ ds = []) ∨ ∃ (b : Buf K V) (ds0 : List (Buf K V)), Good n rate b ∧
        ds0.IsSuffix ds ∧ Rs.next rs ⟨rate, len, ds.map some, r⟩ = fill rs rate len b (ds0.map some) ∧
        (∀ c < n, pending g r ds c = b.chan c ++ joined (ds0.map g) c) ∧
        (ds0.length < ds.length ∨ (0 < b.length ∧ ds0 = ds)) ∧
        ((∀ d ∈ ds, 0 < (g d).length) → 0 < b.length) := by
      cases r with
      | none =>
        cases ds with
        | nil => exact Or.inl ⟨rfl, rfl⟩
        | cons d ds =>
          obtain ⟨hd1, hd2⟩ := hds d (by simp)
          refine Or.inr ⟨g d, ds, hd2, List.suffix_cons _ _, ?_, fun c _ => ?_, Or.inl (by simp), ?_⟩
          · simp [Rs.next, hd1]
          · simp [pending, joined]
          · exact fun h => h d (by simp)
      | some b =>
        have h := hrg b rfl
        exact Or.inr ⟨b, ds, h.1, List.suffix_refl _, rfl, fun c _ => by simp [pending],
          Or.inr ⟨h.2, rfl⟩, fun _ => h.2⟩
    rcases step with ⟨rfl, rfl⟩ | ⟨b, ds0, hb, hsuf, hnext, hpend, hdec, hpos⟩
    · exact ⟨[], 0, rfl, by simp, by omega, fun _ => hlen, fun c _ => by simp [joined, pending]⟩
    · obtain ⟨o, r', ds', z, e1, e2, e3, e4, e5, e6, e7, e8⟩ := fill_spec hn hn' hr (len := len) ds0
        (fun d hd => hds d (hsuf.subset hd)) b hb
      have hsub : ∀ d ∈ ds', d ∈ ds := fun d hd => hsuf.subset (e4.subset hd)
      by_cases hz : 0 < z
      · obtain ⟨rfl, rfl⟩ := e6 hz
        refine ⟨[o], z, ?_, ?_, ?_, ?_, ?_⟩
        · simp only [List.length_singleton, Rs.run, hnext, e1, Option.bind_some]
          rfl
        · intro x hx
          rw [List.mem_singleton.1 hx]
          exact ⟨e2, e3⟩
        · omega
        · intro hall
          have := hpos hall
          omega
        · intro c hc
          rw [hpend c hc, e8 c hc]
          simp [joined, pending]
      · have hz0 : z = 0 := by omega
        subst hz0
        have h8 := e8 0 hn
        rw [List.replicate_zero, List.append_nil, ← hpend 0 hn] at h8
        have hl8 := congrArg List.length h8
        rw [List.length_append, e2.chan_length hn, e3] at hl8
        have hle1 : ds'.length ≤ ds0.length := e4.length_le
        have hle2 : ds0.length ≤ ds.length := hsuf.length_le
        obtain ⟨outs, z, f1, f2, f3, f4, f5⟩ := ih ds' (fun d hd => hds d (hsub d hd)) r' e5 (by omega)
        refine ⟨o :: outs, z, ?_, ?_, f3, fun hall => f4 fun d hd => hall d (hsub d hd), ?_⟩
        · rw [List.length_cons, Rs.run, hnext, e1, Option.bind_some, f1]
          rfl
        · intro x hx
          rcases List.mem_cons.1 hx with rfl | hx
          · exact ⟨e2, e3⟩
          · exact f2 x hx
        · intro c hc
          have h8 := e8 c hc
          rw [List.replicate_zero, List.append_nil, ← hpend c hc] at h8
          rw [h8, List.append_assoc, ← f5 c hc]
          simp [joined]

/-! ## With the resampler of the code -/

/-- silence is the number 0 -/
instance {K : Type} [Zero K] : Zero (Option K) := ⟨some 0⟩

omit [Zero V] in
theorem resample_good [IsStrictOrderedRing K] [FloorSemiring K] {r64 r32 : K → K} {N : Nat}
    (h64 : Rounding r64 N) (h32 : Rounding r32 1) (hN : 1 ≤ N) {n : Nat} (hn : 0 < n) {rate : K}
    (hr : validRate rate) {d : Buf K (Option K)} (hd : d.WF) (hdn : d.channels.length = n)
    (hs : d.length - 1 ≤ N) :
    ∃ d', d.resample r64 r32 rate = some d' ∧ Good n rate d' := by
  by_cases h1 : |d.rate - rate| ≤ 1 / 10 ∨ d.length = 0
  · refine ⟨⟨d.channels, rate⟩, ?_, ⟨hd, hdn, rfl⟩⟩
    simp only [Buf.resample]
    rw [if_neg (not_not.2 hr)]
    by_cases h2 : |d.rate - rate| ≤ 1 / 10
    · rw [if_pos h2]
    · rw [if_neg h2, if_pos (h1.resolve_left h2)]
  · push Not at h1
    have hlen : 0 < d.length := by omega
    by_cases htl : 2 ≤ targetLength r64 d.length d.rate rate
    · rw [resample_eq h64 h32 hd hr h1.1 hlen hs hN htl]
      exact ⟨_, rfl, good_of_map hn hdn fun c => by rw [List.length_map, List.length_range]⟩
    · have hmap : d.resample r64 r32 rate = some ⟨d.channels.map fun c =>
          (List.range (targetLength r64 d.length d.rate rate)).map fun i =>
          (frameAt r64 r32 c d.length (targetLength r64 d.length d.rate rate) i).getD none, rate⟩ := by
        simp only [Buf.resample]
        rw [if_neg (not_not.2 hr), if_neg (not_le.2 h1.1), if_neg (by omega), mapM_eq_map,
          Option.map_some]
        intro c hc
        apply mapM_eq_map
        intro i hi
        have hcl := hd c hc
        have ht0 : targetLength r64 d.length d.rate rate - 1 = 0 := by omega
        simp only [frameAt, playhead, ht0, if_true, prevIndex]
        rw [List.getElem?_eq_getElem (show 0 < c.length by omega),
          List.getElem?_eq_getElem (show min (0 + 1) (d.length - 1) < c.length by omega)]
        rfl
      rw [hmap]
      exact ⟨_, rfl, good_of_map hn hdn fun c => by rw [List.length_map, List.length_range]⟩

/-- **C50** Whatever the sizes of the chunks of a stream, `Resampler` delivers quanta of exactly `len`
frames, whose samples are those of the resampled chunks one after the other, then less than a quantum of
zeros (if no chunk is empty), and then the end. Missing for the full property: chunks of another sample
rate are resampled one by one, the stream must not contain an error and the number of channels must not
change; see the negations below. -/
theorem C50_rechunk_partial [IsStrictOrderedRing K] [FloorSemiring K] {r64 r32 : K → K} {N : Nat}
    (h64 : Rounding r64 N) (h32 : Rounding r32 1) (hN : 1 ≤ N) {n : Nat} (hn : 0 < n) (hn' : n ≤ 32)
    {rate : K} (hr : validRate rate) {len : Nat} (hlen : 0 < len) (ds : List (Buf K (Option K)))
    (hds : ∀ d ∈ ds, d.WF ∧ d.channels.length = n ∧ d.length - 1 ≤ N) :
    ∃ (rds outs : List (Buf K (Option K))) (z : Nat),
      rds.length = ds.length ∧ (∀ (i : Nat) (d : Buf K (Option K)), ds[i]? = some d →
        rds[i]? = d.resample r64 r32 rate) ∧
      Rs.run (fun d => d.resample r64 r32 rate) (outs.length + 1) (Rs.new rate len (ds.map some))
        = some (outs.map .buf ++ [.done], ⟨rate, len, [], none⟩) ∧
      (∀ o ∈ outs, Good n rate o ∧ o.length = len) ∧ z ≤ len ∧
      ((∀ d ∈ rds, 0 < d.length) → z < len) ∧
      ∀ c < n, joined outs c = joined rds c ++ List.replicate z 0 := by
  let g : Buf K (Option K) → Buf K (Option K) := fun d => (d.resample r64 r32 rate).getD d
  have hg : ∀ d ∈ ds, d.resample r64 r32 rate = some (g d) ∧ Good n rate (g d) := by
    intro d hd
    obtain ⟨h1, h2, h3⟩ := hds d hd
    obtain ⟨d', e, gd⟩ := resample_good h64 h32 hN hn hr h1 h2 h3
    simp only [g, e, Option.getD_some]
    exact ⟨trivial, gd⟩
  obtain ⟨outs, z, e1, e2, e3, e4, e5⟩ := run_spec hn hn' hr hlen
    (rs := fun d => d.resample r64 r32 rate) (g := g) _ ds hg none (by simp) le_rfl
  refine ⟨ds.map g, outs, z, by simp, ?_, e1, e2, e3, ?_, fun c hc => ?_⟩
  · intro i d hd
    rw [List.getElem?_map, hd, Option.map_some, (hg d (List.mem_of_getElem? hd)).1]
  · exact fun h => e4 fun d hd => h _ (List.mem_map_of_mem hd)
  · rw [e5 c hc]
    simp [pending]

/-- **C50** A stream at the rate of the context is delivered sample by sample as it is. -/
theorem C50_same_rate_partial [IsStrictOrderedRing K] [FloorSemiring K] {r64 r32 : K → K} {N : Nat}
    (h64 : Rounding r64 N) (h32 : Rounding r32 1) (hN : 1 ≤ N) {n : Nat} (hn : 0 < n) (hn' : n ≤ 32)
    {rate : K} (hr : validRate rate) {len : Nat} (hlen : 0 < len) (ds : List (Buf K (Option K)))
    (hds : ∀ d ∈ ds, d.WF ∧ d.channels.length = n ∧ d.length - 1 ≤ N) (hrate : ∀ d ∈ ds, d.rate = rate)
    (hne : ∀ d ∈ ds, 0 < d.length) :
    ∃ (outs : List (Buf K (Option K))) (z : Nat),
      Rs.run (fun d => d.resample r64 r32 rate) (outs.length + 1) (Rs.new rate len (ds.map some))
        = some (outs.map .buf ++ [.done], ⟨rate, len, [], none⟩) ∧
      (∀ o ∈ outs, Good n rate o ∧ o.length = len) ∧ z < len ∧
      ∀ c < n, joined outs c = joined ds c ++ List.replicate z 0 := by
  obtain ⟨rds, outs, z, h1, h2, h3, h4, -, h6, h7⟩ :=
    C50_rechunk_partial h64 h32 hN hn hn' hr hlen ds hds
  have hr : rds = ds := by
    apply List.ext_getElem?
    intro i
    cases hi : ds[i]? with
    | none =>
      rw [List.getElem?_eq_none_iff] at hi ⊢
      omega
    | some d =>
      have hd := List.mem_of_getElem? hi
      rw [h2 i d hi]
      simp only [Buf.resample]
      rw [if_neg (not_not.2 hr), hrate d hd, sub_self, abs_zero, if_pos (by norm_num)]
      rw [← hrate d hd]
  subst hr
  exact ⟨outs, z, h3, h4, h6 hne, h7⟩

/-- **C50** The renderer outputs the quanta of the stream one by one, keeps itself alive until the last
one, then outputs silence and reports that it has finished. -/
theorem C50_render (rs : Buf K V → Option (Buf K V)) :
    ∀ (outs : List (Buf K V)) (s s' : Rs K V), (∀ o ∈ outs, o.WF ∧ o.length = 128) →
      Rs.run rs (outs.length + 1) s = some (outs.map .buf ++ [.done], s') →
      renderRun rs (outs.length + 1) (s, false) =
        some (outs.map (fun o => (o.channels, true)) ++ [([List.replicate 128 0], false)], (s', true)) := by
  intro outs
  induction outs with
  | nil =>
    intro s s' _ h
    simp only [List.length_nil, Rs.run, List.map_nil, List.nil_append] at h
    obtain ⟨x, hx, hy⟩ := Option.bind_eq_some_iff.1 h
    obtain ⟨x1, x2⟩ := x
    simp only [Option.map_some, Option.some.injEq, Prod.mk.injEq, List.cons.injEq, and_true] at hy
    obtain ⟨rfl, rfl⟩ := hy
    simp [renderRun, render, hx]
  | cons o outs ih =>
    intro s s' ho h
    rw [List.length_cons, Rs.run] at h
    obtain ⟨⟨x1, x2⟩, hx, hy⟩ := Option.bind_eq_some_iff.1 h
    obtain ⟨⟨y1, y2⟩, hy1, hy2⟩ := Option.map_eq_some_iff.1 hy
    simp only [List.map_cons, List.cons_append, Prod.mk.injEq, List.cons.injEq] at hy2
    obtain ⟨⟨rfl, rfl⟩, rfl⟩ := hy2
    obtain ⟨w1, w2⟩ := ho o (by simp)
    rw [List.length_cons, renderRun]
    have : render rs (s, false) = some ((x2, false), o.channels, true) := by
      simp only [render, hx, Option.bind_some]
      rw [if_pos fun c hc => by rw [w1 c hc, w2]]
      rfl
    rw [this, Option.bind_some, ih x2 _ (fun p hp => ho p (by simp [hp])) hy1]
    rfl

/-- **C50** An error at a quantum border (for example at the very beginning) is reported once, and the stream goes on
as if it was not there. -/
theorem C50_error_skipped (rs : Buf K V → Option (Buf K V)) (rate : K) (len n : Nat)
    (input : List (Option (Buf K V))) :
    Rs.run rs (n + 1) (Rs.new rate len (none :: input)) =
      (Rs.run rs n (Rs.new rate len input)).map fun x => (.err :: x.1, x.2) := by
  simp [Rs.run, Rs.next, Rs.new]

/-- chunks of two, five and one frames -/
def exChunks : List (Buf ℚ (Option ℚ)) :=
  [⟨[[some 1, some 2]], 48000⟩, ⟨[[some 3, some 4, some 5, some 6, some 7]], 48000⟩, ⟨[[some 8]], 48000⟩]

/-- the outcome of six calls with quanta of three frames -/
example : (Rs.run (fun d => d.resample id id 48000) 4 (Rs.new 48000 3 (exChunks.map some))).map (·.1) =
    some [.buf ⟨[[some 1, some 2, some 3]], 48000⟩, .buf ⟨[[some 4, some 5, some 6]], 48000⟩,
      .buf ⟨[[some 7, some 8, some 0]], 48000⟩, .done] := by decide +kernel

example : (∀ d ∈ exChunks, d.WF ∧ d.channels.length = 1 ∧ d.length - 1 ≤ 2 ^ 53) ∧
    (∀ d ∈ exChunks, d.rate = 48000) ∧ (∀ d ∈ exChunks, 0 < d.length) := by decide +kernel

/-- **C50** negated: an error in the stream discards the samples that were already collected for the
quantum. -/
theorem C50_negated_error :
    (Rs.run (fun d => d.resample id id 48000) 4
      (Rs.new (48000 : ℚ) 3 [some ⟨[[some 1, some 2]], 48000⟩, none,
        some ⟨[[some 3, some 4, some 5]], 48000⟩])).map (·.1) =
    some [.err, .buf ⟨[[some 3, some 4, some 5]], 48000⟩, .done, .done] := by decide +kernel

/-- **C50** negated: a change of the number of channels within a quantum panics. -/
theorem C50_negated_channels :
    (Rs.run (fun d => d.resample id id 48000) 1
      (Rs.new (48000 : ℚ) 3 [some ⟨[[some 1, some 2]], 48000⟩, some ⟨[[some 1], [some 2]], 48000⟩])).isNone
    = true := by decide +kernel

/-- **C50** negated: a stream at another rate is resampled chunk by chunk. Delivered in chunks of one
frame it is NaN throughout, delivered in one chunk it is not. -/
theorem C50_negated_resampled :
    (Rs.run (fun d => d.resample id id 44100) 1
      (Rs.new (44100 : ℚ) 3 [some ⟨[[some 1]], 48000⟩, some ⟨[[some 2]], 48000⟩,
        some ⟨[[some 3]], 48000⟩])).map (·.1) = some [.buf ⟨[[none, none, none]], 44100⟩] ∧
    (Rs.run (fun d => d.resample id id 44100) 1
      (Rs.new (44100 : ℚ) 3 [some ⟨[[some 1, some 2, some 3]], 48000⟩])).map (·.1) =
      some [.buf ⟨[[some 1, some 2, some 3]], 44100⟩] := by decide +kernel

end Verif.Buffer
