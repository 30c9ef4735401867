import Verif.Source.BufferAsked

/-!
# Quanta of a buffer source within a context

A context does not record at the renderer whether `start` was called, and gives the frame with every quantum.
-/

namespace Verif.Source

section
variable {K : Type} [Field K] [LinearOrder K] [FloorRing K]

theorem play_hasStart (e : BufEnv K) (s : BufSt K) (h : Bool) (chans : List (List K)) (rate0 rate : K) :
    ({ s with hasStart := h } : BufSt K).play e chans rate0 rate =
      (s.play e chans rate0 rate).map fun x => (x.1, { x.2 with hasStart := h }) := by
  have hcu : ({ s with hasStart := h } : BufSt K).catchUp e = { s.catchUp e with hasStart := h } := by
    unfold BufSt.catchUp
    dsimp only
    split <;> rfl
  have hcl : ∀ u : BufSt K, ({ u with hasStart := h } : BufSt K).close e (durationOf e chans) rate =
      { u.close e (durationOf e chans) rate with hasStart := h } := by
    intro u
    unfold BufSt.close
    rw [show ({ u with hasStart := h } : BufSt K).finished e (durationOf e chans) rate = u.finished e (durationOf e chans) rate from rfl]
    split <;> rfl
  unfold BufSt.play
  dsimp only
  rw [hcu]
  generalize s.catchUp e = u
  rw [show ({ u with hasStart := h } : BufSt K).align e (durationOf e chans) rate = u.align e (durationOf e chans) rate from rfl]
  split
  · rw [show fastTrack e { u with hasStart := h } chans = fastTrack e u chans from rfl]
    cases hf : fastTrack e u chans with
    | error f => rfl
    | ok x =>
      obtain ⟨o, t⟩ := x
      exact congrArg (fun v => Except.ok (o, v)) (hcl (({ u with aligned := true } : BufSt K).advance e t))
  · have hs : slowTrack e ({ u with hasStart := h, aligned := false } : BufSt K) chans rate0 rate =
        (slowTrack e ({ u with aligned := false } : BufSt K) chans rate0 rate).map fun x => (x.1, { x.2 with hasStart := h }) := by
      unfold slowTrack
      rw [show ({ u with hasStart := h, aligned := false } : BufSt K).slowEnv e chans rate =
        ({ u with aligned := false } : BufSt K).slowEnv e chans rate from rfl,
        show ({ u with hasStart := h, aligned := false } : BufSt K).slow = ({ u with aligned := false } : BufSt K).slow from rfl]
      dsimp only
      split
      · rfl
      · split <;> rfl
    rw [hs]
    cases hf : slowTrack e ({ u with aligned := false } : BufSt K) chans rate0 rate with
    | error f => rfl
    | ok x =>
      obtain ⟨o, t⟩ := x
      exact congrArg (fun v => Except.ok (o, v)) (hcl t)

/-- whether `start` was called is not looked at -/
theorem process_hasStart (e : BufEnv K) (s : BufSt K) (h : Bool) (rate0 det : K) :
    ({ s with hasStart := h } : BufSt K).process e rate0 det =
      (s.process e rate0 det).map fun x => (x.1, { x.2.1 with hasStart := h }, x.2.2) := by
  unfold BufSt.process
  dsimp only
  split
  · rfl
  split
  · rfl
  split
  · split <;> rfl
  split
  · rfl
  · rename_i chans _
    rw [play_hasStart]
    cases s.play e chans rate0 (rate0 * det) with
    | error f => rfl
    | ok x => rfl

omit [FloorRing K] in
theorem fastLoop_length {ch : List K} {len : Nat} {looping : Bool} : ∀ (n index si off : Nat) (lp : Option Nat) {r : List K × Option Nat},
    fastLoop ch len looping n index si off lp = some r → r.1.length = n := by
  intro n
  induction n with
  | zero => intro index si off lp r h; cases h; rfl
  | succ n ih =>
    intro index si off lp r h
    rw [fastLoop] at h
    split at h
    · obtain ⟨x, _, h⟩ := Option.bind_eq_some_iff.1 h
      obtain ⟨q, hq, rfl⟩ := Option.map_eq_some_iff.1 h
      simp [ih _ _ _ _ hq]
    · split at h
      · obtain ⟨x, _, h⟩ := Option.bind_eq_some_iff.1 h
        obtain ⟨q, hq, rfl⟩ := Option.map_eq_some_iff.1 h
        simp [ih _ _ _ _ hq]
      · obtain ⟨q, hq, rfl⟩ := Option.map_eq_some_iff.1 h
        simp [ih _ _ _ _ hq]

/-- what a quantum of a buffer of one channel puts out -/
def Block (N : Nat) (out : List (List K)) : Prop := out = [] ∨ ∃ xs : List K, out = [xs] ∧ xs.length = N

theorem mapM_one {α β : Type} {f : α → Option β} {a : α} {l : List β} (h : [a].mapM f = some l) : ∃ b, f a = some b ∧ l = [b] := by
  rw [List.mapM_cons] at h
  cases hf : f a with
  | none => rw [hf] at h; cases h
  | some b =>
    rw [hf] at h
    simp at h
    exact ⟨b, rfl, h.symm⟩

theorem fastTrack_shape {e : BufEnv K} {s : BufSt K} {ch : List K} {r : List (List K) × K} (h : fastTrack e s [ch] = .ok r) :
    Block e.count r.1 := by
  unfold fastTrack at h
  dsimp only at h
  split at h
  · cases hf : fastChannels (lengthOf [ch]) s.looping e.count ⌊s.bufferTime * e.sr + 1 / 2⌋.toNat [ch] none with
    | none => rw [hf] at h; cases h
    | some x =>
      have hx : ∃ xs, x.1 = [xs] ∧ xs.length = e.count := by
        simp only [fastChannels] at hf
        obtain ⟨y, hy, hf⟩ := Option.bind_eq_some_iff.1 hf
        obtain ⟨z, hz, rfl⟩ := Option.map_eq_some_iff.1 hf
        cases hz
        exact ⟨_, rfl, fastLoop_length _ _ _ _ _ hy⟩
      rw [hf] at h
      obtain ⟨o, lp⟩ := x
      cases lp with
      | none => cases h; exact .inr hx
      | some lp => cases h; exact .inr hx
  · cases hm : [ch].mapM fun ch => slice ch ⌊s.bufferTime * e.sr + 1 / 2⌋.toNat e.count with
    | none => rw [hm] at h; cases h
    | some out =>
      rw [hm] at h
      cases h
      obtain ⟨b, hb, rfl⟩ := mapM_one hm
      unfold slice at hb
      split at hb
      · rename_i hle
        cases hb
        refine .inr ⟨_, rfl, ?_⟩
        rw [List.length_take, List.length_drop]
        omega
      · cases hb

end

section
variable {K : Type} [Field K] [LinearOrder K] [FloorRing K] [IsStrictOrderedRing K]

theorem process_shape {e : BufEnv K} {s : BufSt K} {ch : List K} (hb : s.buffer = some [ch]) {rate0 det : K}
    {r : List (List K) × BufSt K × Bool} (h : s.process e rate0 det = .ok r) : Block e.count r.1 := by
  unfold BufSt.process at h
  dsimp only at h
  split at h
  · cases h; exact .inl rfl
  split at h
  · cases h; exact .inl rfl
  split at h
  · split at h <;> (cases h; exact .inl rfl)
  rw [hb] at h
  dsimp only at h
  cases hp : s.play e [ch] rate0 (rate0 * det) with
  | error f => rw [hp] at h; cases h
  | ok x =>
    obtain ⟨o, s1⟩ := x
    rw [hp] at h
    cases h
    unfold BufSt.play at hp
    dsimp only at hp
    split at hp
    · cases hf : fastTrack e (s.catchUp e) [ch] with
      | error f => rw [hf] at hp; cases hp
      | ok y =>
        rw [hf] at hp
        obtain ⟨o', t⟩ := y
        cases hp
        exact fastTrack_shape hf
    · cases hf : slowTrack e ({ s.catchUp e with aligned := false } : BufSt K) [ch] rate0 (rate0 * det) with
      | error f => rw [hf] at hp; cases hp
      | ok y =>
        rw [hf] at hp
        obtain ⟨o', t⟩ := y
        cases hp
        unfold slowTrack at hf
        dsimp only at hf
        split at hf
        · cases hf
        · rename_i r infos hr
          split at hf
          · cases hf
          · rename_i out hm
            cases hf
            obtain ⟨b, hb, rfl⟩ := mapM_one hm
            refine .inr ⟨_, rfl, ?_⟩
            rw [(mapM_mem hb).1, (frames_infos hr).1]

/-- the state of a source within a context before the quantum at frame `f` -/
structure Going (e : BufEnv K) (chans : List (List K)) (p : Plan K) (s : BufSt K) (f : Nat) : Prop where
  placed : Placed e { s with frame := f, hasStart := true }
  follows : Follows e chans p { s with frame := f, hasStart := true } ∨ (s.alive = true ∧ s.ended = true ∧ p.Over f)

theorem Going.block {e : BufEnv K} (he : e.Exact) (hsr : 0 < e.sr) (hbs : 0 < e.bufSr) (hcount : 0 < e.count)
    {ch : List K} {p : Plan K} (hlen : p.looping = true → 0 < ch.length) (hag : Agrees e [ch] p)
    (hmono : p.looping = true ∨ (∀ n, 0 ≤ p.rate n) ∨ ∀ n, p.rate n ≤ 0)
    (hdur : p.looping = true → p.duration = ⊤ ∨ p.offset ≠ 0 ∨ p.bufSr ≠ p.sr ∨ ∀ n, p.rate n ≠ 1)
    {s : BufSt K} {f : Nat} (h : Going e [ch] p s f) (hgrid : p.first = f → p.start = p.first / e.sr)
    {rate det : K} (hr : ∀ i, i < e.count → p.rate (f + i) = rate * det)
    (hforward : p.looping = true → 0 ≤ rate → p.loopStart * e.sr ≤ (ch.length : K) - 1)
    (hbackward : p.looping = true → rate < 0 → p.loopEnd * e.sr < ch.length) :
    ∃ out s1 b, ({ s with frame := f } : BufSt K).process e rate det = .ok (out, s1, b) ∧ Block e.count out ∧
      Going e [ch] p { s1 with frame := 0 } (f + e.count) ∧ ∀ i, i < e.count → p.Reads ch (f + i) (valueAt out 0 i) := by
  obtain ⟨t, ht⟩ : ∃ t : BufSt K, { s with frame := f, hasStart := true } = t := ⟨_, rfl⟩
  have hproc : ∀ {out t1 b}, t.process e rate det = .ok (out, t1, b) →
      ({ s with frame := f } : BufSt K).process e rate det = .ok (out, { t1 with hasStart := s.hasStart }, b) ∧ t1.hasStart = true := by
    intro out t1 b hp
    constructor
    · have := process_hasStart e t s.hasStart rate det
      rw [hp, ← ht] at this
      exact this
    · have := process_hasStart e t true rate det
      rw [hp, show ({ t with hasStart := true } : BufSt K) = t by rw [← ht], hp] at this
      simp only [Except.map, Except.ok.injEq, Prod.mk.injEq, true_and, and_true] at this
      rw [this]
  have hpl : Placed e t := by rw [← ht]; exact h.placed
  rcases h.follows with hf | ⟨ha, hen, ho⟩
  · rw [ht] at hf
    have hfr : t.frame = f := by rw [← ht]
    obtain ⟨out, t', hs⟩ := hpl.renders hsr hbs (rate0 := rate) (det := det) (fun chans hc ch' hm => by
        rw [hf.buffer] at hc; cases hc
        rw [List.mem_singleton.1 hm]; rfl) (fun chans hc hl => by
        rw [hf.buffer] at hc; cases hc
        rw [hf.looping] at hl
        exact ⟨hlen hl, by rw [hf.points]; exact hforward hl, by rw [hf.points]; exact hbackward hl⟩)
    have hok := hf.block he hsr hbs hcount (by simp) (fun ch' hm => by rw [List.mem_singleton.1 hm]; rfl) hlen hag hmono hdur
      (by rw [hfr]; exact hgrid) (by rw [hfr]; exact hr) hs
    obtain ⟨b1, b2, b3, b4⟩ := hok
    have hpl' := hpl.step hsr hcount hs
    simp only [BufSt.step, hf.alive, if_true] at hs
    cases hp : t.process e rate det with
    | error x => rw [hp] at hs; cases hs
    | ok x =>
      obtain ⟨o, t1, b⟩ := x
      rw [hp] at hs
      cases hs
      obtain ⟨p1, p2⟩ := hproc hp
      have hst : ({ t1 with frame := f + e.count, hasStart := true } : BufSt K) = { t1 with frame := t.frame + e.count } := by
        rw [← p2, hfr]
      rw [hfr] at b1 b4
      refine ⟨out, _, b, p1, process_shape hf.buffer hp, ⟨?_, ?_⟩, fun i hi => b1 0 ch rfl i hi⟩
      · show Placed e ({ t1 with frame := f + e.count, hasStart := true } : BufSt K)
        rw [hst]; exact hpl'
      · rcases b4 with b4 | ⟨b4, b5⟩
        · left
          show Follows e [ch] p ({ t1 with frame := f + e.count, hasStart := true } : BufSt K)
          rw [hst, hfr]; exact b4
        · exact .inr ⟨b3, b4, b5⟩
  · have hp : t.process e rate det = .ok ([], t, false) := by
      unfold BufSt.process
      have : t.ended = true := by rw [← ht]; exact hen
      simp only [this, if_true]
    have hs : t.step e (.block rate det) = some (.ok ([], { t with frame := t.frame + e.count })) := by
      simp only [BufSt.step, show t.alive = true by rw [← ht]; exact ha, if_true, hp]
    have hpl' := hpl.step hsr hcount hs
    refine ⟨[], _, false, (hproc hp).1, .inl rfl, ⟨?_, .inr ⟨?_, ?_, fun m hm => ho m (by omega)⟩⟩, fun i hi => ?_⟩
    · rw [← ht] at hpl' ⊢; exact hpl'
    · rw [← ht]; exact ha
    · rw [← ht]; exact hen
    · rw [valueAt_nil]
      exact ho.reads (by omega) ch (by rw [hag.bufSr]; exact hbs) (by rw [hag.dur, hag.bufSr]; rfl)

/-- the state after the calls -/
theorem asked_going {e : BufEnv K} (hsr : 0 < e.sr) (hbs : 0 < e.bufSr) (hcount : 0 < e.count) {ch : List K} {looping : Bool}
    (hlen : looping = true → 0 < ch.length) {a b t o : K} {d : WithTop K} {stops : Option K} {rate : Nat → K} (ht : 0 ≤ t) (ho : 0 ≤ o) (hd : 0 ≤ d)
    (hstop : ∀ x, stops = some x → 0 ≤ x) :
    let p := planOf e [ch] looping a b 0 t o d ((stops.map fun x : K => (x : WithTop K)).getD ⊤) rate
    Agrees e [ch] p ∧ Going e [ch] p { BufSt.clampLoop e { BufSt.new looping a b with buffer := some [ch] } with
      start := (t : WithTop K), offset := o, duration := d, stop := (stops.map fun x : K => (x : WithTop K)).getD ⊤ } 0 := by
  intro p
  have hrun : ∃ outs s', BufSt.run e (BufSt.new looping a b) ([.buffer [ch], .start t o d] ++ stops.toList.map .stop) = some (.ok (outs, s')) := by
    have e1 : (BufSt.new looping a b).step e (.buffer [ch]) =
        some (.ok ([], BufSt.clampLoop e { BufSt.new looping a b with buffer := some [ch] })) := by
      simp only [BufSt.step, BufSt.new, if_true]
    have hh : (BufSt.clampLoop e { BufSt.new looping a b with buffer := some [ch] }).hasStart = false := rfl
    generalize BufSt.clampLoop e { BufSt.new looping a b with buffer := some [ch] } = w at e1 hh
    have e2 : w.step e (.start t o d) = some (.ok ([], BufSt.clampLoop e
        { w with hasStart := true, start := (t : WithTop K), offset := o, duration := d })) := by
      simp only [BufSt.step]
      rw [if_neg]
      simp [hh, ht, ho, hd]
    have hh2 : (BufSt.clampLoop e { w with hasStart := true, start := (t : WithTop K), offset := o, duration := d }).hasStart = true := by
      unfold BufSt.clampLoop
      dsimp only
      split <;> rfl
    generalize BufSt.clampLoop e { w with hasStart := true, start := (t : WithTop K), offset := o, duration := d } = w2 at e2 hh2
    cases stops with
    | none => exact ⟨_, _, BufSt.run_cons e1 (BufSt.run_cons e2 rfl)⟩
    | some x =>
      have e3 : w2.step e (.stop x) = some (.ok ([], BufSt.clampLoop e { w2 with stop := (x : WithTop K) })) := by
        simp only [BufSt.step]
        rw [if_neg]
        simp [hh2, hstop x rfl]
      exact ⟨_, _, BufSt.run_cons e1 (BufSt.run_cons e2 (BufSt.run_cons e3 rfl))⟩
  obtain ⟨outs, s', hrun⟩ := hrun
  have hpl : Placed e s' := Placed.run hsr hcount
    ⟨fun x => (by cases x), fun _ => rfl, fun x => (by cases x), fun x => (by cases x), fun _ => rfl⟩ hrun
  obtain ⟨_, _, hst⟩ := asked_state hbs 0 hrun
  obtain ⟨s2, o1, o3, o4, _, _, _, h4, h5, h6, h7, _⟩ := asked_follows (before := []) (play := []) (p := p) (rate := rate) hsr hbs (chans := [ch]) hlen (by
      rw [List.length_nil, Nat.zero_mul]) (show BufSt.run e (BufSt.new looping a b) (blocks [] ++ (([.buffer [ch], .start t o d] ++ stops.toList.map .stop) ++ blocks [])) = some (.ok (outs, s')) by
      rw [show (blocks [] : List (BufOp K)) = [] from rfl, List.nil_append, List.append_nil]
      exact hrun)
  cases h4
  refine ⟨h7, ⟨?_, .inl ?_⟩⟩
  · have := hpl
    rw [hst] at this
    exact this
  · rw [hst] at h6
    exact h6

end

end Verif.Source
