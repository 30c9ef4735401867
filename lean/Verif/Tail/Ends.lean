import Verif.Graph.Release
import Verif.Engine.Model
import Verif.Convolver.Model
import Verif.Compressor.Props
import Verif.Panner.Tail
import Verif.Source.ConstModel
import Verif.Source.OscProps
import Verif.Source.BufferAsked

/-!
# Sounds end (C105)

C104 says that nodes whose handles have been dropped are released, provided their tails are finite. Here the tails of
the processors are shown to be finite, with bounds: the return value of `process` (`tail_time`,
`/repo/src/render/processor.rs` l.124-139) becomes false.
-/

namespace Verif.Tail

open Verif.Render Verif.Node

/-! ## Specification -/

section
variable {σ I : Type}

/-- Of any `n` consecutive calls with inputs in `quiet`, one returns false (or panics). `step` is a call of `process`:
the new state and the return value; `none` is a panic. -/
def Dies (step : σ → I → Option (σ × Bool)) (quiet : I → Prop) : Nat → σ → Prop
  | 0, _ => False
  | n + 1, s => ∀ i, quiet i → ∀ s' t, step s i = some (s', t) → t = false ∨ Dies step quiet n s'

theorem Dies.mono {step : σ → I → Option (σ × Bool)} {quiet : I → Prop} {n : Nat} :
    ∀ {s : σ} (m : Nat), n ≤ m → Dies step quiet n s → Dies step quiet m s := by
  induction n with
  | zero => intro s m _ h; exact h.elim
  | succ n ih =>
    intro s m hm h
    obtain ⟨m, rfl⟩ : ∃ k, m = k + 1 := ⟨m - 1, by omega⟩
    intro i hi s' t hs
    rcases h i hi s' t hs with h | h
    · exact .inl h
    · exact .inr (ih m (by omega) h)

/-- The processors of a graph: if every call with silent inputs is a call of `step`, the tail is finite in the sense
of C104. -/
theorem Dies.fades {P S M : Type} {sem : Sem P S M} {step : σ → I → Option (σ × Bool)} {quiet : I → Prop}
    {make : σ → P}
    (h : ∀ s ins outs ps p' outs' t, (∀ x ∈ ins, x = sem.silence) →
      sem.process (make s) ins outs ps = some (p', outs', t) → ∃ i s', quiet i ∧ step s i = some (s', t) ∧ p' = make s')
    {n : Nat} : ∀ {s : σ}, Dies step quiet n s → Fades sem n (make s) := by
  induction n with
  | zero => intro s hd; exact hd
  | succ n ih =>
    intro s hd ins outs ps hin p' outs' t hp
    obtain ⟨i, s', h1, h2, rfl⟩ := h s ins outs ps p' outs' t hin hp
    rcases hd i h1 s' t h2 with h3 | h3
    · exact .inl h3
    · exact .inr (ih h3)

end

/-! ## Convolver -/

section
variable {K : Type} [Field K]

/-- `ConvolverRenderer::process`, `/repo/src/node/convolver.rs` l.344-490 -/
def convStep (N : Nat) (s : Convolver.Conv K) (q : Quantum K) : Option (Convolver.Conv K × Bool) :=
  (s.step N q).map fun r => (r.1, r.2.2)

/-- **C105.** Whatever a convolver has played, it ends within as many quanta of silence as its impulse response needs,
and one more. -/
theorem C105_convolver {N n : Nat} (s : Convolver.Conv K) (h : s.len ≤ n * N) :
    Dies (convStep N) (fun q => isSilent q = true) (n + 1) s := by
  suffices ∀ (n : Nat) (s : Convolver.Conv K), s.len ≤ s.tail + n * N →
      Dies (convStep N) (fun q => isSilent q = true) (n + 1) s from this n s (by omega)
  intro n
  induction n with
  | zero =>
    intro s h q hq s' t hs
    left
    simp only [Nat.zero_mul, Nat.add_zero] at h
    rw [convStep, Convolver.Conv.step, if_pos ⟨hq, h⟩] at hs
    cases hs; rfl
  | succ n ih =>
    intro s h q hq s' t hs
    by_cases hc : s.len ≤ s.tail
    · rw [convStep, Convolver.Conv.step, if_pos ⟨hq, hc⟩] at hs
      cases hs; exact .inl rfl
    · right
      apply ih
      rw [convStep, Convolver.Conv.step, if_neg (fun g => hc g.2)] at hs
      simp only [hq, if_true] at hs
      have key : s'.len = s.len ∧ s'.tail = s.tail + N := by
        split at hs
        · cases hs; exact ⟨rfl, rfl⟩
        · split at hs
          · cases hs
          · split at hs
            · cases hs
            · cases hs; exact ⟨rfl, rfl⟩
      rw [key.1, key.2]
      rw [Nat.succ_mul] at h
      omega

end

/-! ## Compressor -/

section
variable {K D : Type} [Zero K] [Mul K]

/-- `DynamicsCompressorRenderer::process`, `/repo/src/node/dynamics_compressor.rs` l.331-478 -/
def compStep (R N : Nat) (G : D → Quantum K → D × List K) (s : Compressor.Comp K D) (q : Quantum K) :
    Option (Compressor.Comp K D × Bool) :=
  some ((s.step R N G q).1, (s.step R N G q).2.2)

/-- **C105.** Whatever a compressor has been fed, it ends within as many quanta of silence as its delay line has. -/
theorem C105_compressor {R N : Nat} (hR : 0 < R) (G : D → Quantum K → D × List K) (d : D) (ins : List (Quantum K)) :
    Dies (compStep R N G) (fun q => isSilent q = true) R ((Compressor.Comp.new d).run R N G ins).1 := by
  obtain ⟨h0, _, _⟩ := Compressor.run_spec (N := N) hR G ins (Compressor.Comp.new d) [] (Compressor.ring_new d)
  rw [List.nil_append] at h0
  suffices ∀ (m n : Nat) (s : Compressor.Comp K D) (past : List (Quantum K)), Compressor.Ring R s past →
      m + n + 1 = R → (∀ k q, past.length ≤ k + m → (Compressor.hist R past)[R + k]? = some q → isSilent q = true) →
      Dies (compStep R N G) (fun q => isSilent q = true) (n + 1) s by
    obtain ⟨R, rfl⟩ : ∃ k, R = k + 1 := ⟨R - 1, by omega⟩
    refine this 0 R _ _ h0 (by omega) (fun k q hk hq => ?_)
    rw [Compressor.hist, List.getElem?_eq_none (by simp; omega)] at hq
    cases hq
  intro m n
  induction n generalizing m with
  | zero =>
    intro s past h hm hp q hq s' t hs
    left
    obtain ⟨_, _, x, hx, hxs⟩ := Compressor.ring_step (N := N) hR G h q
    cases hs
    have : isSilent x = true := by
      have e : Compressor.hist R (past ++ [q]) = Compressor.hist R past ++ [q] := by simp [Compressor.hist]
      rw [e] at hx
      by_cases hc : past.length + 1 < R + past.length
      · rw [List.getElem?_append_left (by simp [Compressor.hist]; omega)] at hx
        by_cases hc2 : past.length + 1 < R
        · rw [Compressor.hist, List.getElem?_append_left (by simp; omega)] at hx
          rw [List.getElem?_replicate, if_pos hc2] at hx
          cases hx
          rfl
        · obtain ⟨k, hk⟩ := Nat.exists_eq_add_of_le (Nat.le_of_not_lt hc2)
          rw [hk] at hx
          exact hp k x (by omega) hx
      · rw [List.getElem?_append_right (by simp [Compressor.hist]; omega)] at hx
        have : past.length + 1 - (Compressor.hist R past).length = 0 := by simp [Compressor.hist]; omega
        rw [this] at hx
        cases hx; exact hq
    rw [hxs, if_pos this]
  | succ n ih =>
    intro s past h hm hp q hq s' t hs
    right
    obtain ⟨h1, _⟩ := Compressor.ring_step (N := N) hR G h q
    cases hs
    refine ih (m + 1) _ _ h1 (by omega) (fun k x hk hx => ?_)
    have e : Compressor.hist R (past ++ [q]) = Compressor.hist R past ++ [q] := by simp [Compressor.hist]
    rw [e] at hx
    by_cases hc : k < past.length
    · rw [List.getElem?_append_left (by simp [Compressor.hist]; omega)] at hx
      exact hp k x (by simp at hk; omega) hx
    · rw [List.getElem?_append_right (by simp [Compressor.hist]; omega)] at hx
      have hx' := List.mem_of_getElem? hx
      rw [List.mem_singleton] at hx'
      rw [hx']; exact hq

end

/-! ## Panner -/

section
variable {τ : Type}

/-- `PannerRenderer::process`, `/repo/src/node/panner.rs` l.686-904 -/
noncomputable def pannerStep (H : Panner.Hrtf τ) (N : Nat) (r : Panner.Renderer τ) (i : Panner.Pars × Quantum ℝ) :
    Option (Panner.Renderer τ × Bool) :=
  (Panner.process H N r i.1 i.2).map fun x => (x.1, x.2.2)

/-- **C105.** Whatever a panner has played and wherever it and the listener move: with the equal-power model it ends
at once, with the HRTF model within as many quanta of silence as the impulse responses need, and one more. -/
theorem C105_panner (H : Panner.Hrtf τ) {N n : Nat} (r : Panner.Renderer τ)
    (h : ∀ len st, r.hrtf = some (len, st) → len ≤ n * N) :
    Dies (pannerStep H N) (fun i => isSilent i.2 = true) (n + 1) r := by
  suffices ∀ (n : Nat) (r : Panner.Renderer τ), (∀ len st, r.hrtf = some (len, st) → len ≤ r.counter + n * N) →
      Dies (pannerStep H N) (fun i => isSilent i.2 = true) (n + 1) r from
    this n r fun len st hl => by have := h len st hl; omega
  intro n
  induction n with
  | zero =>
    intro r h i hi r' t hs
    left
    cases hh : r.hrtf with
    | none =>
      rw [pannerStep, Panner.process] at hs
      simp [hh, hi] at hs
      exact hs.2
    | some x =>
      obtain ⟨len, st⟩ := x
      have := h len st hh
      rw [pannerStep, Panner.process_cut H N r i.1 i.2 len st hh hi (by omega)] at hs
      cases hs; rfl
  | succ n ih =>
    intro r h i hi r' t hs
    cases hh : r.hrtf with
    | none =>
      left
      rw [pannerStep, Panner.process] at hs
      simp [hh, hi] at hs
      exact hs.2
    | some x =>
      obtain ⟨len, st⟩ := x
      by_cases hc : len ≤ r.counter
      · rw [pannerStep, Panner.process_cut H N r i.1 i.2 len st hh hi hc] at hs
        cases hs; exact .inl rfl
      · right
        rw [pannerStep, Panner.process_hrtf H N r i.1 i.2 len st hh (fun _ => by omega)] at hs
        cases hs
        apply ih
        intro len' st' hl
        cases hl
        have := h len st hh
        rw [Nat.succ_mul] at this
        simp only [hi, if_true]
        omega

end

/-! ## Sources that are told to stop -/

section
variable {K V : Type} [Field K] [LinearOrder K] [IsStrictOrderedRing K] [Zero V]

/-- `ConstantSourceRenderer::process`, `/repo/src/node/constant_source.rs` l.190-266 -/
def constStep (dt : K) (count : Nat) (s : Source.Const K) (offset : List V) : Option (Source.Const K × Bool) :=
  some ({ (s.process dt count offset).2.1 with frame := s.frame + count }, (s.process dt count offset).2.2)

omit [IsStrictOrderedRing K] in
theorem const_sendEnded (s : Source.Const K) : s.sendEnded.stop = s.stop ∧ s.sendEnded.start = s.start := by
  unfold Source.Const.sendEnded; split <;> exact ⟨rfl, rfl⟩

theorem next_eq (dt : K) (frame count : Nat) : (frame : K) * dt + dt * count = ((frame + count : Nat) : K) * dt := by
  push_cast; ring

/-- **C105.** A constant source with a stop time ends in the quantum that reaches it, whether it has been started
or not and whatever its offset does. -/
theorem C105_const {dt : K} {count n : Nat} (s : Source.Const K) (hn : 0 < n)
    (h : s.stop ≤ (((s.frame + n * count : Nat) * dt : K) : WithTop K)) :
    Dies (constStep (V := V) dt count) (fun _ => True) n s := by
  induction n generalizing s with
  | zero => omega
  | succ n ih =>
    intro off _ s' t hs
    rw [constStep, Option.some.injEq, Prod.mk.injEq] at hs
    obtain ⟨rfl, rfl⟩ := hs
    have hstop : (s.process dt count off).2.1.stop = s.stop := by
      unfold Source.Const.process
      dsimp only
      split
      · split
        · exact (const_sendEnded s).1
        · rfl
      · split
        · rfl
        · exact (const_sendEnded s).1
    by_cases hc : s.stop ≤ ((s.frame * dt + dt * count : K) : WithTop K)
    · left
      unfold Source.Const.process
      dsimp only
      split
      · rfl
      · rw [if_neg (not_lt.2 hc)]
    · right
      cases n with
      | zero =>
        rw [next_eq] at hc
        rw [Nat.zero_add, Nat.one_mul] at h
        exact absurd h hc
      | succ n =>
        refine ih _ (by omega) ?_
        show (s.process dt count off).2.1.stop ≤ _
        rw [hstop]
        rw [show s.frame + count + (n + 1) * count = s.frame + (n + 1 + 1) * count by ring]
        exact h

variable [FloorRing K]

/-- `OscillatorRenderer::process`, `/repo/src/node/oscillator.rs` l.365-471 -/
def oscStep (rd : K → K) (sine : List K) (comp : K → K → K) (dt : K) (count : Nat) (s : Source.Osc K)
    (i : List K × List K) : Option (Source.Osc K × Bool) :=
  (s.process rd sine comp dt count i.1 i.2).map fun r => ({ r.2.1 with frame := s.frame + count }, r.2.2)

omit [IsStrictOrderedRing K] in
theorem osc_sample {rd : K → K} {sine : List K} {dt : K} {s s' : Source.Osc K} {t f v : K}
    (h : s.sample rd sine dt t f = some (v, s')) : s'.stop = s.stop := by
  unfold Source.Osc.sample at h
  dsimp only at h
  split at h
  · cases h; rfl
  · rw [Option.map_eq_some_iff] at h
    obtain ⟨_, _, h⟩ := h
    cases h
    show (s.first _ _ _ _ _).stop = _
    unfold Source.Osc.first
    split <;> rfl

omit [IsStrictOrderedRing K] in
theorem osc_slow {rd : K → K} {sine : List K} {dt : K} (fs : List K) : ∀ {s s' : Source.Osc K} {t : K} {o : List K},
    s.slow rd sine dt t fs = some (o, s') → s'.stop = s.stop := by
  induction fs with
  | nil => intro s s' t o h; cases h; rfl
  | cons f fs ih =>
    intro s s' t o h
    rw [Source.Osc.slow, Option.bind_eq_some_iff] at h
    obtain ⟨r, h1, h2⟩ := h
    rw [Option.map_eq_some_iff] at h2
    obtain ⟨q, h2, h3⟩ := h2
    cases h3
    exact (ih h2).trans (osc_sample (v := r.1) h1)

omit [IsStrictOrderedRing K] in
theorem osc_fast {rd : K → K} {sine : List K} {incr : K} (n : Nat) : ∀ {s s' : Source.Osc K} {o : List K},
    s.fast rd sine incr n = some (o, s') → s'.stop = s.stop := by
  induction n with
  | zero => intro s s' o h; cases h; rfl
  | succ n ih =>
    intro s s' o h
    rw [Source.Osc.fast, Option.bind_eq_some_iff] at h
    obtain ⟨r, h1, h2⟩ := h
    rw [Option.map_eq_some_iff] at h2
    obtain ⟨q, h2, h3⟩ := h2
    cases h3
    exact ih (s := { s with phase := Source.unroll rd (rd (s.phase + incr)) }) h2

omit [IsStrictOrderedRing K] in
theorem osc_play {rd : K → K} {sine : List K} {comp : K → K → K} {dt : K} {count : Nat} {s s' : Source.Osc K}
    {freq detune o : List K} (h : s.play rd sine comp dt count freq detune = some (o, s')) : s'.stop = s.stop := by
  unfold Source.Osc.play at h
  dsimp only at h
  split at h
  · split at h
    · exact osc_fast _ h
    · exact osc_slow _ h
  · exact osc_slow _ h

omit [IsStrictOrderedRing K] in
theorem osc_sendEnded (s : Source.Osc K) : s.sendEnded.stop = s.stop := by
  unfold Source.Osc.sendEnded; split <;> rfl

/-- **C105.** An oscillator with a stop time ends in the quantum that reaches it, whether it has been started or not,
whatever its frequency and detune do, and however the phase is rounded. -/
theorem C105_osc {rd : K → K} {sine : List K} {comp : K → K → K} {dt : K} {count n : Nat} (s : Source.Osc K) (hn : 0 < n)
    (h : s.stop ≤ (((s.frame + n * count : Nat) * dt : K) : WithTop K)) :
    Dies (oscStep rd sine comp dt count) (fun _ => True) n s := by
  induction n generalizing s with
  | zero => omega
  | succ n ih =>
    intro i _ s' t hs
    rw [oscStep, Option.map_eq_some_iff] at hs
    obtain ⟨⟨o, s1, b⟩, hp, hs⟩ := hs
    cases hs
    have hadj : (s.adjust dt).stop = s.stop := by
      unfold Source.Osc.adjust
      dsimp only
      split <;> rfl
    have key : s1.stop = s.stop ∧ (s.stop ≤ ((s.frame * dt + dt * count : K) : WithTop K) → b = false) := by
      unfold Source.Osc.process at hp
      dsimp only at hp
      split at hp
      · cases hp; exact ⟨osc_sendEnded s, fun _ => rfl⟩
      · split at hp
        · split at hp
          · cases hp; exact ⟨osc_sendEnded s, fun _ => rfl⟩
          · rename_i hc
            cases hp; exact ⟨rfl, fun g => absurd g hc⟩
        · rw [Option.map_eq_some_iff] at hp
          obtain ⟨⟨o', s2⟩, hp1, hp2⟩ := hp
          have h2 : s2.stop = s.stop := (osc_play hp1).trans hadj
          split at hp2
          · cases hp2; exact ⟨(osc_sendEnded s2).trans h2, fun _ => rfl⟩
          · rename_i hc
            cases hp2
            exact ⟨h2, fun g => absurd (h2 ▸ g) hc⟩
    by_cases hc : s.stop ≤ ((s.frame * dt + dt * count : K) : WithTop K)
    · exact .inl (key.2 hc)
    · right
      cases n with
      | zero =>
        rw [next_eq] at hc
        rw [Nat.zero_add, Nat.one_mul] at h
        exact absurd h hc
      | succ n =>
        refine ih _ (by omega) ?_
        show s1.stop ≤ _
        rw [key.1]
        rw [show s.frame + count + (n + 1) * count = s.frame + (n + 1 + 1) * count by ring]
        exact h

end

/-! ## Buffer sources -/

section
variable {K : Type} [Field K] [LinearOrder K] [FloorRing K] [IsStrictOrderedRing K]

open Verif.Source

/-- `AudioBufferSourceRenderer::process`, `/repo/src/node/audio_buffer_source.rs` l.423-845, with playback rate and
`2^(detune/1200)` -/
def bufStep (e : BufEnv K) (s : BufSt K) (i : K × K) : Option (BufSt K × Bool) :=
  match s.process e i.1 i.2 with
  | .error _ => none
  | .ok r => some ({ r.2.1 with frame := s.frame + e.count }, r.2.2)

omit [IsStrictOrderedRing K] in
theorem buf_slow {e : BufEnv K} {s s' : BufSt K} {chans out : List (List K)} {rate0 rate : K}
    (h : slowTrack e s chans rate0 rate = .ok (out, s')) : s'.stop = s.stop ∧ s'.frame = s.frame := by
  unfold slowTrack at h
  split at h
  · cases h
  · split at h
    · cases h
    · cases h; exact ⟨rfl, rfl⟩

omit [IsStrictOrderedRing K] in
theorem buf_close {e : BufEnv K} {s r : BufSt K} {d x : K} (h1 : r.stop = s.stop) (h2 : r.frame = s.frame) :
    (r.close e d x).stop = s.stop ∧
      (s.stop ≤ ((s.frame / e.sr + 1 / e.sr * e.count : K) : WithTop K) → (r.close e d x).ended = true) := by
  unfold BufSt.close
  constructor
  · split
    · exact h1
    · exact h1
  · intro hs
    rw [if_pos]
    · rfl
    · unfold BufSt.finished
      dsimp only
      rw [h1, h2, decide_eq_true hs]
      simp

omit [IsStrictOrderedRing K] in
theorem buf_play {e : BufEnv K} {s s' : BufSt K} {chans out : List (List K)} {rate0 rate : K}
    (h : s.play e chans rate0 rate = .ok (out, s')) : s'.stop = s.stop ∧
      (s.stop ≤ ((s.frame / e.sr + 1 / e.sr * e.count : K) : WithTop K) → s'.ended = true) := by
  have hc : (s.catchUp e).stop = s.stop ∧ (s.catchUp e).frame = s.frame := by
    unfold BufSt.catchUp
    split <;> exact ⟨rfl, rfl⟩
  unfold BufSt.play at h
  dsimp only at h
  split at h
  · split at h
    · cases h
    · cases h; exact buf_close hc.1 hc.2
  · split at h
    · cases h
    · rename_i hs
      cases h
      obtain ⟨a1, a2⟩ := buf_slow hs
      exact buf_close (a1.trans hc.1) (a2.trans hc.2)

/-- **C105.** A buffer source with a stop time ends in the quantum after the one that reaches it, whatever it plays,
looping or not, started or not, and whatever playback rate and detune do. -/
theorem C105_buffer_stop {e : BufEnv K} {n : Nat} (s : BufSt K) (hn : 0 < n)
    (h : s.stop ≤ (((s.frame + n * e.count : Nat) / e.sr : K) : WithTop K)) :
    Dies (bufStep e) (fun _ => True) (n + 1) s := by
  have ended : ∀ s : BufSt K, s.ended = true → Dies (bufStep e) (fun _ => True) 1 s := by
    intro s hs i _ s' t hst
    simp only [bufStep, BufSt.process, hs, if_true] at hst
    cases hst; exact .inl rfl
  have hnext : ∀ f : Nat, (f : K) / e.sr + 1 / e.sr * e.count = ((f + e.count : Nat) : K) / e.sr := by
    intro f; push_cast; ring
  induction n generalizing s with
  | zero => omega
  | succ n ih =>
    intro i _ s' t hs
    have key : t = false ∨ (s'.stop = s.stop ∧
        (s.stop ≤ ((s.frame / e.sr + 1 / e.sr * e.count : K) : WithTop K) → s'.ended = true)) := by
      simp only [bufStep] at hs
      split at hs
      · cases hs
      · rename_i r hr
        cases hs
        unfold BufSt.process at hr
        dsimp only at hr
        split at hr
        · cases hr; exact .inl rfl
        · split at hr
          · cases hr; exact .inl rfl
          · split at hr
            · split at hr
              · cases hr; exact .inl rfl
              · rename_i hc
                cases hr; exact .inr ⟨rfl, fun g => absurd g hc⟩
            · split at hr
              · cases hr; exact .inl rfl
              · split at hr
                · cases hr
                · rename_i hp
                  cases hr
                  have h3 := buf_play hp
                  exact .inr h3
    have hf : s'.frame = s.frame + e.count := by
      simp only [bufStep] at hs
      split at hs
      · cases hs
      · cases hs; rfl
    rcases key with key | ⟨k1, k2⟩
    · exact .inl key
    · right
      by_cases hc : s.stop ≤ ((s.frame / e.sr + 1 / e.sr * e.count : K) : WithTop K)
      · exact (ended s' (k2 hc)).mono _ (by omega)
      · cases n with
        | zero =>
          rw [hnext] at hc
          rw [Nat.zero_add, Nat.one_mul] at h
          exact absurd h hc
        | succ n =>
          refine ih s' (by omega) ?_
          rw [k1, hf, show s.frame + e.count + (n + 1) * e.count = s.frame + (n + 1 + 1) * e.count by ring]
          exact h

omit [IsStrictOrderedRing K] in
theorem buf_play_on {e : BufEnv K} {s s' : BufSt K} {chans out : List (List K)} {rate0 rate : K}
    (h : s.play e chans rate0 rate = .ok (out, s')) (hl : s.looping = false) (hr : 0 < rate)
    (hend : s'.ended = false) : s'.bufferTime < durationOf e chans := by
  have hc : (s.catchUp e).looping = s.looping := by
    unfold BufSt.catchUp
    split <;> rfl
  have key : ∀ r : BufSt K, r.looping = false → (r.close e (durationOf e chans) rate).ended = false →
      (r.close e (durationOf e chans) rate).bufferTime < durationOf e chans := by
    intro r h1 h2
    unfold BufSt.close at h2 ⊢
    split at h2
    · cases h2
    · rename_i hf
      rw [if_neg hf]
      by_contra hd
      apply hf
      unfold BufSt.finished
      simp [h1, hr, not_lt.1 hd]
  unfold BufSt.play at h
  dsimp only at h
  split at h
  · split at h
    · cases h
    · cases h
      exact key _ (hc.trans hl) hend
  · split at h
    · cases h
    · rename_i r hs
      cases h
      refine key _ ?_ hend
      unfold slowTrack at hs
      split at hs
      · cases hs
      · split at hs
        · cases hs
        · cases hs; exact hc.trans hl

/-- The quantum in which the position leaves the buffer is the last. -/
theorem follows_end {e : BufEnv K} (hsr : 0 < e.sr) {chans : List (List K)} {p : Plan K} (hl : p.looping = false)
    {s s' : BufSt K} (h : Follows e chans p s) (hfirst : p.first < s.frame + e.count) (hag : Agrees e chans p)
    {rate det : K} (hrate : 0 < rate * det) {out : List (List K)}
    (hs : s.step e (.block rate det) = some (.ok (out, s'))) (h' : Follows e chans p s') :
    p.pos (s.frame + e.count) < durationOf e chans := by
  have hps : 0 < p.sr := by rw [hag.sr]; exact hsr
  have hnext : (s.frame : K) / e.sr + 1 / e.sr * e.count = ((s.frame + e.count : Nat) : K) / e.sr := by
    push_cast; ring
  simp only [BufSt.step, h.alive, if_true] at hs
  split at hs
  · cases hs
  rename_i out1 s1 b hp
  cases hs
  unfold BufSt.process at hp
  dsimp only at hp
  rw [if_neg (by rw [h.ended]; simp), if_neg (fun hh => by rw [h.buffer] at hh; cases hh.1)] at hp
  split at hp
  · rename_i hle
    exfalso
    rw [hnext] at hle
    rcases h.time with ht | ⟨_, ht, _⟩
    · rw [ht, WithTop.coe_le_coe] at hle
      have h1 : p.first ≤ s.frame + e.count - 1 := by omega
      have h2 := (Plan.first_le hps (n := s.frame + e.count - 1)).1 h1
      rw [hag.sr] at h2
      have h3 : ((s.frame + e.count - 1 : Nat) : K) / e.sr < ((s.frame + e.count : Nat) : K) / e.sr := by
        apply div_lt_div_of_pos_right _ hsr
        have : s.frame + e.count - 1 < s.frame + e.count := by omega
        exact_mod_cast this
      linarith
    · have h3 : ((s.frame : K) / e.sr) ≤ ((s.frame + e.count : Nat) : K) / e.sr := by
        apply div_le_div_of_nonneg_right _ hsr.le
        push_cast
        have : (0 : K) ≤ e.count := Nat.cast_nonneg _
        linarith
      exact absurd (lt_of_le_of_lt hle ht) (not_lt.2 (WithTop.coe_le_coe.2 h3))
  · rw [h.buffer] at hp
    dsimp only at hp
    split at hp
    · cases hp
    rename_i o2 s2 hpl
    cases hp
    have h1 := buf_play_on hpl (h.looping.trans hl) hrate h'.ended
    have h2 := h'.state.once hl hfirst
    rw [← h2]
    exact h1

/-- **C105.** A buffer source that does not loop and always plays forwards, at `low` or faster, ends by itself: after
the quantum that has the frame in which the buffer is used up at the slowest rate, the source has ended, its ended event
has been sent, and `process` returns false from then on. (The provisos are those of C62.) -/
theorem C105_buffer_partial {e : BufEnv K} (he : e.Exact) (hsr : 0 < e.sr) (hbs : 0 < e.bufSr) (hcount : 0 < e.count)
    {chans : List (List K)} (hne : chans ≠ []) (hch : ∀ ch ∈ chans, ch.length = lengthOf chans) {a b t o : K}
    {d : WithTop K} {stops : Option K} {before play : List (K × K)} {low : K} (hlow : 0 < low)
    (hrate : ∀ r ∈ play, low ≤ r.1 * r.2) {first : Nat}
    (hfirst : first = ⌈max t ((before.length * e.count : Nat) / e.sr) * e.sr⌉₊)
    (hgrid : ∀ j, first = j * e.count → max t ((before.length * e.count : Nat) / e.sr) = first / e.sr)
    (hlong : first < (before.length + play.length) * e.count ∧
      durationOf e chans ≤ ((before.length + play.length) * e.count - first : Nat) * (low / e.sr))
    {outs : List (List (List K))} {s' : BufSt K}
    (h : BufSt.run e (BufSt.new false a b) (blocks before ++
      (([.buffer chans, .start t o d] ++ stops.toList.map .stop) ++ blocks play)) = some (.ok (outs, s'))) :
    s'.events = 1 ∧ Dies (bufStep e) (fun _ => True) 1 s' := by
  have hd : 0 ≤ durationOf e chans := by unfold durationOf; positivity
  obtain ⟨rate, hrt⟩ : ∃ rate : Nat → K, rate = fun n : Nat =>
    ((play[n / e.count - before.length]?).map fun r => r.1 * r.2).getD low := ⟨_, rfl⟩
  have hlo : ∀ n, low ≤ rate n := by
    intro n
    rw [hrt]
    dsimp only
    cases hg : play[n / e.count - before.length]? with
    | none => exact le_refl _
    | some r => exact hrate r (List.mem_of_getElem? hg)
  obtain ⟨p, hp⟩ : ∃ p : Plan K, p = planOf e chans false a b (before.length * e.count) t o d
    ((stops.map fun x : K => (x : WithTop K)).getD ⊤) rate := ⟨_, rfl⟩
  obtain ⟨s2, o1, o3, o4, rfl, _, _, r4, hfr, hfol, hag, hev⟩ :=
    asked_follows hsr hbs (fun hh => by cases hh) hp h
  have hl : p.looping = false := by rw [hp]; rfl
  have hps : p.sr = e.sr := by rw [hp]; rfl
  have hpr : p.rate = rate := by rw [hp]; rfl
  have hpd : p.dur = durationOf e chans := hag.dur
  have hstart : p.start = max t ((before.length * e.count : Nat) / e.sr) := by rw [hp]; rfl
  have hpf : p.first = first := by rw [hfirst, Plan.first, hstart, hps]
  have hge : before.length * e.count ≤ first := by
    rw [hfirst]
    have h1 : ((before.length * e.count : Nat) : K) ≤ max t ((before.length * e.count : Nat) / e.sr) * e.sr := by
      rw [← div_le_iff₀ hsr]
      exact le_max_right _ _
    exact_mod_cast h1.trans (Nat.le_ceil _)
  have key : ∀ (rs : List (K × K)) (k : Nat), k + rs.length = play.length → play.drop k = rs → ∀ {s u : BufSt K}
      {outs : List (List (List K))}, s.frame = (before.length + k) * e.count → s.events = s.ended.toNat →
      ((Follows e chans p s ∧ (p.first < s.frame → p.pos s.frame < durationOf e chans)) ∨
        (s.alive = true ∧ s.ended = true)) →
      BufSt.run e s (blocks rs) = some (.ok (outs, u)) →
      u.frame = (before.length + play.length) * e.count ∧ u.events = u.ended.toNat ∧
      ((Follows e chans p u ∧ (p.first < u.frame → p.pos u.frame < durationOf e chans)) ∨
        (u.alive = true ∧ u.ended = true)) := by
    intro rs
    induction rs with
    | nil =>
      intro k hk _ s u outs h1 h2 h3 h4
      cases h4
      simp only [List.length_nil, Nat.add_zero] at hk
      exact ⟨by rw [h1, hk], h2, h3⟩
    | cons r rs ih =>
      intro k hk hdr s u outs h1 h2 h3 h4
      obtain ⟨out, v, outs', g1, g2, rfl⟩ := BufSt.run_inv h4
      have hget : play[k]? = some r := by
        have := congrArg (fun l => l[0]?) hdr
        simpa using this
      have hmem := List.mem_of_getElem? hget
      refine ih (k + 1) (by simp at hk; omega) (by rw [← List.tail_drop, hdr]; rfl) ?_ (step_ended h2 g1).1 ?_ g2
      · have : v.frame = s.frame + e.count := by
          simp only [BufSt.step] at g1
          split at g1
          · split at g1
            · cases g1
            · cases g1; rfl
          · cases g1; rfl
        rw [this, h1]
        ring
      · rcases h3 with ⟨h3, _⟩ | ⟨h3, h3'⟩
        · have hr : ∀ i, i < e.count → p.rate (s.frame + i) = r.1 * r.2 := by
            intro i hi
            rw [hpr, hrt, h1]
            dsimp only
            rw [Nat.add_comm, Nat.add_mul_div_right _ _ hcount, Nat.div_eq_of_lt hi,
              show 0 + (before.length + k) - before.length = k by omega, hget]
            rfl
          obtain ⟨b1, b2, b3, b4⟩ := h3.block he hsr hbs hcount hne hch (by rw [hl]; simp) hag
            (.inr (.inl fun n => by rw [hpr]; exact hlow.le.trans (hlo n))) (by rw [hl]; simp)
            (fun hf => by
              rw [hstart, hpf]
              exact hgrid (before.length + k) (by rw [← hpf, hf, h1])) hr g1
          rcases b4 with b4 | ⟨b4, _⟩
          · refine .inl ⟨b4, fun hlt => ?_⟩
            rw [b2] at hlt ⊢
            exact follows_end hsr hl h3 hlt hag (lt_of_lt_of_le hlow (hrate r hmem)) g1 b4
          · exact .inr ⟨b3, b4⟩
        · right
          simp only [BufSt.step, h3, if_true, BufSt.process, h3'] at g1
          cases g1
          exact ⟨rfl, rfl⟩
  obtain ⟨e1, e2, e3⟩ := key play 0 (by simp) rfl (by rw [hfr, Nat.add_zero]) (by rw [hev, hfol.ended]; rfl)
    (.inl ⟨hfol, fun hlt => by rw [hfr, hpf] at hlt; omega⟩) r4
  have hended : s'.ended = true := by
    rcases e3 with ⟨_, e3⟩ | ⟨_, e3⟩
    · exfalso
      have hlt := e3 (by rw [e1, hpf]; exact hlong.1)
      have horig : 0 ≤ p.origin := by
        unfold Plan.origin
        rw [hl]
        dsimp only
        rw [if_neg (by simp)]
        exact le_min (le_max_right _ _) (by rw [hpd]; exact hd)
      have hsum : ((s'.frame - p.first : Nat) : K) * (low / e.sr) ≤
          ∑ i ∈ Finset.Ico p.first s'.frame, p.rate i / p.sr := by
        have h1 := Finset.card_nsmul_le_sum (Finset.Ico p.first s'.frame) (fun i => p.rate i / p.sr) (low / e.sr)
          (fun i _ => by
            rw [hpr, hps]
            exact div_le_div_of_nonneg_right (hlo i) hsr.le)
        rw [Nat.card_Ico, nsmul_eq_mul] at h1
        exact h1
      have h2 := hlong.2
      rw [← hpf, ← e1] at h2
      unfold Plan.pos at hlt
      linarith
    · exact e3
  refine ⟨by rw [e2, hended]; rfl, ?_⟩
  intro i _ s1 b hst
  simp only [bufStep, BufSt.process, hended, if_true] at hst
  cases hst; exact .inl rfl

end
/-! ## IIR filters without feedback -/

section
variable {K : Type} [Field K] [DecidableEq K]

open Verif.Filter

/-- `IirFilterRenderer::process`, `/repo/src/node/iir_filter.rs` l.324-413 -/
def iirStep (N : Nat) (f : Iir K) (q : Quantum K) : Option (Iir K × Bool) := some ((f.process N q).1, (f.process N q).2.2)

/-- entries from `j` on are zero -/
def ZeroFrom (j : Nat) (st : List K) : Prop := ∀ i, j ≤ i → st.getD i 0 = 0

omit [DecidableEq K] in
theorem shift_length (x y : K) (cs : List (K × K)) (st : List K) : (shift x y cs st).length = st.length := by
  induction cs generalizing st with
  | nil => rfl
  | cons p cs ih =>
    match st with
    | [] => rfl
    | [_] => rfl
    | s0 :: s1 :: ss => simp [shift, ih (s1 :: ss)]

omit [DecidableEq K] in
/-- the last entry is not written -/
theorem shift_last (x y : K) (cs : List (K × K)) (st : List K) (i : Nat) (hi : st.length ≤ i + 1) :
    (shift x y cs st).getD i 0 = st.getD i 0 := by
  induction cs generalizing st i with
  | nil => rfl
  | cons p cs ih =>
    match st, i, hi with
    | [], _, _ => rfl
    | [_], _, _ => rfl
    | s0 :: s1 :: ss, i + 1, hi =>
      simp only [shift, List.getD_cons_succ]
      exact ih (s1 :: ss) i (by simpa using hi)

omit [DecidableEq K] in
/-- without input and feedback the state moves down -/
theorem shift_silent (y : K) (cs : List (K × K)) (hcs : ∀ p ∈ cs, p.2 = 0) (st : List K) (i : Nat)
    (hi : i + 1 < st.length) (hl : st.length ≤ cs.length + 1) : (shift 0 y cs st).getD i 0 = st.getD (i + 1) 0 := by
  induction cs generalizing st i with
  | nil => simp at hl; omega
  | cons p cs ih =>
    match st, i, hi with
    | s0 :: s1 :: ss, 0, _ => simp [shift, hcs p (by simp)]
    | s0 :: s1 :: ss, i + 1, hi =>
      simp only [shift, List.getD_cons_succ]
      have := ih (fun q hq => hcs q (by simp [hq])) (s1 :: ss) i (by simpa using hi) (by simpa using hl)
      simpa using this

omit [DecidableEq K] in
theorem shift_zeroFrom {y : K} {cs : List (K × K)} (hcs : ∀ p ∈ cs, p.2 = 0) {st : List K} (hl : st.length ≤ cs.length + 1)
    {j : Nat} (h0 : ZeroFrom (st.length - 1) st) (h : ZeroFrom (j + 1) st) : ZeroFrom j (shift 0 y cs st) := by
  intro i hi
  by_cases hc : i + 1 < st.length
  · rw [shift_silent y cs hcs st i hc hl]
    exact h _ (by omega)
  · rw [shift_last _ _ _ _ _ (by omega)]
    exact h0 i (by omega)

omit [DecidableEq K] in
theorem iirRun_keeps (cs : List (K × K)) (xs : List K) : ∀ {st : List K}, ZeroFrom (st.length - 1) st →
    (iirRun cs st xs).1.length = st.length ∧ ZeroFrom (st.length - 1) (iirRun cs st xs).1 := by
  induction xs with
  | nil => intro st h; exact ⟨rfl, h⟩
  | cons x xs ih =>
    intro st h
    have h1 : (Filter.iirStep cs st x).1.length = st.length := shift_length _ _ _ _
    have h2 : ZeroFrom ((Filter.iirStep cs st x).1.length - 1) (Filter.iirStep cs st x).1 := by
      intro i hi
      rw [h1] at hi
      show (shift _ _ _ _).getD i 0 = 0
      rw [shift_last _ _ _ _ _ (by omega)]
      exact h i hi
    obtain ⟨a, b⟩ := ih h2
    rw [h1] at a b
    exact ⟨a, b⟩

omit [DecidableEq K] in
theorem iirRun_silent {cs : List (K × K)} (hcs : ∀ p ∈ cs.tail, p.2 = 0) (n : Nat) :
    ∀ {st : List K} {j : Nat}, st.length = cs.length → ZeroFrom (st.length - 1) st → ZeroFrom (j + n) st →
      ZeroFrom j (iirRun cs st (List.replicate n 0)).1 := by
  induction n with
  | zero => intro st j _ _ h; exact h
  | succ n ih =>
    intro st j hl h0 h
    have h1 : (Filter.iirStep cs st 0).1.length = st.length := shift_length _ _ _ _
    have hk := iirRun_keeps cs [0] h0
    refine ih (h1.trans hl) (by rw [h1]; exact hk.2) ?_
    exact shift_zeroFrom hcs (by simp; omega) h0 h

/-- a filter without feedback, with states of the right length whose last entry is zero -/
structure Fir (f : Iir K) : Prop where
  feedback : ∀ p ∈ f.coeffs.tail, p.2 = 0
  length : ∀ st ∈ f.states, st.length = f.coeffs.length
  last : ∀ st ∈ f.states, ZeroFrom (f.coeffs.length - 1) st

omit [DecidableEq K] in
theorem zeroFrom_replicate (j n : Nat) : ZeroFrom j (List.replicate n (0 : K)) := by
  intro i _
  rw [List.getD_eq_getElem?_getD, List.getElem?_replicate]
  split <;> rfl

omit [DecidableEq K] in
theorem fir_new (b : List K) (a : K) : Fir (Iir.new b [a]) := by
  refine ⟨?_, ?_, ?_⟩
  · have hz : ∀ (b c : List K), (∀ x ∈ c, x = 0) → ∀ p ∈ b.zip c, p.2 = 0 := fun b c h p hp => h _ (List.of_mem_zip hp).2
    intro p hp
    simp only [Iir.new] at hp
    rw [← List.map_tail] at hp
    obtain ⟨q, hq, rfl⟩ := List.mem_map.1 hp
    have : q.2 = 0 := by
      have htail : ∀ (b' l : List K), (b'.zip (a :: l)).tail = b'.tail.zip l := by
        intro b' l
        cases b' <;> rfl
      by_cases hc : [a].length < b.length
      · rw [if_pos hc, List.cons_append, htail] at hq
        exact hz _ _ (fun x hx => by rw [List.nil_append] at hx; exact List.eq_of_mem_replicate hx) q hq
      · rw [if_neg hc, htail] at hq
        simp at hq
    simp [this]
  · intro st hst
    simp only [Iir.new, List.mem_cons, List.not_mem_nil, or_false, or_self] at hst ⊢
    rw [hst]
    simp
  · intro st hst
    simp only [Iir.new, List.mem_cons, List.not_mem_nil, or_false, or_self] at hst ⊢
    rw [hst]
    exact zeroFrom_replicate _ _

theorem fir_process {N : Nat} {f : Iir K} (h : Fir f) (q : Quantum K) :
    Fir (f.process N q).1 ∧ (f.process N q).1.coeffs = f.coeffs := by
  unfold Iir.process
  split
  · exact ⟨h, rfl⟩
  · have hst : ∀ st ∈ (if isSilent q then f.states else f.resize q.length),
        st.length = f.coeffs.length ∧ ZeroFrom (f.coeffs.length - 1) st := by
      intro st hst
      split at hst
      · exact ⟨h.length st hst, h.last st hst⟩
      · rcases List.mem_append.1 hst with hs | hs
        · exact ⟨h.length st (List.mem_of_mem_take hs), h.last st (List.mem_of_mem_take hs)⟩
        · rw [List.eq_of_mem_replicate hs]
          exact ⟨by simp, zeroFrom_replicate _ _⟩
    have hall : ∀ st ∈ ((List.range (if isSilent q then f.states else f.resize q.length).length).map fun c =>
        Filter.iirRun f.coeffs ((if isSilent q then f.states else f.resize q.length).getD c [])
          ((if isSilent q then q.headD none else q.getD c none : Chan K).data N)).map (·.1),
        st.length = f.coeffs.length ∧ ZeroFrom (f.coeffs.length - 1) st := by
      intro st hs
      obtain ⟨r, hr, rfl⟩ := List.mem_map.1 hs
      obtain ⟨c, hc, rfl⟩ := List.mem_map.1 hr
      have hc' := List.mem_range.1 hc
      rw [List.getD_eq_getElem?_getD, List.getElem?_eq_getElem hc', Option.getD_some]
      obtain ⟨a1, a2⟩ := hst _ (List.getElem_mem hc')
      have := iirRun_keeps f.coeffs ((if isSilent q then q.headD none else q.getD c none : Chan K).data N)
        (st := (if isSilent q then f.states else f.resize q.length)[c]) (by rw [a1]; exact a2)
      rw [a1] at this
      exact this
    exact ⟨⟨h.feedback, fun st hs => (hall st hs).1, fun st hs => (hall st hs).2⟩, rfl⟩

theorem fir_run {N : Nat} (qs : List (Quantum K)) : ∀ {f : Iir K}, Fir f →
    Fir (f.run N qs).1 ∧ (f.run N qs).1.coeffs = f.coeffs := by
  induction qs with
  | nil => intro f h; exact ⟨h, rfl⟩
  | cons q qs ih =>
    intro f h
    obtain ⟨h1, h2⟩ := fir_process (N := N) h q
    obtain ⟨h3, h4⟩ := ih h1
    exact ⟨h3, h4.trans h2⟩

theorem fir_dies {N n : Nat} : ∀ {f : Iir K}, Fir f → (∀ st ∈ f.states, ZeroFrom (n * N) st) →
    Dies (iirStep N) (fun q => isSilent q = true) (n + 1) f := by
  induction n with
  | zero =>
    intro f h hz q hq f' t hs
    left
    have he : f.ended = true := by
      unfold Iir.ended
      rw [List.all_eq_true]
      intro st hst
      rw [List.all_eq_true]
      intro v hv
      obtain ⟨i, hi, rfl⟩ := List.getElem_of_mem hv
      have := hz st hst i (by omega)
      rw [List.getD_eq_getElem?_getD, List.getElem?_eq_getElem hi] at this
      simpa using this
    simp only [iirStep, Iir.process, hq, he, Bool.and_self, if_true] at hs
    cases hs; rfl
  | succ n ih =>
    intro f h hz q hq f' t hs
    rw [iirStep, Option.some.injEq, Prod.mk.injEq] at hs
    obtain ⟨rfl, rfl⟩ := hs
    cases he : f.ended with
    | true => left; simp [Iir.process, hq, he]
    | false =>
      right
      refine ih (fir_process h q).1 (fun st hst => ?_)
      simp only [Iir.process, hq, he, Bool.and_false, Bool.false_eq_true, if_false, if_true] at hst
      obtain ⟨r, hr, rfl⟩ := List.mem_map.1 hst
      obtain ⟨c, hc, rfl⟩ := List.mem_map.1 hr
      have hc' := List.mem_range.1 hc
      have hd : (q.headD none : Chan K).data N = List.replicate N 0 := by
        cases q with
        | nil => rfl
        | cons a q =>
          unfold isSilent at hq
          rw [List.all_eq_true] at hq
          have := hq a (by simp)
          cases a with
          | none => rfl
          | some l => simp at this
      rw [hd, List.getD_eq_getElem?_getD, List.getElem?_eq_getElem hc', Option.getD_some]
      have hm := List.getElem_mem hc'
      refine iirRun_silent h.feedback N (h.length _ hm) ?_ ?_
      · rw [h.length _ hm]; exact h.last _ hm
      · rw [← Nat.succ_mul]; exact hz _ hm

/-- **C105.** A filter without feedback coefficients, whatever it has been fed, ends within as many quanta of silence as
it has coefficients to shift out, and one more. -/
theorem C105_fir_partial {N n : Nat} (b : List K) (a : K) (ins : List (Quantum K)) (hn : max b.length 1 ≤ n * N + 1) :
    Dies (iirStep N) (fun q => isSilent q = true) (n + 1) ((Iir.new b [a]).run N ins).1 := by
  obtain ⟨h1, h2⟩ := fir_run (N := N) ins (fir_new b a)
  refine fir_dies h1 (fun st hst i hi => ?_)
  refine h1.last st hst i ?_
  rw [h2]
  have : (Iir.new b [a]).coeffs.length = max b.length 1 := by
    simp only [Iir.new, List.length_map, List.length_zip]
    have h1 : ([a] : List K).length = 1 := rfl
    rw [h1]
    split <;> split <;> simp <;> omega
  rw [this]
  omega

end

/-- C105 fails for filters with feedback: the integrator `y[n] = x[n] + y[n - 1]`, which the validation accepts, never
ends once it has heard something. (The numbers are exact in `f64`, too.) -/
theorem C105_negated_integrator (n : Nat) :
    ¬ Dies (iirStep 2) (fun q => isSilent q = true) n
      ((Filter.Iir.new [1] [1, -1] : Filter.Iir ℚ).run 2 [[some [1, 0]]]).1 := by
  have ext : ∀ f g : Filter.Iir ℚ, f.coeffs = g.coeffs → f.states = g.states → f = g := by
    intro f g h1 h2
    obtain ⟨_, _⟩ := f
    obtain ⟨_, _⟩ := g
    simp only at h1 h2
    rw [h1, h2]
  have h0 : ((Filter.Iir.new [1] [1, -1] : Filter.Iir ℚ).run 2 [[some [1, 0]]]).1 =
      ⟨[(1, 1), (0, -1)], [[1, 0]]⟩ := ext _ _ (by decide +kernel) (by decide +kernel)
  rw [h0]
  have hs : iirStep 2 (⟨[(1, 1), (0, -1)], [[1, 0]]⟩ : Filter.Iir ℚ) silence =
      some (⟨[(1, 1), (0, -1)], [[1, 0]]⟩, true) := by
    rw [iirStep, Option.some.injEq, Prod.mk.injEq]
    exact ⟨ext _ _ (by decide +kernel) (by decide +kernel), by decide +kernel⟩
  induction n with
  | zero => exact fun h => h
  | succ n ih =>
    intro h
    rcases h silence rfl _ _ hs with h | h
    · cases h
    · exact ih h

/-! ## Whole graphs -/

section
variable {K : Type} [Field K] [LinearOrder K]

open Verif.Engine

/-- Processors that end: gains, splitters and mergers at once, filters without feedback, sources that again and again
return false. -/
def Finite : Proc K → Prop
  | .destination => False
  | .source play _ => ∀ k, ∃ m, (play (k + m)).2 = false
  | .gain _ _ => True
  | .iir f => Fir f
  | .splitter _ => True
  | .merger => True

theorem finite_process {e : Consts K} {p p' : Proc K} {ins outs outs' : List (Sig K)} {t : Bool} (h : Finite p)
    (hp : Engine.process e p ins outs = some (p', outs', t)) : Finite p' := by
  unfold Engine.process at hp
  split at hp
  · exact h.elim
  · cases hp; exact h
  · cases hp; trivial
  · cases hp; exact (fir_process h _).1
  · simp only [Option.map_eq_some_iff] at hp
    obtain ⟨_, _, hp⟩ := hp
    cases hp; trivial
  · simp only [Option.map_eq_some_iff] at hp
    obtain ⟨_, _, hp⟩ := hp
    cases hp; trivial
  · cases hp

theorem finite_fades [IsStrictOrderedRing K] {e : Consts K} (hN : 0 < e.N) {p : Proc K} (h : Finite p) :
    ∃ n, Fades (Engine.sem e) n p := by
  have once : ∀ p : Proc K, (∀ ins outs p' outs' t, Engine.process e p ins outs = some (p', outs', t) → t = false) →
      ∃ n, Fades (Engine.sem e) n p :=
    fun p hp => ⟨1, fun ins outs _ _ p' outs' t ht => .inl (hp ins outs p' outs' t ht)⟩
  cases p with
  | destination => exact h.elim
  | source play k =>
    obtain ⟨m, hm⟩ := h k
    refine ⟨m + 1, ?_⟩
    clear h
    have key : ∀ k ins outs p' outs' t, Engine.process e (.source play k) ins outs = some (p', outs', t) →
        p' = .source play (k + 1) ∧ t = (play k).2 := by
      intro k ins outs p' outs' t hp
      cases outs with
      | nil => simp [Engine.process] at hp
      | cons o os => simp only [Engine.process] at hp; cases hp; exact ⟨rfl, rfl⟩
    induction m generalizing k with
    | zero =>
      intro ins outs ps _ p' outs' t hp
      exact .inl ((key k _ _ _ _ _ hp).2.trans hm)
    | succ m ih =>
      intro ins outs ps _ p' outs' t hp
      right
      rw [(key k _ _ _ _ _ hp).1]
      exact ih (k + 1) (by rw [show k + 1 + m = k + (m + 1) by omega]; exact hm)
  | gain v k =>
    refine once _ fun ins outs p' outs' t hp => ?_
    cases ins <;> cases outs <;> simp only [Engine.process] at hp <;> cases hp
    rfl
  | iir f =>
    have hd : Dies (iirStep e.N) (fun q => isSilent q = true) (f.coeffs.length + 1) f := by
      refine fir_dies h (fun st hst i hi => h.last st hst i ?_)
      have : f.coeffs.length ≤ f.coeffs.length * e.N := Nat.le_mul_of_pos_right _ hN
      omega
    refine ⟨f.coeffs.length + 1, Dies.fades (make := Proc.iir) ?_ hd⟩
    intro s ins outs ps p' outs' t hin hp
    have hp : Engine.process e (.iir s) ins outs = some (p', outs', t) := hp
    match ins, outs, hp with
    | i :: _, o :: os, hp =>
      simp only [Engine.process] at hp
      cases hp
      exact ⟨i, _, by rw [hin i (by simp)]; rfl, rfl, rfl⟩
    | [], _, hp => simp [Engine.process] at hp
    | _ :: _, [], hp => simp [Engine.process] at hp
  | splitter n =>
    refine once _ fun ins outs p' outs' t hp => ?_
    cases ins with
    | nil => simp [Engine.process] at hp
    | cons i is =>
      simp only [Engine.process, Option.map_eq_some_iff] at hp
      obtain ⟨_, _, hp⟩ := hp
      cases hp; rfl
  | merger =>
    refine once _ fun ins outs p' outs' t hp => ?_
    cases outs with
    | nil => simp [Engine.process] at hp
    | cons o os =>
      simp only [Engine.process, Option.map_eq_some_iff] at hp
      obtain ⟨_, _, hp⟩ := hp
      cases hp; rfl

theorem finite_fading [IsStrictOrderedRing K] {e : Consts K} (hN : 0 < e.N) {p : Proc K} (h : Finite p) :
    Fading (Engine.sem e) p := by
  intro q hq
  have : Finite q := by
    induction hq with
    | refl => exact h
    | step _ hs ih => exact finite_process ih hs
  exact finite_fades hN this

/-- **C105, with C104.** In graphs of sources, gains, splitters, mergers and filters, dropped nodes are released after
finitely many quanta, whatever the rest of the application does: no assumption on the tails is left but that sources end
and filters have no feedback. -/
theorem C105_released_partial [IsStrictOrderedRing K] {e : Consts K} (hN : 0 < e.N)
    {bs : Nat → List (Msg (Proc K) (Nat → Sig K × Bool))} {G H : Nat → RGraph (Proc K) (Sig K)} {old : Nat → Bool}
    (h : History (Engine.sem e) bs G H) (hs : ∀ k, ∀ m ∈ bs k, m.spares old (G k)) (ha : Apart old (G 0))
    (hfin : ∀ i n, (H 0).slot i = some n → old n.tag = true → n.dropped = true ∧ Finite n.proc) :
    ∃ k, ∀ m, k ≤ m → (∀ i n, (G m).slot i = some n → old n.tag = false) ∧
      ∀ i n, (H 0).slot i = some n → old n.tag = true → i ∈ (G m).reclaimed :=
  C104_released_partial h hs ha fun i n hn ho =>
    ⟨(hfin i n hn ho).1, .inl (finite_fading hN (hfin i n hn ho).2)⟩

/-- The same for an application that has dropped everything but the destination and does nothing more: after
finitely many quanta only the destination is left. -/
theorem C105_idle_partial [IsStrictOrderedRing K] {e : Consts K} (hN : 0 < e.N) {g : RGraph (Proc K) (Sig K)} (w : WF g)
    (hc : Complete g) (hac : Acyclic g) {d : Render.Node (Proc K) (Sig K)} (hd : g.slot 0 = some d)
    (hd1 : d.proc = .destination ∧ d.dropped = false ∧ d.outputs ≠ [] ∧ d.inputs ≠ [])
    (htag : ∀ i n, g.slot i = some n → i ≠ 0 → n.tag ≠ d.tag ∧ n.dropped = true ∧ Finite n.proc)
    (he : ∀ e ∈ d.edges, e.port = none) :
    ∃ k, ∀ m, k ≤ m → ∃ g', quanta (Engine.sem e) m g = some g' ∧ (∀ i n, g'.slot i = some n → n.tag = d.tag) ∧
      ∀ i n, g.slot i = some n → i ≠ 0 → i ∈ g'.reclaimed := by
  have hdest : ∀ q, Becomes (Engine.sem e) d.proc q → q = .destination := by
    intro q hq
    induction hq with
    | refl => exact hd1.1
    | step _ hp ih =>
      subst ih
      rename_i q' ins outs ps outs' t _
      have hp : Engine.process e .destination ins outs = some (q', outs', t) := hp
      match ins, outs, hp with
      | i :: _, o :: os, hp => simp only [Engine.process] at hp; cases hp; rfl
      | [], _, hp => simp [Engine.process] at hp
      | _ :: _, [], hp => simp [Engine.process] at hp
  have sink : Sink (Engine.sem e) g := by
    refine ⟨d, hd, hd1.2.1, hd1.2.2.1, hd1.2.2.2, fun q hq ins outs ps h1 h2 => ?_⟩
    rw [hdest q hq]
    show Engine.process e .destination ins outs ≠ none
    match ins, outs, h1, h2 with
    | i :: _, o :: os, _, _ => simp [Engine.process]
  have hold : ∀ i n, g.slot i = some n → decide (n.tag ≠ d.tag) = true → i ≠ 0 := by
    intro i n hn ht h0
    subst h0
    rw [hd] at hn
    cases hn
    simp at ht
  obtain ⟨k, hk⟩ := C104_idle_partial (Engine.sem e) (old := fun t => decide (t ≠ d.tag)) w hc hac sink
    (by
      intro j m hj hm x hx t ht hto
      by_cases hj0 : j = 0
      · subst hj0
        rw [hd] at hj
        cases hj
        exact he x hx
      · have := (htag j m hj hj0).1
        simp [this] at hm)
    (fun i n hn ht => ⟨(htag i n hn (hold i n hn ht)).2.1,
      .inl (finite_fading hN (htag i n hn (hold i n hn ht)).2.2)⟩)
  refine ⟨k, fun m hm => ?_⟩
  obtain ⟨g', h1, h2, h3⟩ := hk m hm
  refine ⟨g', h1, fun i n hn => by simpa using h2 i n hn, fun i n hn hi => h3 i n hn ?_⟩
  simpa using (htag i n hn hi).1

end

/-! ## Cases that meet the hypotheses -/

/-- A convolver with an impulse response of three frames. -/
example : Dies (convStep (K := ℚ) 2) (fun q => isSilent q = true) 3
    ((Convolver.Conv.new : Convolver.Conv ℚ).setBuffer [[1, 1, 1]] 1) := C105_convolver (n := 2) _ (by decide)

/-- It does take three quanta. -/
example : (((Convolver.Conv.new : Convolver.Conv ℚ).setBuffer [[1, 1, 1]] 1).run 2
    [[some [1, 1]], [none], [none], [none]]).map (fun r => r.2.map (·.2)) = some [true, true, true, false] := by
  decide +kernel

/-- A source that is started in the second quantum and stopped in the third. -/
example : Dies (constStep (V := ℚ) (1 / 4 : ℚ) 4) (fun _ => True) 3
    ({ hasStart := true, start := ((3 / 2 : ℚ) : WithTop ℚ), stop := ((9 / 4 : ℚ) : WithTop ℚ) } : Source.Const ℚ) :=
  C105_const _ (by decide) (by decide +kernel)

/-- Without a stop time a constant source goes on. -/
example (n : Nat) : ¬ Dies (constStep (V := ℚ) (1 : ℚ) 1) (fun _ => True) n
    ({ hasStart := true, start := ((0 : ℚ) : WithTop ℚ) } : Source.Const ℚ) := by
  suffices ∀ n f, ¬ Dies (constStep (V := ℚ) (1 : ℚ) 1) (fun _ => True) n
      ({ hasStart := true, start := ((0 : ℚ) : WithTop ℚ), frame := f } : Source.Const ℚ) from this n 0
  intro n
  induction n with
  | zero => exact fun _ h => h
  | succ n ih =>
    intro f h
    have hs : constStep (V := ℚ) (1 : ℚ) 1
        ({ hasStart := true, start := ((0 : ℚ) : WithTop ℚ), frame := f } : Source.Const ℚ) [1] =
        some ({ hasStart := true, start := ((0 : ℚ) : WithTop ℚ), frame := f + 1 }, true) := by
      have h0 : ¬ (((f : ℚ) * 1 + 1 * (1 : Nat) : ℚ) : WithTop ℚ) ≤ ((0 : ℚ) : WithTop ℚ) := by
        rw [WithTop.coe_le_coe, not_le]
        push_cast
        positivity
      simp only [constStep, Source.Const.process]
      rw [if_neg h0, if_pos (WithTop.coe_lt_top _)]
    rcases h [1] trivial _ _ hs with h | h
    · cases h
    · exact ih _ h

/-- A filter with three coefficients: two frames to shift out. -/
example : Dies (iirStep 2) (fun q => isSilent q = true) 2
    ((Filter.Iir.new [1, 2, 3] [2] : Filter.Iir ℚ).run 2 [[some [1, 1]]]).1 := C105_fir_partial _ _ _ (by decide)

/-- source 11 (two quanta), filter 12 without feedback, gain 13, destination -/
def endG : RGraph (Engine.Proc ℚ) (Engine.Sig ℚ) where
  cap := 64
  slot := fun i =>
    if i = 0 then some ⟨0, .destination, [[none]], [[none]], cfg0, [], false, false, false⟩
    else if i = 11 then some ⟨1, .source (fun k => if k < 2 then ([some [1, 2]], true) else ([none], false)) 0, [], [[none]],
      cfg0, [⟨0, 12, some 0⟩], true, false, false⟩
    else if i = 12 then some ⟨2, .iir (Filter.Iir.new [1, 2, 3] [2]), [[none]], [[none]], cfg0, [⟨0, 13, some 0⟩],
      true, false, false⟩
    else if i = 13 then some ⟨3, .gain (fun _ => [3]) 0, [[none]], [[none]], cfg0, [⟨0, 0, some 0⟩], true, false, false⟩
    else none
  ordered := []
  reclaimed := []

theorem endG_cases {i : Nat} {n : Render.Node (Engine.Proc ℚ) (Engine.Sig ℚ)} (h : endG.slot i = some n) :
    (i = 0 ∧ n = ⟨0, .destination, [[none]], [[none]], cfg0, [], false, false, false⟩) ∨
    (i = 11 ∧ n = ⟨1, .source (fun k => if k < 2 then ([some [1, 2]], true) else ([none], false)) 0, [], [[none]],
      cfg0, [⟨0, 12, some 0⟩], true, false, false⟩) ∨
    (i = 12 ∧ n = ⟨2, .iir (Filter.Iir.new [1, 2, 3] [2]), [[none]], [[none]], cfg0, [⟨0, 13, some 0⟩],
      true, false, false⟩) ∨
    (i = 13 ∧ n = ⟨3, .gain (fun _ => [3]) 0, [[none]], [[none]], cfg0, [⟨0, 0, some 0⟩], true, false, false⟩) := by
  simp only [endG] at h
  split at h
  · exact .inl ⟨by assumption, by simpa using h.symm⟩
  · split at h
    · exact .inr (.inl ⟨by assumption, by simpa using h.symm⟩)
    · split at h
      · exact .inr (.inr (.inl ⟨by assumption, by simpa using h.symm⟩))
      · split at h
        · exact .inr (.inr (.inr ⟨by assumption, by simpa using h.symm⟩))
        · simp at h

/-- The hypotheses are met; the nodes go one after the other. -/
example : (∃ k, ∀ m, k ≤ m → ∃ g', quanta (Engine.sem ⟨1 / 10, 2, 1⟩) m endG = some g' ∧
      (∀ i n, g'.slot i = some n → n.tag = 0) ∧
      ∀ i n, endG.slot i = some n → i ≠ 0 → i ∈ g'.reclaimed) ∧
    (quanta (Engine.sem ⟨1 / 10, 2, 1⟩) 2 endG).map (·.keys) = some [0, 11, 12, 13] ∧
    (quanta (Engine.sem ⟨1 / 10, 2, 1⟩) 3 endG).map (·.keys) = some [0, 12, 13] ∧
    (quanta (Engine.sem ⟨1 / 10, 2, 1⟩) 5 endG).map (fun g => (g.keys, g.reclaimed)) = some ([0], [11, 12, 13]) := by
  refine ⟨C105_idle_partial (e := ⟨1 / 10, 2, 1⟩) (by decide) ⟨⟨?_, ?_⟩, List.nodup_nil, by simp [endG], by simp [endG]⟩
    (.inl rfl) ?_ (d := ⟨0, .destination, [[none]], [[none]], cfg0, [], false, false, false⟩) rfl
    ⟨rfl, rfl, by simp, by simp⟩ ?_ (by simp), by decide +kernel, by decide +kernel, by decide +kernel⟩
  · intro i n hn
    rcases endG_cases hn with ⟨rfl, rfl⟩ | ⟨rfl, rfl⟩ | ⟨rfl, rfl⟩ | ⟨rfl, rfl⟩ <;> decide
  · intro i n hn e he
    rcases endG_cases hn with ⟨rfl, rfl⟩ | ⟨rfl, rfl⟩ | ⟨rfl, rfl⟩ | ⟨rfl, rfl⟩ <;> simp at he <;> subst he <;>
      simp [endG]
  · have one : ∀ u v, (∃ n, endG.slot u = some n ∧ ∃ e ∈ n.edges, e.dst = v) → u ≠ 0 ∧ (u < v ∨ v = 0) := by
      rintro u v ⟨n, hn, e, he, rfl⟩
      rcases endG_cases hn with ⟨rfl, rfl⟩ | ⟨rfl, rfl⟩ | ⟨rfl, rfl⟩ | ⟨rfl, rfl⟩ <;> simp at he <;> subst he <;> simp
    have rank : ∀ u v, Relation.TransGen (fun u v => ∃ n, endG.slot u = some n ∧ ∃ e ∈ n.edges, e.dst = v) u v →
        u ≠ 0 ∧ (u < v ∨ v = 0) := by
      intro u v h
      induction h with
      | single h => exact one _ _ h
      | tail h k ih =>
        have := one _ _ k
        omega
    intro i hc
    have := rank i i hc
    omega
  · intro i n hn hi
    rcases endG_cases hn with ⟨rfl, rfl⟩ | ⟨rfl, rfl⟩ | ⟨rfl, rfl⟩ | ⟨rfl, rfl⟩
    · exact absurd rfl hi
    · refine ⟨by decide, rfl, fun k => ⟨2, ?_⟩⟩
      simp
    · exact ⟨by decide, rfl, fir_new _ _⟩
    · exact ⟨by decide, rfl, trivial⟩

/-- A buffer of six frames, started half a frame before the second frame, at the natural rate and then at half of it:
after four quanta it has ended by itself. -/
example : ∃ outs s', Source.BufSt.run Source.e4 (Source.BufSt.new false 0 0) (Source.blocks [] ++
      (([.buffer [[1, 2, 3, 4, 9, 9]], .start (1 / 8) 0 ⊤] ++ (none : Option ℚ).toList.map .stop) ++
        Source.blocks [(1, 1), (1 / 2, 1), (1 / 2, 1), (1, 1)])) = some (.ok (outs, s')) ∧
    s'.events = 1 ∧ Dies (bufStep Source.e4) (fun _ => True) 1 s' := by
  have key : ∀ r : Option (Except Source.Fault (List (List (List ℚ)) × Source.BufSt ℚ)),
      (r.map fun x => x.toBool) = some true → ∃ outs s', r = some (.ok (outs, s')) := by
    rintro (_ | _ | ⟨o, s⟩) h
    · cases h
    · cases h
    · exact ⟨o, s, rfl⟩
  obtain ⟨outs, s', h⟩ := key (Source.BufSt.run Source.e4 (Source.BufSt.new false 0 0) (Source.blocks [] ++
      (([.buffer [[1, 2, 3, 4, 9, 9]], .start (1 / 8) 0 ⊤] ++ (none : Option ℚ).toList.map .stop) ++
        Source.blocks [(1, 1), (1 / 2, 1), (1 / 2, 1), (1, 1)]))) (by decide +kernel)
  refine ⟨outs, s', h, C105_buffer_partial (low := 1 / 2) (first := 1) Source.e4_exact (by decide +kernel)
    (by decide +kernel) (by decide) (by simp) (by simp [Source.lengthOf]) (by norm_num) (by simp; norm_num)
    (by decide +kernel) ?_ (by decide +kernel) h⟩
  intro j hj
  change 1 = j * 4 at hj
  omega

/-- A looping buffer source whose stop time is in the second quantum. -/
example : Dies (bufStep Source.e4) (fun _ => True) 3
    ({ (Source.BufSt.new true 0 0 : Source.BufSt ℚ) with
        start := ((0 : ℚ) : WithTop ℚ), stop := ((3 / 2 : ℚ) : WithTop ℚ) }) :=
  C105_buffer_stop _ (by decide) (by decide +kernel)

/-- An oscillator whose stop time is in the second quantum. -/
example : Dies (oscStep (fun x => x) [0, 1, 0, -1] (fun a _ => a) (1 / 4 : ℚ) 4) (fun _ => True) 2
    ({ (Source.Osc.new .sine none : Source.Osc ℚ) with start := ((1 / 8 : ℚ) : WithTop ℚ), stop := ((3 / 2 : ℚ) : WithTop ℚ) }) :=
  C105_osc _ (by decide) (by decide +kernel)

/-- A compressor with a ring of three quanta, after a sound. -/
example : Dies (compStep 3 2 fun _ _ => ((), [1, 1])) (fun q => isSilent q = true) 3
    ((Compressor.Comp.new ()).run 3 2 (fun _ _ => ((), [1, 1])) [[some [1, 2]], [some [3, 4]]] :
      Compressor.Comp ℤ Unit × _).1 := C105_compressor (by decide) _ _ _

/-- A panner with impulse responses of 300 frames. -/
example (H : Panner.Hrtf Unit) : Dies (pannerStep H 128) (fun i => isSilent i.2 = true) 4
    ⟨⟨.inverse, 1, 10000, 1, 360, 360, 0⟩, some (300, ()), 0⟩ :=
  C105_panner H (n := 3) _ (by rintro _ _ ⟨⟩; decide)

end Verif.Tail
