import Verif.Source.BufferProps
import Verif.Float.Round

/-!
# C34: interpolation, bounds and faults of the buffer source
-/

namespace Verif.Source

section
variable {K : Type} [Field K] [LinearOrder K] [FloorRing K]

/-! ## Specification -/

/-- The samples a channel may give: silence, a combination of two neighbouring frames, and at the last frame
the combination with a frame of the loop, the combination with zero, or the extrapolation of the last two
frames. -/
inductive Heard (looping : Bool) (ch : List K) : K → Prop where
  | silent : Heard looping ch 0
  | between (i : Nat) (k x y : K) : 0 ≤ k → k < 1 → ch[i]? = some x → ch[i + 1]? = some y →
      Heard looping ch ((1 - k) * x + k * y)
  | single (i : Nat) (x : K) : ch[i]? = some x → Heard looping ch x
  | loops (k x y : K) (j : Nat) : 0 ≤ k → k < 1 → looping = true → ch[ch.length - 1]? = some x →
      ch[j]? = some y → Heard looping ch ((1 - k) * x + k * y)
  | fades (k x : K) : 0 ≤ k → k < 1 → looping = false → ch[ch.length - 1]? = some x →
      Heard looping ch ((1 - k) * x)
  | extrapolates (k x w : K) : 0 ≤ k → k < 1 → looping = false → ch[ch.length - 1]? = some x →
      ch[ch.length - 2]? = some w → 2 ≤ ch.length → Heard looping ch (x + k * (x - w))

/-! ## The two while loops -/

variable [IsStrictOrderedRing K]

/-- `wrapDown` is the first value below the bound when `step` is subtracted repeatedly. -/
theorem wrapDown_spec {bound step t r : K} (h : wrapDown bound step t = .ok r) :
    ∃ n : Nat, r = t - n * step ∧ r < bound ∧ ∀ m : Nat, m < n → bound ≤ t - m * step := by
  unfold wrapDown at h
  split at h
  · rename_i hlt; cases h; exact ⟨0, by simp, hlt, fun m hm => by omega⟩
  · rename_i hge
    split at h
    · cases h
    · rename_i hst
      push Not at hge hst
      cases h
      have hd : 0 ≤ (t - bound) / step := div_nonneg (by linarith) hst.le
      have hfl : 0 ≤ ⌊(t - bound) / step⌋ := Int.floor_nonneg.2 hd
      obtain ⟨n, hn⟩ := Int.eq_ofNat_of_zero_le hfl
      refine ⟨n + 1, by rw [hn]; push_cast; ring, ?_, ?_⟩
      · have := Int.lt_floor_add_one ((t - bound) / step)
        rw [div_lt_iff₀ hst] at this
        linarith
      · intro m hm
        have h1 : ((m : ℤ) : K) ≤ (⌊(t - bound) / step⌋ : K) := by
          rw [hn]
          exact_mod_cast Nat.lt_succ_iff.1 hm
        have h2 := Int.floor_le ((t - bound) / step)
        have h3 : (m : K) ≤ (t - bound) / step := by
          push_cast at h1
          linarith
        rw [le_div_iff₀ hst] at h3
        linarith

/-- The loop does not end if and only if the step is not positive and the bound is exceeded. -/
theorem wrapDown_hang (bound step t : K) : (∃ f, wrapDown bound step t = .error f) ↔
    ∀ n : Nat, bound ≤ t - n * step := by
  constructor
  · rintro ⟨f, h⟩ n
    unfold wrapDown at h
    split at h
    · cases h
    · rename_i hge
      split at h
      · rename_i hst
        push Not at hge
        have : (n : K) * step ≤ 0 := mul_nonpos_of_nonneg_of_nonpos (Nat.cast_nonneg n) hst
        linarith
      · cases h
  · intro h
    cases hw : wrapDown bound step t with
    | error f => exact ⟨f, rfl⟩
    | ok r =>
      obtain ⟨n, rfl, hlt, _⟩ := wrapDown_spec hw
      exact absurd (h n) (not_le.2 hlt)

theorem wrapUp_spec {bound step t r : K} (h : wrapUp bound step t = .ok r) :
    ∃ n : Nat, r = t + n * step ∧ bound ≤ r ∧ ∀ m : Nat, m < n → t + m * step < bound := by
  unfold wrapUp at h
  split at h
  · rename_i hlt; cases h; exact ⟨0, by simp, hlt, fun m hm => by omega⟩
  · rename_i hge
    split at h
    · cases h
    · rename_i hst
      push Not at hge hst
      cases h
      have hd : 0 ≤ (bound - t) / step := div_nonneg (by linarith) hst.le
      have hfl : 0 ≤ ⌈(bound - t) / step⌉ := Int.ceil_nonneg hd
      obtain ⟨n, hn⟩ := Int.eq_ofNat_of_zero_le hfl
      refine ⟨n, by rw [hn]; push_cast; ring, ?_, ?_⟩
      · have := Int.le_ceil ((bound - t) / step)
        rw [div_le_iff₀ hst] at this
        linarith
      · intro m hm
        have h1 : (m : ℤ) < ⌈(bound - t) / step⌉ := by rw [hn]; exact_mod_cast hm
        have h2 := Int.lt_ceil.1 h1
        rw [Int.cast_natCast, lt_div_iff₀ hst] at h2
        linarith

theorem wrapUp_hang (bound step t : K) : (∃ f, wrapUp bound step t = .error f) ↔
    ∀ n : Nat, t + n * step < bound := by
  constructor
  · rintro ⟨f, h⟩ n
    unfold wrapUp at h
    split at h
    · cases h
    · rename_i hge
      split at h
      · rename_i hst
        push Not at hge
        have : (n : K) * step ≤ 0 := mul_nonpos_of_nonneg_of_nonpos (Nat.cast_nonneg n) hst
        linarith
      · cases h
  · intro h
    cases hw : wrapUp bound step t with
    | error f => exact ⟨f, rfl⟩
    | ok r =>
      obtain ⟨n, rfl, hge, _⟩ := wrapUp_spec hw
      exact absurd (h n) (not_lt.2 hge)

/-! ## Samples -/

theorem playhead_spec {e : BufEnv K} {q : SlowEnv K} {t k : K} {i : Nat} (h : playhead e q t = some (i, k)) :
    i < q.len ∧ 0 ≤ k ∧ k < 1 := by
  unfold playhead at h
  dsimp only at h
  split at h
  · split at h
    · rename_i hi
      cases h
      exact ⟨hi, Int.fract_nonneg _, Int.fract_lt_one _⟩
    · cases h
  · cases h

theorem frames_infos {e : BufEnv K} {q : SlowEnv K} {bt : K} {n : Nat} : ∀ {i : Nat} {s s' : Slow K}
    {infos : List (Option (Nat × K))}, Slow.frames e q bt n i s = .ok (s', infos) →
    infos.length = n ∧ ∀ p ∈ infos, ∀ j k, p = some (j, k) → j < q.len ∧ 0 ≤ k ∧ k < 1 := by
  induction n with
  | zero =>
    intro i s s' infos h
    cases h
    exact ⟨rfl, by simp⟩
  | succ n ih =>
    intro i s s' infos h
    rw [Slow.frames] at h
    cases hf : Slow.frame e q (bt + i * (1 / e.sr)) s with
    | error f => rw [hf] at h; cases h
    | ok p =>
      obtain ⟨r, info⟩ := p
      rw [hf] at h
      simp only at h
      cases hg : Slow.frames e q bt n (i + 1) r with
      | error f => rw [hg] at h; cases h
      | ok p =>
        obtain ⟨r', ps⟩ := p
        rw [hg] at h
        cases h
        obtain ⟨i1, i2⟩ := ih hg
        refine ⟨by simp [i1], ?_⟩
        intro p hp j k hk
        rcases List.mem_cons.1 hp with rfl | hm
        · unfold Slow.frame at hf
          dsimp only at hf
          split at hf
          · cases hf; cases hk
          · split at hf
            · cases hf
            · cases hf
              exact playhead_spec hk
        · exact i2 p hm j k hk

omit [IsStrictOrderedRing K] in
theorem slowSample_heard {e : BufEnv K} {q : SlowEnv K} {rate0 : K} {ch : List K} (hlen : q.len = ch.length)
    {info : Option (Nat × K)} (hi : ∀ j k, info = some (j, k) → j < q.len ∧ 0 ≤ k ∧ k < 1) {v : K}
    (h : slowSample e q rate0 ch info = some v) : Heard q.looping ch v := by
  cases info with
  | none => cases h; exact .silent
  | some p =>
    obtain ⟨i, k⟩ := p
    obtain ⟨h1, h2, h3⟩ := hi i k rfl
    rw [hlen] at h1
    simp only [slowSample] at h
    rw [List.getElem?_eq_getElem h1, Option.bind_some] at h
    cases hn : nextSample e q rate0 ch i k ch[i] with
    | none => rw [hn] at h; cases h
    | some y =>
      rw [hn] at h
      cases h
      unfold nextSample at hn
      cases hy : ch[i + 1]? with
      | some z =>
        rw [hy] at hn
        cases hn
        exact .between i k _ _ h2 h3 (List.getElem?_eq_getElem h1) hy
      | none =>
        rw [hy] at hn
        have hil : i = ch.length - 1 := by
          have := List.getElem?_eq_none_iff.1 hy
          omega
        have hx : ch[ch.length - 1]? = some ch[i] := by
          rw [← hil]; exact List.getElem?_eq_getElem h1
        simp only at hn
        cases hlo : q.looping with
        | true =>
          rw [hlo] at hn
          simp only [if_true] at hn
          split at hn
          · exact .loops k _ y _ h2 h3 rfl hx hn
          · exact .loops k _ y _ h2 h3 rfl hx hn
        | false =>
          rw [hlo] at hn
          simp only [Bool.false_eq_true, if_false] at hn
          split at hn
          · cases hn
            have : (1 - k) * ch[i] + k * 0 = (1 - k) * ch[i] := by ring
            show Heard false ch ((1 - k) * ch[i] + k * 0)
            rw [this]
            exact .fades k _ h2 h3 rfl hx
          · rename_i hc
            push Not at hc
            cases hw : ch[i - 1]? with
            | none => rw [hw] at hn; cases hn
            | some w =>
              rw [hw] at hn
              cases hn
              have : (1 - k) * ch[i] + k * (2 * ch[i] - w) = ch[i] + k * (ch[i] - w) := by ring
              show Heard false ch ((1 - k) * ch[i] + k * (2 * ch[i] - w))
              rw [this]
              refine .extrapolates k _ w h2 h3 rfl hx ?_ ?_
              · rw [← hw]; congr 1; omega
              · have := hc.2; omega

omit [IsStrictOrderedRing K] [Field K] [LinearOrder K] [FloorRing K] in
theorem mapM_mem {A B : Type} {f : A → Option B} {l : List A} {r : List B} (h : l.mapM f = some r) :
    r.length = l.length ∧ ∀ (i : Nat) (b : B), r[i]? = some b → ∃ a, l[i]? = some a ∧ f a = some b := by
  induction l generalizing r with
  | nil => cases h; simp
  | cons a l ih =>
    rw [List.mapM_cons] at h
    cases hf : f a with
    | none => rw [hf] at h; cases h
    | some b =>
      rw [hf] at h
      cases hl : l.mapM f with
      | none => rw [hl] at h; cases h
      | some bs =>
        rw [hl] at h
        cases h
        obtain ⟨i1, i2⟩ := ih hl
        refine ⟨by simp [i1], ?_⟩
        intro i c hc
        cases i with
        | zero =>
          simp only [List.getElem?_cons_zero, Option.some.injEq] at hc
          subst hc
          exact ⟨a, by simp, hf⟩
        | succ i => simpa using i2 i c (by simpa using hc)

omit [IsStrictOrderedRing K] [Field K] [LinearOrder K] [FloorRing K] in
theorem mapM_some {A B : Type} {f : A → Option B} {l : List A} (h : ∀ a ∈ l, f a ≠ none) :
    ∃ r, l.mapM f = some r := by
  induction l with
  | nil => exact ⟨[], rfl⟩
  | cons a l ih =>
    obtain ⟨r, hr⟩ := ih fun x hx => h x (by simp [hx])
    cases hf : f a with
    | none => exact absurd hf (h a (by simp))
    | some b =>
      refine ⟨b :: r, ?_⟩
      rw [List.mapM_cons, hf, hr]
      rfl

omit [FloorRing K] [IsStrictOrderedRing K] in
theorem fastLoop_heard {looping : Bool} {ch : List K} {len n : Nat} :
    ∀ {index si off : Nat} {lp lp' : Option Nat}
    {out : List K}, fastLoop ch len looping n index si off lp = some (out, lp') →
    ∀ v ∈ out, Heard looping ch v := by
  induction n with
  | zero =>
    intro index si off lp lp' out h
    cases h
    simp
  | succ n ih =>
    intro index si off lp lp' out h
    rw [fastLoop] at h
    have fin : ∀ {x : K} {a b : Nat} {l : Option Nat}, Heard looping ch x →
        (fastLoop ch len looping n (index + 1) a b l).map (fun r => (x :: r.1, r.2)) = some (out, lp') →
        ∀ v ∈ out, Heard looping ch v := by
      intro x a b l hx h
      cases hf : fastLoop ch len looping n (index + 1) a b l with
      | none => rw [hf] at h; cases h
      | some r =>
        obtain ⟨o, l'⟩ := r
        rw [hf] at h
        cases h
        intro v hv
        rcases List.mem_cons.1 hv with rfl | hm
        · exact hx
        · exact ih hf v hm
    split at h
    · cases hx : ch[si + index - off]? with
      | none => rw [hx] at h; cases h
      | some x => rw [hx] at h; exact fin (.single _ x hx) h
    · split at h
      · cases hx : ch[0]? with
        | none => rw [hx] at h; cases h
        | some x => rw [hx] at h; exact fin (.single _ x hx) h
      · exact fin .silent h

omit [FloorRing K] [IsStrictOrderedRing K] in
theorem fastChannels_heard {looping : Bool} {len n si : Nat} {chans : List (List K)} :
    ∀ {lp lp' : Option Nat} {outs : List (List K)},
    fastChannels len looping n si chans lp = some (outs, lp') →
    ∀ (c : Nat) (o : List K), outs[c]? = some o → ∃ ch, chans[c]? = some ch ∧ ∀ v ∈ o, Heard looping ch v := by
  induction chans with
  | nil => intro lp lp' outs h; cases h; simp
  | cons ch chans ih =>
    intro lp lp' outs h
    rw [fastChannels] at h
    cases hf : fastLoop ch len looping n 0 si 0 lp with
    | none => rw [hf] at h; cases h
    | some r =>
      rw [hf, Option.bind_some] at h
      cases hg : fastChannels len looping n si chans r.2 with
      | none => rw [hg] at h; cases h
      | some q =>
        obtain ⟨o2, l2⟩ := q
        rw [hg] at h
        cases h
        intro c o ho
        cases c with
        | zero =>
          simp only [List.getElem?_cons_zero, Option.some.injEq] at ho
          subst ho
          exact ⟨ch, rfl, fastLoop_heard (lp' := r.2) (by rw [hf])⟩
        | succ c => simpa using ih hg c o (by simpa using ho)

/-- C34: whatever the state, the loop points, the rate and the detune: every sample of a quantum is silence, a
combination of two neighbouring frames with weights in `[0, 1]`, or one of the cases at the last frame. -/
theorem C34_samples {e : BufEnv K} {s s' : BufSt K} {chans : List (List K)} (hb : s.buffer = some chans)
    (hch : ∀ ch ∈ chans, ch.length = lengthOf chans) {rate det : K} {out : List (List K)}
    (h : s.step e (.block rate det) = some (.ok (out, s'))) {c : Nat} {o : List K} (ho : out[c]? = some o) :
    ∃ ch, chans[c]? = some ch ∧ ∀ v ∈ o, Heard s.looping ch v := by
  simp only [BufSt.step] at h
  split at h
  swap
  · cases h; simp at ho
  cases hp : s.process e rate det with
  | error f => rw [hp] at h; cases h
  | ok x =>
    obtain ⟨o', q, b⟩ := x
    rw [hp] at h
    cases h
    unfold BufSt.process at hp
    dsimp only at hp
    split at hp
    · cases hp; simp at ho
    split at hp
    · cases hp; simp at ho
    split at hp
    · split at hp <;> (cases hp; simp at ho)
    rw [hb] at hp
    simp only at hp
    cases hpl : s.play e chans rate (rate * det) with
    | error f => rw [hpl] at hp; cases hp
    | ok y =>
      obtain ⟨o2, q2⟩ := y
      rw [hpl] at hp
      cases hp
      have hcu : (s.catchUp e).looping = s.looping := by
        unfold BufSt.catchUp; split <;> rfl
      unfold BufSt.play at hpl
      dsimp only at hpl
      split at hpl
      · split at hpl
        · cases hpl
        · rename_i o3 t hf
          cases hpl
          unfold fastTrack at hf
          dsimp only at hf
          split at hf
          · split at hf
            · cases hf
            · rename_i hfc
              cases hf
              rw [← hcu]
              exact fastChannels_heard hfc c o ho
            · rename_i hfc
              cases hf
              rw [← hcu]
              exact fastChannels_heard hfc c o ho
          · split at hf
            · cases hf
            · rename_i hm
              cases hf
              obtain ⟨ch, h1, h2⟩ := (mapM_mem hm).2 c o ho
              refine ⟨ch, h1, ?_⟩
              intro v hv
              unfold slice at h2
              split at h2
              · cases h2
                obtain ⟨i, hi⟩ := List.mem_iff_getElem?.1 (List.mem_of_mem_take hv)
                rw [List.getElem?_drop] at hi
                exact .single _ v hi
              · cases h2
      · split at hpl
        · cases hpl
        · rename_i hs
          cases hpl
          unfold slowTrack at hs
          dsimp only at hs
          split at hs
          · cases hs
          · rename_i hfr
            split at hs
            · cases hs
            · rename_i hm
              cases hs
              obtain ⟨ch, h1, h2⟩ := (mapM_mem hm).2 c o ho
              refine ⟨ch, h1, ?_⟩
              intro v hv
              obtain ⟨j, hj⟩ := List.mem_iff_getElem?.1 hv
              obtain ⟨info, g1, g2⟩ := (mapM_mem h2).2 j v hj
              have hheard := slowSample_heard (by
                show lengthOf chans = ch.length
                exact (hch ch (List.mem_of_getElem? h1)).symm)
                ((frames_infos hfr).2 info (List.mem_of_getElem? g1)) g2
              rw [← hcu]
              exact hheard

/-! ## Faults -/

/-- Reachable states: on the fast track the position is a whole frame; a started source was started at a time
that has passed. -/
structure Placed (e : BufEnv K) (s : BufSt K) : Prop where
  whole : s.aligned = true → ∃ p : Nat, s.bufferTime = p / e.sr
  fresh : s.started = false → s.bufferTime = 0
  runs : s.aligned = true → s.started = true
  late : s.started = true → s.hasStart = true ∧ s.start < ((s.frame / e.sr : K) : WithTop K)
  unset : s.hasStart = false → s.start = ⊤

omit [IsStrictOrderedRing K] in
theorem wrap_keeps {e : BufEnv K} {q : SlowEnv K} {r r' : Slow K} (h : Slow.wrap e q r = .ok r') :
    r'.started = r.started ∧ r'.start = r.start ∧ r'.offset = r.offset ∧ r'.elapsed = r.elapsed := by
  unfold Slow.wrap at h
  split at h
  · split at h
    · split at h
      · cases h
      · split at h
        · cases h
        · cases h; exact ⟨rfl, rfl, rfl, rfl⟩
    · cases h; exact ⟨rfl, rfl, rfl, rfl⟩
  · cases h; exact ⟨rfl, rfl, rfl, rfl⟩

omit [IsStrictOrderedRing K] in
theorem begin_started (q : SlowEnv K) (r : Slow K) (now : K) :
    (r.begin q now).started = true ∧ (r.begin q now).start = r.start := by
  unfold Slow.begin
  split
  · exact ⟨by assumption, rfl⟩
  · exact ⟨rfl, rfl⟩

omit [IsStrictOrderedRing K] in
theorem frame_started {e : BufEnv K} {q : SlowEnv K} {now : K} {s s' : Slow K} {p : Option (Nat × K)}
    (h : Slow.frame e q now s = .ok (s', p)) :
    (s.started = true → s'.started = true ∧ s'.start = s.start) ∧
    (s'.started = false → s'.bufferTime = s.bufferTime) ∧
    (s.started = false → s'.started = true → s'.start ≤ (now : WithTop K)) := by
  unfold Slow.frame at h
  dsimp only at h
  have hsnap : s.started = true → (s.snap e q now).start = s.start := by
    intro hs
    simp [Slow.snap, hs]
  split at h
  · cases h
    refine ⟨fun x => ⟨x, hsnap x⟩, fun _ => rfl, fun x y => ?_⟩
    have : s.started = true := y
    rw [x] at this
    cases this
  · rename_i hc
    push Not at hc
    split at h
    · cases h
    · rename_i r hr
      cases h
      obtain ⟨w1, w2, _⟩ := wrap_keeps hr
      obtain ⟨b1, b2⟩ := begin_started q (s.snap e q now) now
      have h1 : (r.next e q).started = true := by
        show r.started = true
        rw [w1, b1]
      have h2 : (r.next e q).start = (s.snap e q now).start := by
        show r.start = _
        rw [w2, b2]
      refine ⟨fun x => ⟨h1, by rw [h2, hsnap x]⟩, fun x => (by rw [h1] at x; cases x), fun _ _ => ?_⟩
      rw [h2]
      exact hc.1

omit [IsStrictOrderedRing K] in
theorem frames_started {e : BufEnv K} {q : SlowEnv K} {bt : K} {n : Nat} : ∀ {i : Nat} {s s' : Slow K}
    {infos : List (Option (Nat × K))}, Slow.frames e q bt n i s = .ok (s', infos) →
    (s.started = true → s'.started = true ∧ s'.start = s.start) ∧
    (s'.started = false → s'.bufferTime = s.bufferTime) ∧
    (s.started = false → s'.started = true →
      ∃ j, j < i + n ∧ s'.start ≤ ((bt + j * (1 / e.sr) : K) : WithTop K)) := by
  induction n with
  | zero =>
    intro i s s' infos h
    cases h
    exact ⟨fun x => ⟨x, rfl⟩, fun _ => rfl, fun x y => by rw [x] at y; cases y⟩
  | succ n ih =>
    intro i s s' infos h
    rw [Slow.frames] at h
    cases hf : Slow.frame e q (bt + i * (1 / e.sr)) s with
    | error f => rw [hf] at h; cases h
    | ok p =>
      obtain ⟨r, info⟩ := p
      rw [hf] at h
      simp only at h
      cases hg : Slow.frames e q bt n (i + 1) r with
      | error f => rw [hg] at h; cases h
      | ok p =>
        obtain ⟨r', ps⟩ := p
        rw [hg] at h
        cases h
        obtain ⟨i1, i2, i3⟩ := ih hg
        obtain ⟨f1, f2, f3⟩ := frame_started hf
        refine ⟨fun x => ?_, fun x => ?_, fun x y => ?_⟩
        · obtain ⟨g1, g2⟩ := f1 x
          obtain ⟨g3, g4⟩ := i1 g1
          exact ⟨g3, by rw [g4, g2]⟩
        · rw [i2 x]
          apply f2
          by_contra hc
          rw [(i1 (by simpa using hc)).1] at x
          cases x
        · cases hr : r.started with
          | true =>
            refine ⟨i, by omega, ?_⟩
            rw [(i1 hr).2]
            exact f3 x hr
          | false =>
            obtain ⟨j, hj, hle⟩ := i3 hr y
            exact ⟨j, by omega, hle⟩

omit [IsStrictOrderedRing K] in
theorem align_spec {e : BufEnv K} {s : BufSt K} {d r : K} (h : s.align e d r = true) :
    (s.aligned = true ∨ (s.start = ((s.frame / e.sr : K) : WithTop K) ∧ s.offset = 0)) ∧ e.bufSr / e.sr = 1 := by
  unfold BufSt.align at h
  dsimp only at h
  rw [Bool.and_eq_true, Bool.and_eq_true, Bool.and_eq_true] at h
  obtain ⟨⟨⟨h1, h2⟩, _⟩, _⟩ := h
  simp at h1 h2
  exact ⟨h1, h2.1⟩

/-- The position after the fast track is a whole frame. -/
theorem fastTrack_whole {e : BufEnv K} (hsr : 0 < e.sr) (hbs : e.bufSr = e.sr) {s : BufSt K}
    {chans out : List (List K)} {t : K} {p : Nat} (hp : s.bufferTime = p / e.sr)
    (h : fastTrack e s chans = .ok (out, t)) : ∃ p' : Nat, t = p' / e.sr := by
  have hadd : s.bufferTime + 1 / e.sr * e.count = ((p + e.count : Nat) : K) / e.sr := by
    rw [hp]; push_cast; field_simp
  unfold fastTrack at h
  dsimp only at h
  split at h
  · split at h
    · cases h
    · rename_i lp _
      cases h
      refine ⟨(e.count - lp) % lengthOf chans, ?_⟩
      rw [durationOf, hbs]
      by_cases hl : lengthOf chans = 0
      · rw [hl, Nat.mod_zero]; simp
      · have hL : (0 : K) < lengthOf chans := by exact_mod_cast Nat.pos_of_ne_zero hl
        have e1 : ((e.count - lp : Nat) : K) / e.sr / (lengthOf chans / e.sr) =
            ((e.count - lp : Nat) : K) / (lengthOf chans : K) := by field_simp
        have hm' : ((e.count - lp : Nat) : K) =
            ((e.count - lp) % lengthOf chans : Nat) +
              (lengthOf chans : K) * ((e.count - lp) / lengthOf chans : Nat) := by
          exact_mod_cast (Nat.mod_add_div (e.count - lp) (lengthOf chans)).symm
        have e2 : ⌊((e.count - lp : Nat) : K) / (lengthOf chans : K)⌋ =
            ((e.count - lp) / lengthOf chans : Nat) := by
          rw [Int.floor_eq_iff]
          have hlt : (((e.count - lp) % lengthOf chans : Nat) : K) < lengthOf chans := by
            exact_mod_cast Nat.mod_lt _ (Nat.pos_of_ne_zero hl)
          have hge : (0 : K) ≤ (((e.count - lp) % lengthOf chans : Nat) : K) := Nat.cast_nonneg _
          rw [Int.cast_natCast, le_div_iff₀ hL, div_lt_iff₀ hL, hm']
          constructor <;> nlinarith
        rw [e1, e2, hm', Int.cast_natCast]
        field_simp
        ring
    · cases h
      exact ⟨p + e.count, hadd⟩
  · split at h
    · cases h
    · cases h
      exact ⟨p + e.count, hadd⟩

theorem Placed.step {e : BufEnv K} (hsr : 0 < e.sr) (hcount : 0 < e.count) {s s' : BufSt K} {op : BufOp K}
    {out : List (List K)} (hi : Placed e s) (h : s.step e op = some (.ok (out, s'))) : Placed e s' := by
  have hclamp : ∀ r : BufSt K, Placed e r → Placed e (r.clampLoop e) := by
    intro r hr
    unfold BufSt.clampLoop
    split
    · exact hr
    · exact ⟨hr.whole, hr.fresh, hr.runs, hr.late, hr.unset⟩
  cases op with
  | buffer chans =>
    simp only [BufSt.step] at h
    split at h
    · cases h; exact hclamp _ ⟨hi.whole, hi.fresh, hi.runs, hi.late, hi.unset⟩
    · cases h
  | start t o d =>
    simp only [BufSt.step] at h
    split at h
    · cases h
    · rename_i hc
      push Not at hc
      have hns : ¬ s.started = true := fun x => hc.1 (hi.late x).1
      cases h
      exact hclamp _ ⟨hi.whole, hi.fresh, hi.runs, fun x => absurd x hns, fun x => by cases x⟩
  | stop t =>
    simp only [BufSt.step] at h
    split at h
    · cases h
    · cases h; exact hclamp _ ⟨hi.whole, hi.fresh, hi.runs, hi.late, hi.unset⟩
  | loop b => cases h; exact hclamp _ ⟨hi.whole, hi.fresh, hi.runs, hi.late, hi.unset⟩
  | loopStart b => cases h; exact hclamp _ ⟨hi.whole, hi.fresh, hi.runs, hi.late, hi.unset⟩
  | loopEnd b => cases h; exact hclamp _ ⟨hi.whole, hi.fresh, hi.runs, hi.late, hi.unset⟩
  | drop =>
    simp only [BufSt.step] at h
    split at h
    · cases h
      split <;> exact ⟨hi.whole, hi.fresh, hi.runs, hi.late, hi.unset⟩
    · cases h; exact hi
  | block rate det =>
    have hmono : ((s.frame / e.sr : K) : WithTop K) < ((((s.frame + e.count : Nat) : K) / e.sr : K) : WithTop K) := by
      apply WithTop.coe_lt_coe.2
      apply div_lt_div_of_pos_right _ hsr
      exact_mod_cast Nat.lt_add_of_pos_right hcount
    have hlate : ∀ r : BufSt K, Placed e r → r.frame = s.frame →
        Placed e { r with frame := s.frame + e.count } := by
      intro r hr hf
      refine ⟨hr.whole, hr.fresh, hr.runs, fun x => ?_, hr.unset⟩
      obtain ⟨l1, l2⟩ := hr.late x
      rw [hf] at l2
      exact ⟨l1, lt_trans l2 hmono⟩
    simp only [BufSt.step] at h
    split at h
    swap
    · cases h; exact hlate s hi rfl
    cases hp : s.process e rate det with
    | error f => rw [hp] at h; cases h
    | ok x =>
      obtain ⟨o', q, b⟩ := x
      rw [hp] at h
      cases h
      unfold BufSt.process at hp
      dsimp only at hp
      split at hp
      · cases hp; exact hlate _ hi rfl
      split at hp
      · cases hp; exact hlate _ ⟨hi.whole, hi.fresh, hi.runs, hi.late, hi.unset⟩ rfl
      split at hp
      · split at hp
        · cases hp; exact hlate _ ⟨hi.whole, hi.fresh, hi.runs, hi.late, hi.unset⟩ rfl
        · cases hp; exact hlate _ hi rfl
      rename_i hnst
      split at hp
      · cases hp; exact hlate _ hi rfl
      rename_i chans _
      -- there is a start time
      have hhs : s.hasStart = true := by
        by_contra hc
        rw [hi.unset (by simpa using hc)] at hnst
        exact hnst le_top
      cases hpl : s.play e chans rate (rate * det) with
      | error f => rw [hpl] at hp; cases hp
      | ok y =>
        obtain ⟨o2, q2⟩ := y
        rw [hpl] at hp
        cases hp
        have hclose : ∀ (r : BufSt K) (d x : K),
            Placed e { r with frame := s.frame + e.count } →
            Placed e { r.close e d x with frame := s.frame + e.count } := by
          intro r d x hr
          unfold BufSt.close
          split
          · exact ⟨hr.whole, hr.fresh, hr.runs, hr.late, hr.unset⟩
          · exact hr
        obtain ⟨u, hu⟩ : ∃ u, s.catchUp e = u := ⟨_, rfl⟩
        have hcu : Placed e u ∧ u.frame = s.frame ∧ u.hasStart = true := by
          rw [← hu]
          unfold BufSt.catchUp
          split
          · rename_i hc
            refine ⟨⟨hi.whole, hi.fresh, hi.runs, fun x => ?_, fun x => ?_⟩, rfl, hhs⟩
            · have : s.started = true := x
              rw [hc.1] at this; cases this
            · have : s.hasStart = false := x
              rw [hhs] at this; cases this
          · exact ⟨hi, rfl, hhs⟩
        obtain ⟨hcu, hfr, hus⟩ := hcu
        unfold BufSt.play at hpl
        dsimp only at hpl
        rw [hu] at hpl
        split at hpl
        · rename_i hal
          obtain ⟨al1, al2⟩ := align_spec hal
          have hbs : e.bufSr = e.sr := by
            rw [div_eq_one_iff_eq hsr.ne'] at al2; exact al2
          split at hpl
          · cases hpl
          · rename_i o3 t hf
            cases hpl
            apply hclose
            have hwh : ∃ p : Nat, u.bufferTime = p / e.sr := by
              by_cases ha : u.aligned = true
              · exact hcu.whole ha
              · by_cases hs : u.started = true
                · -- started but not aligned: the start time has passed
                  rcases al1 with a | a
                  · exact absurd a ha
                  · have := (hcu.late hs).2
                    rw [a.1] at this
                    exact absurd this (lt_irrefl _)
                · exact ⟨0, by rw [hcu.fresh (by simpa using hs)]; simp⟩
            obtain ⟨p, hp⟩ := hwh
            have hst : (u.started || decide (u.start = ((u.frame / e.sr : K) : WithTop K))) = true := by
              rcases al1 with a | a
              · rw [hcu.runs a]; rfl
              · simp [a.1]
            refine ⟨fun _ => fastTrack_whole hsr hbs hp hf, fun x => ?_, fun _ => hst, fun _ => ⟨hus, ?_⟩,
              fun x => ?_⟩
            · have : (u.started || decide (u.start = ((u.frame / e.sr : K) : WithTop K))) = false := x
              rw [hst] at this; cases this
            · refine lt_of_le_of_lt ?_ hmono
              show u.start ≤ _
              rcases al1 with a | a
              · rw [← hfr]; exact (hcu.late (hcu.runs a)).2.le
              · rw [a.1, hfr]
            · have : u.hasStart = false := x
              rw [hus] at this; cases this
        · split at hpl
          · cases hpl
          · rename_i o3 r hs
            cases hpl
            apply hclose
            unfold slowTrack at hs
            split at hs
            · cases hs
            · rename_i w infos hfrm
              split at hs
              · cases hs
              · cases hs
                obtain ⟨f1, f2, f3⟩ := frames_started hfrm
                refine ⟨fun x => (by cases x), fun x => ?_, fun x => (by cases x), fun x => ⟨hus, ?_⟩, fun x => ?_⟩
                · show w.bufferTime = 0
                  rw [f2 x]
                  apply hcu.fresh
                  by_contra hc
                  have hc' : u.started = true := by simpa using hc
                  have := (f1 hc').1
                  have x' : w.started = false := x
                  rw [x'] at this
                  cases this
                · show w.start < _
                  cases hst : u.started with
                  | true =>
                    rw [(f1 hst).2]
                    show u.start < _
                    refine lt_trans ?_ hmono
                    rw [← hfr]
                    exact (hcu.late hst).2
                  | false =>
                    obtain ⟨j, hj, hle⟩ := f3 hst x
                    refine lt_of_le_of_lt hle (WithTop.coe_lt_coe.2 ?_)
                    show u.frame / e.sr + j * (1 / e.sr) < _
                    rw [hfr]
                    have h1 : (s.frame : K) / e.sr + j * (1 / e.sr) = ((s.frame + j : Nat) : K) / e.sr := by
                      push_cast; field_simp
                    rw [h1]
                    apply div_lt_div_of_pos_right _ hsr
                    have : s.frame + j < s.frame + e.count := by omega
                    exact_mod_cast this
                · have : u.hasStart = false := x
                  rw [hus] at this; cases this

theorem Placed.run {e : BufEnv K} (hsr : 0 < e.sr) (hcount : 0 < e.count) {ops : List (BufOp K)} :
    ∀ {s s' : BufSt K} {outs : List (List (List K))}, Placed e s →
      BufSt.run e s ops = some (.ok (outs, s')) → Placed e s' := by
  induction ops with
  | nil => intro s s' outs hi h; cases h; exact hi
  | cons op ops ih =>
    intro s s' outs hi h
    rw [BufSt.run] at h
    cases hs : s.step e op with
    | none => rw [hs] at h; cases h
    | some x =>
      cases x with
      | error f => rw [hs] at h; cases h
      | ok p =>
        obtain ⟨o, q⟩ := p
        rw [hs] at h
        simp only at h
        cases hq : BufSt.run e q ops with
        | none => rw [hq] at h; cases h
        | some y =>
          cases y with
          | error f => rw [hq] at h; cases h
          | ok p =>
            obtain ⟨os, q'⟩ := p
            rw [hq] at h
            cases h
            exact ih (hi.step hsr hcount hs) hq

end

end Verif.Source
