import Verif.Whole.EnsembleGraph
import Verif.Source.BufferLive

/-!
# C114, C116: what the notes of a program play
-/

namespace Verif.Whole

open Verif Verif.Render Verif.Engine

section
variable {K : Type} [Field K] [LinearOrder K] [IsStrictOrderedRing K] [FloorRing K]

theorem paramOps_quiet (q : Nat) : paramOps (List.replicate q ([] : List (SMsg K Empty))) = List.replicate (q + 1) .block := by
  unfold paramOps
  rw [List.replicate_succ]
  congr 1
  induction q with
  | zero => rfl
  | succ q ih => rw [List.replicate_succ, List.flatMap_cons, ih, List.replicate_succ]; rfl

/-- the values of an a-rate parameter in quantum `q` -/
theorem setting_values (e : Studio K Empty Empty) (hdt : 0 < e.dt) (hN : 2 ≤ e.c.N) {ex : K → K} {pw : K → K → K}
    (hA : ∀ mn mx, e.A mn mx = Param.exact ex pw mn mx) {s : Setting K} (h : Planned (Param.exact ex pw s.mn s.mx) s.line.value s.line.events)
    (hs : s.aRate = true) (id q : Nat) :
    ∃ l, (⟨id, s.dflt, s.mn, s.mx, s.plan⟩ : Par K).values e 0 (List.replicate q []) = some l ∧ (l.length = 1 ∨ l.length = e.c.N) ∧
      ∀ j, j < e.c.N → Node.gainAt l j = s.at pw e.dt ((q * e.c.N + j : Nat) * e.dt) := by
  obtain ⟨t, h1, h2⟩ := Param.run_planned (c := s.dflt) hdt hN h.schedule (fun x hx => h.pos x (Param.mem_sort.1 hx)) q
  have hv : (⟨id, s.dflt, s.mn, s.mx, s.plan⟩ : Par K).values e 0 (List.replicate q []) = some (paramSeen s.mn s.mx t.p) := by
    unfold Par.values
    rw [paramOps_quiet, hA]
    show (resOpt (Param.run _ _ _ { p := s.plan } _)).map _ = _
    unfold Setting.plan
    rw [hs, h1]
    rfl
  refine ⟨_, hv, Par.values_length hdt hv, fun j hj => seen_at ?_ s.mn s.mx (h2 j hj)⟩
  rw [run_rate hdt _ (by intro a ha; simp at ha) h1]

/-- the value of a k-rate parameter in quantum `q` -/
theorem setting_held (e : Studio K Empty Empty) (hdt : 0 < e.dt) (hN : e.c.N = 128) {ex : K → K} {pw : K → K → K} (hp0 : ∀ x, pw x 0 = 1)
    (hp1 : ∀ x, pw x 1 = x) (hA : ∀ mn mx, e.A mn mx = Param.exact ex pw mn mx) {s : Setting K}
    (h : Planned (Param.exact ex pw s.mn s.mx) s.line.value s.line.events) (hs : s.aRate = false) (hpos : ∀ x ∈ s.line.events, 0 < x.time)
    (hoff : Param.OffGrid e.dt 128 (Param.sort s.line.events)) (id q : Nat) :
    (⟨id, s.dflt, s.mn, s.mx, s.plan⟩ : Par K).values e 0 (List.replicate q []) = some [s.held pw e.dt q] := by
  obtain ⟨t, h1, h2, _⟩ := Param.C115_exact_partial (d := s.dflt) (c := s.dflt) hp0 hp1 hdt (count := e.c.N) (by omega) h.schedule hpos
    (by rw [hN]; exact hoff) q
  have hnew := s.run_new (dt := e.dt) (N := e.c.N) h
  rw [hs] at hnew
  rw [Param.run_append] at h1
  have h1 : (Param.run (Param.exact ex pw s.mn s.mx) e.dt e.c.N { p := { intrinsic := s.dflt, current := s.dflt, aRate := false } }
    (.event (Param.setEv s.line.value) :: s.line.events.map .event)).bind _ = _ := h1
  rw [hnew] at h1
  unfold Par.values
  rw [paramOps_quiet, hA]
  show (resOpt (Param.run _ _ _ { p := s.plan } _)).map _ = _
  have h1 : Param.run (Param.exact ex pw s.mn s.mx) e.dt e.c.N { p := s.plan } (List.replicate (q + 1) .block) = .ok t := h1
  rw [h1]
  have hr := run_rate hdt _ (by intro a ha; simp at ha) h1
  simp only [resOpt, Option.map_some]
  unfold paramSeen
  rw [if_pos (.inl (by rw [h2]; rfl)), h2, hN]
  rfl

/-- a buffer source plays for some quanta without messages -/
theorem clip_sings (e : Studio K Empty Empty) (hsr : 0 < e.sr) (hN : e.c.N = 128) {b : K} (he : (e.bufEnv b).Exact) (hb : 0 < b) {ch : List K}
    {p : Source.Plan K} (hlen : p.looping = true → 0 < ch.length) (hag : Source.Agrees (e.bufEnv b) [ch] p)
    (hmono : p.looping = true ∨ (∀ n, 0 ≤ p.rate n) ∨ ∀ n, p.rate n ≤ 0)
    (hdur : p.looping = true → p.duration = ⊤ ∨ p.offset ≠ 0 ∨ p.bufSr ≠ p.sr ∨ ∀ n, p.rate n ≠ 1)
    (hgrid : ∀ j, p.first = j * 128 → p.start = p.first / e.sr) {vals : Nat → Nat → List K} {ra de : Nat} {R D : Nat → K}
    (hr : ∀ n, p.rate n = R (n / 128) * e.ex2 (D (n / 128)))
    (hforward : p.looping = true → ∀ q, 0 ≤ R q → p.loopStart * e.sr ≤ (ch.length : K) - 1)
    (hbackward : p.looping = true → ∀ q, R q < 0 → p.loopEnd * e.sr < ch.length) : ∀ (r m : Nat) {s : Source.BufSt K},
    Source.Going (e.bufEnv b) [ch] p s (m * e.c.N) → (∀ k, k ≤ m + r → vals k ra = [R k] ∧ vals k de = [D k]) →
    ∃ z : MSig K e.c.N, e.played vals (m * e.c.N) m (.buffer b s ra de : SProc K Empty) (List.replicate r ([] : List (SMsg K Empty))) = some z ∧
      z.q.length = 1 ∧ ∀ j, j < e.c.N → p.Reads ch ((m + r) * e.c.N + j) (Node.sample z.q 0 j) := by
  have hNpos : 0 < e.c.N := by omega
  have hout : ∀ out : List (List K), Source.Block e.c.N out → ∃ q, outOf e.c.N out = some q ∧ q.q.length = 1 ∧
      ∀ j, Node.sample q.q 0 j = Source.valueAt out 0 j := by
    rintro out (rfl | ⟨xs, rfl, hl⟩)
    · obtain ⟨q, hq⟩ : ∃ q, outOf (K := K) e.c.N (mono []) = some q := ⟨_, rfl⟩
      obtain ⟨q1, q2⟩ := mono_out hq
      refine ⟨q, hq, q1, fun j => ?_⟩
      rw [q2, Source.valueAt_nil]
      simp
    · have hne : xs ≠ [] := by rintro rfl; simp at hl; omega
      have hm : mono xs = [xs] := if_neg hne
      obtain ⟨q, hq⟩ : ∃ q, outOf (K := K) e.c.N [xs] = some q := by
        simp only [outOf]
        rw [dif_pos (by simpa using hl)]
        exact ⟨_, rfl⟩
      obtain ⟨q1, q2⟩ := mono_out (hm ▸ hq : outOf e.c.N (mono xs) = some q)
      refine ⟨q, hq, q1, fun j => ?_⟩
      rw [q2]
      simp [Source.valueAt, List.getD_eq_getElem?_getD]
  have hblock : ∀ (k : Nat) {s : Source.BufSt K}, Source.Going (e.bufEnv b) [ch] p s (k * e.c.N) → vals k ra = [R k] → vals k de = [D k] →
      ∃ (z : MSig K e.c.N) (s1 : Source.BufSt K), e.plays (k * e.c.N) (vals k) (.buffer b s ra de : SProc K Empty) = some (.buffer b s1 ra de, z) ∧
        Source.Going (e.bufEnv b) [ch] p s1 ((k + 1) * e.c.N) ∧ z.q.length = 1 ∧
        ∀ j, j < e.c.N → p.Reads ch (k * e.c.N + j) (Node.sample z.q 0 j) := by
    intro k s h h1 h2
    obtain ⟨out, s1, bb, b1, b2, b3, b4⟩ := h.block he hsr hb hNpos hlen hag hmono hdur
      (fun hf => hgrid k (by rw [hf, hN])) (rate := R k) (det := e.ex2 (D k)) (fun i hi => by
        have hi : i < 128 := by rw [← hN]; exact hi
        rw [hr, hN, show (k * 128 + i) / 128 = k by omega]) (fun hl => hforward hl k) (fun hl => hbackward hl k)
    obtain ⟨z, z1, z2, z3⟩ := hout out b2
    refine ⟨z, { s1 with frame := 0 }, ?_, ?_, z2, fun j hj => ?_⟩
    · simp only [Studio.plays, h1, h2, List.headD_cons, b1, exOpt, Option.bind_some, z1, Option.map_some]
    · rw [Nat.add_mul, Nat.one_mul]
      exact b3
    · rw [z3]
      exact b4 j hj
  intro r
  induction r with
  | zero =>
    intro m s h hv
    obtain ⟨z, s1, z1, _, z2, z3⟩ := hblock m h (hv m (by omega)).1 (hv m (by omega)).2
    refine ⟨z, ?_, z2, z3⟩
    rw [List.replicate_zero, Studio.played, z1]
    rfl
  | succ r ih =>
    intro m s h hv
    obtain ⟨z, s1, z1, z2, _, _⟩ := hblock m h (hv m (by omega)).1 (hv m (by omega)).2
    obtain ⟨y, y1, y2, y3⟩ := ih (m + 1) z2 (fun k hk => hv k (by omega))
    refine ⟨y, ?_, y2, fun j hj => ?_⟩
    · rw [List.replicate_succ, Studio.played, z1]
      simp only [Option.bind_some, RGraph.foldOpt]
      rw [← y1, show m * e.c.N + 128 = (m + 1) * e.c.N by rw [hN]; ring]
    · rw [show m + (r + 1) = m + 1 + r by omega]
      exact y3 j hj

theorem getD_cyc {l : List K} {N i : Nat} (h : l.length = 1 ∨ l.length = N) (hi : i < N) : l.getD (i % l.length) 0 = Node.gainAt l i := by
  unfold Node.gainAt
  by_cases h1 : l.length = 1
  · rw [if_pos h1, h1, Nat.mod_one]
  · rw [if_neg h1, h.resolve_left h1, Nat.mod_eq_of_lt hi]

/-- an oscillator plays for some quanta without messages -/
theorem osc_sings (e : Studio K Empty Empty) (hdt : 0 < e.dt) (hN : e.c.N = 128) (hrd : e.rd = id) (hne : e.sine ≠ []) {F : Nat → K} {a : K}
    (ha : 0 ≤ a) {vals : Nat → Nat → List K} {fr de : Nat} : ∀ (r m : Nat) {s : Source.Osc K}, s.Ready e.dt e.c.N F a (m * e.c.N) →
    Source.Playable s.ty s.wave →
    (∀ k, k ≤ m + r → Source.freqs e.comp e.c.N (vals k fr) (vals k de) = (List.range e.c.N).map fun j => F (k * e.c.N + j)) →
    ∃ z : MSig K e.c.N, e.played vals (m * e.c.N) m (.osc s fr de : SProc K Empty) (List.replicate r ([] : List (SMsg K Empty))) = some z ∧
      z.q.length = 1 ∧
      ∀ j, j < e.c.N → Node.sample z.q 0 j = Source.tuneAt e.sine e.dt e.c.N s.ty s.wave F a s.stop ((m + r) * e.c.N + j) := by
  intro r
  have hNpos : 0 < e.c.N := by omega
  have hout : ∀ out : List K, (out = [] ∨ out.length = e.c.N) → ∃ q, outOf e.c.N (mono out) = some q := by
    intro out p1
    unfold mono
    split
    · exact ⟨_, rfl⟩
    · rename_i hne
      simp only [outOf]
      rw [dif_pos (by simpa using p1.resolve_left hne)]
      exact ⟨_, rfl⟩
  induction r with
  | zero =>
    intro m s h hp hv
    obtain ⟨out, s1, b, h1, h2, h3, h4, h5, h6, h7⟩ := Source.tune_block (comp := e.comp) hdt hne hNpos ha
      (s := { s with frame := m * e.c.N }) rfl (h.congr rfl rfl rfl rfl) hp (hv m (by omega))
    obtain ⟨q, hq⟩ := hout out h6
    obtain ⟨q1, q2⟩ := mono_out hq
    refine ⟨q, ?_, q1, fun j hj => ?_⟩
    · simp only [List.replicate_zero, Studio.played, Studio.plays, hrd, h1, Option.bind_some, hq, Option.map_some]
    · rw [q2, h7 j hj]
      rfl
  | succ r ih =>
    intro m s h hp hv
    obtain ⟨out, s1, b, h1, h2, h3, h4, h5, h6, h7⟩ := Source.tune_block (comp := e.comp) hdt hne hNpos ha
      (s := { s with frame := m * e.c.N }) rfl (h.congr rfl rfl rfl rfl) hp (hv m (by omega))
    obtain ⟨q, hq⟩ := hout out h6
    obtain ⟨z, k1, k2, k3⟩ := ih (m + 1) (s := { s1 with frame := 0 }) (h2.congr rfl rfl rfl rfl) (by simp only [h3, h4]; exact hp)
      (fun k hk => hv k (by omega))
    refine ⟨z, ?_, k2, fun j hj => ?_⟩
    · simp only [List.replicate_succ, Studio.played, Studio.plays, hrd, h1, Option.bind_some, hq, Option.map_some, RGraph.foldOpt]
      rw [← k1, show m * e.c.N + 128 = (m + 1) * e.c.N by rw [hN]; ring]
    · rw [k3 j hj]
      simp only [h3, h4, h5, show m + 1 + r = m + (r + 1) by omega]

/-- What buffer sources need of a studio: tolerant comparisons are exact, and `pw` is a power. -/
structure Studio.Samples (e : Studio K Empty Empty) (pw : K → K → K) : Prop where
  exact : ∀ b, (e.bufEnv b).Exact
  zero : ∀ x, pw x 0 = 1
  one : ∀ x, pw x 1 = x

/-- what a note plays in quantum `q`, and its level -/
theorem Part.sings (e : Studio K Empty Empty) (hsr : 0 < e.sr) (hN : e.c.N = 128) (hrd : e.rd = id) (hne : e.sine ≠ []) {ex : K → K}
    {pw : K → K → K} (hA : ∀ mn mx, e.A mn mx = Param.exact ex pw mn mx) {lo hi : K} {p : Part K} (hp : p.Playable ex pw lo hi e.sr)
    (hc : p.Sampled pw e.ex2 lo hi e.sr) (he : ∀ c, p.instrument = .clip c → e.Samples pw) (n q : Nat) :
    ∃ z l, (p.note lo hi e.sr n).wave e 0 (List.replicate q []) = some z ∧ (p.note lo hi e.sr n).level e 0 (List.replicate q []) = some l ∧
      z.q.length = 1 ∧ (∀ a ∈ (p.note lo hi e.sr n).params, (a.values e 0 (List.replicate q [])).isSome) ∧
      ∀ j, j < 128 → p.Plays pw e.comp e.ex2 e.sine lo hi e.sr (128 * q + j) (Node.sample z.q 0 j) ∧
        Node.gainAt l j = p.level pw lo hi e.sr (128 * q + j) := by
  have hdt : 0 < e.dt := one_div_pos.2 hsr
  have hN2 : 2 ≤ e.c.N := by omega
  have hmail : ∀ i q, (List.replicate q ([] : List (Msg (SProc K Empty) (SMsg K Empty)))).map (mail i) = List.replicate q [] := by
    intro i q; rw [List.map_replicate]; rfl
  have htake : ∀ k i, k ≤ q → ((List.replicate q ([] : List (Msg (SProc K Empty) (SMsg K Empty)))).take k).map (mail i) = List.replicate k [] := by
    intro k i hk; rw [List.take_replicate, hmail, min_eq_left hk]
  obtain ⟨l, l1, l2, l3⟩ := setting_values e hdt hN2 hA (hp.planned (p.gainSetting lo hi) (by simp)) rfl (n + (p.instrument.settings lo hi e.sr).length + 2) q
  have hparams : ∀ a ∈ (p.note lo hi e.sr n).params, (a.values e 0 (List.replicate q [])).isSome := by
    intro a ha
    obtain ⟨k, s, hs, rfl⟩ := Part.note_params.1 ha
    have hpl := hp.planned s (List.mem_cons_of_mem _ (List.mem_of_getElem? hs))
    cases hr : s.aRate with
    | true =>
      obtain ⟨l, l1, _⟩ := setting_values e hdt hN2 hA hpl hr (n + 1 + k) q
      rw [l1]; rfl
    | false =>
      obtain ⟨c, hins, hsl⟩ : ∃ c, p.instrument = .clip c ∧ s.line ∈ [c.rate, c.detune] := by
        have hm := List.mem_of_getElem? hs
        cases hins : p.instrument with
        | const o => rw [hins] at hm; rw [List.mem_singleton.1 hm] at hr; cases hr
        | osc ty w f d =>
          rw [hins] at hm
          simp only [Instrument.settings, List.mem_cons, List.not_mem_nil, or_false] at hm
          rcases hm with rfl | rfl <;> cases hr
        | clip c =>
          rw [hins] at hm
          simp only [Instrument.settings, List.mem_cons, List.not_mem_nil, or_false] at hm
          rcases hm with rfl | rfl
          · exact ⟨c, rfl, by simp⟩
          · exact ⟨c, rfl, by simp⟩
      have hk := hc c hins
      have hes := he c hins
      rw [setting_held e hdt hN hes.zero hes.one hA hpl hr (hk.times _ hsl) (hk.offGrid _ hsl) (n + 1 + k) q]
      rfl
  have hlev : (p.note lo hi e.sr n).level e 0 (List.replicate q []) = some l := by
    unfold Note.level
    rw [hmail]
    exact l1
  have hl3 : ∀ j, j < 128 → Node.gainAt l j = p.level pw lo hi e.sr (128 * q + j) := by
    intro j hj
    rw [l3 j (by omega), hN, Nat.mul_comm q 128]
    rfl
  obtain ⟨z, z1, z2, z3⟩ : ∃ z, (p.note lo hi e.sr n).wave e 0 (List.replicate q []) = some z ∧ z.q.length = 1 ∧
      ∀ j, j < 128 → p.Plays pw e.comp e.ex2 e.sine lo hi e.sr (128 * q + j) (Node.sample z.q 0 j) := by
    cases hins : p.instrument with
    | const o =>
      let s : Setting K := ⟨1, lo, hi, o, true⟩
      have hset : p.instrument.settings lo hi e.sr = [s] := by rw [hins]; rfl
      have hpl := hp.planned s (by rw [hset]; simp)
      have hps : (p.note lo hi e.sr n).params = [⟨n + 1, s.dflt, s.mn, s.mx, s.plan⟩] := by
        show eachOne _ _ _ _ = _
        rw [hset]; rfl
      have hproc : (p.note lo hi e.sr n).proc = .const { start := (p.start : WithTop K), stop := p.stopTime } (n + 1) := by
        show p.source (n + 1) = _
        unfold Part.source
        rw [hins]
      obtain ⟨v, v1, v2, v3⟩ := setting_values e hdt hN2 hA hpl rfl (n + 1) q
      obtain ⟨z, hz⟩ := Option.isSome_iff_exists.1 (const_plays_on e hdt (vals := (p.note lo hi e.sr n).vals e 0 (List.replicate q [])) (o := n + 1)
        ((List.replicate q []).map (mail n)) (f := 0) (k := 0) (s := { start := (p.start : WithTop K), stop := p.stopTime }) (fun k hk => by
          have hk' : k ≤ q := by simpa using hk
          obtain ⟨w, w1, w2, _⟩ := setting_values e hdt hN2 hA hpl rfl (n + 1) k
          have : (p.note lo hi e.sr n).vals e 0 (List.replicate q []) k (n + 1) = w := by
            simp only [Note.vals, hps, List.find?_cons, beq_self_eq_true, htake k _ hk', w1, Option.getD_some]
          rw [this]; exact w2))
      have hw : (p.note lo hi e.sr n).wave e 0 (List.replicate q []) = some z := by
        unfold Note.wave
        rw [hproc]
        exact hz
      obtain ⟨c1, c2⟩ := C112_constant e hsr (o := ⟨n + 1, s.dflt, s.mn, s.mx, s.plan⟩) hproc hps (f := 0) (bs := List.replicate q []) (offset := v) (by
        rw [hmail]; exact v1) hw
      refine ⟨z, hw, c1, fun j hj => ?_⟩
      have hfm : (List.replicate q ([] : List (Msg (SProc K Empty) (SMsg K Empty)))).flatMap (mail (p.note lo hi e.sr n).src) = [] := by
        rw [List.flatMap_eq_nil_iff]
        intro b hb
        rw [List.eq_of_mem_replicate hb]; rfl
      rw [c2 j (by omega), v3 j (by omega), hfm, List.length_replicate, Nat.zero_add, hN, Nat.mul_comm q 128]
      unfold Part.Plays Part.wave
      rw [hins]
      show constAt ((p.start : WithTop K), p.stopTime) _ _ = _
      simp only [show (1 / e.sr) = e.dt from rfl]
      generalize ((128 * q + j : Nat) : K) * e.dt = t
      unfold constAt
      simp only [WithTop.coe_le_coe]
      congr
    | osc ty w f d =>
      let s1 : Setting K := ⟨440, -(e.sr / 2), e.sr / 2, f, true⟩
      let s2 : Setting K := ⟨0, -153600, 153600, d, true⟩
      have hset : p.instrument.settings lo hi e.sr = [s1, s2] := by rw [hins]; rfl
      have hpl1 := hp.planned s1 (by rw [hset]; simp)
      have hpl2 := hp.planned s2 (by rw [hset]; simp)
      have hps : (p.note lo hi e.sr n).params = [⟨n + 1, s1.dflt, s1.mn, s1.mx, s1.plan⟩, ⟨n + 1 + 1, s2.dflt, s2.mn, s2.mx, s2.plan⟩] := by
        show eachOne _ _ _ _ = _
        rw [hset]; rfl
      have hproc : (p.note lo hi e.sr n).proc = .osc { (Source.Osc.new ty none : Source.Osc K) with
          ty := if w = none then ty else .custom, wave := w, start := (p.start : WithTop K), stop := p.stopTime } (n + 1) (n + 1 + 1) := by
        show p.source (n + 1) = _
        unfold Part.source
        rw [hins]
      have hplay : Source.Playable (if w = none then ty else .custom) w := by
        obtain ⟨k1, k2⟩ := hp.wave ty w f d hins
        intro hc
        cases w with
        | none => exact absurd rfl (k2 (by simpa using hc))
        | some x => exact ⟨x, rfl, k1 x rfl⟩
      obtain ⟨z, z1, z2, z3⟩ := osc_sings e hdt hN hrd hne (a := p.start) hp.start
        (vals := (p.note lo hi e.sr n).vals e 0 (List.replicate q [])) (fr := n + 1) (de := n + 1 + 1)
        (F := fun k => e.comp (s1.at pw e.dt (k * e.dt)) (s2.at pw e.dt (k * e.dt))) q 0
        (s := { (Source.Osc.new ty none : Source.Osc K) with
          ty := if w = none then ty else .custom, wave := w, start := (p.start : WithTop K), stop := p.stopTime })
        ⟨⟨le_rfl, one_pos, fun _ => rfl⟩, fun _ _ => ⟨rfl, rfl⟩, fun _ hlt => absurd hlt (by omega)⟩ hplay (fun k hk => by
          have hk' : k ≤ q := by simpa using hk
          obtain ⟨x, x1, x2, x3⟩ := setting_values e hdt hN2 hA hpl1 rfl (n + 1) k
          obtain ⟨y, y1, y2, y3⟩ := setting_values e hdt hN2 hA hpl2 rfl (n + 1 + 1) k
          have hx : (p.note lo hi e.sr n).vals e 0 (List.replicate q []) k (n + 1) = x := by
            simp only [Note.vals, hps, List.find?_cons, beq_self_eq_true, htake k _ hk', x1, Option.getD_some]
          have hy : (p.note lo hi e.sr n).vals e 0 (List.replicate q []) k (n + 1 + 1) = y := by
            have hne : (n + 1 == n + 1 + 1) = false := by simp
            simp only [Note.vals, hps, List.find?_cons, hne, beq_self_eq_true, htake k _ hk', y1, Option.getD_some]
          rw [hx, hy]
          unfold Source.freqs
          refine List.map_congr_left fun j hj => ?_
          have hj' := List.mem_range.1 hj
          rw [getD_cyc x2 hj', getD_cyc y2 hj', x3 j hj', y3 j hj'])
      have hw : (p.note lo hi e.sr n).wave e 0 (List.replicate q []) = some z := by
        unfold Note.wave
        rw [hproc, hmail]
        rw [← z1, Nat.zero_mul]
      refine ⟨z, hw, z2, fun j hj => ?_⟩
      rw [z3 j (by omega), hN, Nat.zero_add, Nat.mul_comm q 128]
      unfold Part.Plays Part.wave
      rw [hins]
      rfl
    | clip c =>
      let s1 : Setting K := ⟨0, lo, hi, c.detune, false⟩
      let s2 : Setting K := ⟨1, lo, hi, c.rate, false⟩
      have hset : p.instrument.settings lo hi e.sr = [s1, s2] := by rw [hins]; rfl
      have hpl1 := hp.planned s1 (by rw [hset]; simp)
      have hpl2 := hp.planned s2 (by rw [hset]; simp)
      have hps : (p.note lo hi e.sr n).params = [⟨n + 1, s1.dflt, s1.mn, s1.mx, s1.plan⟩, ⟨n + 1 + 1, s2.dflt, s2.mn, s2.mx, s2.plan⟩] := by
        show eachOne _ _ _ _ = _
        rw [hset]; rfl
      have hk := hc c hins
      have hes := he c hins
      have hb := hp.buffer c hins
      have hstop : p.stopTime = (p.stop.map fun x : K => (x : WithTop K)).getD ⊤ := by
        unfold Part.stopTime
        cases p.stop <;> rfl
      have hplan : c.plan pw e.ex2 lo hi e.sr p.start p.stopTime = Source.planOf (e.bufEnv c.bufSr) [c.frames] c.looping c.loopStart c.loopEnd 0
          p.start c.offset c.duration ((p.stop.map fun x : K => (x : WithTop K)).getD ⊤) (c.speed pw e.ex2 lo hi e.sr) := by
        unfold Clip.plan Source.planOf
        rw [hstop]
        congr 1
        rw [Nat.cast_zero, zero_div, max_eq_left hp.start]
      obtain ⟨g1, g2⟩ := Source.asked_going (e := e.bufEnv c.bufSr) hsr hb (by show 0 < e.c.N; omega) (ch := c.frames) (looping := c.looping)
        (fun hl => List.length_pos_of_ne_nil (hk.frames hl)) (a := c.loopStart) (b := c.loopEnd) (stops := p.stop) (rate := c.speed pw e.ex2 lo hi e.sr)
        hp.start hk.valid.1 hk.valid.2.1 (fun x hx => by
          have := hk.valid.2.2
          rw [hstop, hx] at this
          exact WithTop.coe_nonneg.1 this)
      rw [← hplan] at g1 g2
      obtain ⟨q1, i1, i2⟩ := p.inbox e (n + 1) hp.buffer
      have hproc : (p.note lo hi e.sr n).proc = .buffer c.bufSr { (Source.BufSt.clampLoop (e.bufEnv c.bufSr)
          { Source.BufSt.new c.looping c.loopStart c.loopEnd with buffer := some [c.frames] }) with
          start := (p.start : WithTop K), offset := c.offset, duration := c.duration,
          stop := (p.stop.map fun x : K => (x : WithTop K)).getD ⊤ } (n + 1 + 1) (n + 1) := by
        show p.source (n + 1) = _
        rw [← hstop]
        exact p.source_clip e hins hb (n + 1)
      obtain ⟨z, z1, z2, z3⟩ := clip_sings e hsr hN (hes.exact c.bufSr) hb (fun hl => List.length_pos_of_ne_nil (hk.frames hl)) g1 hk.direction
        hk.duration hk.grid (vals := (p.note lo hi e.sr n).vals e 0 (List.replicate q [])) (ra := n + 1 + 1) (de := n + 1)
        (R := s2.held pw e.dt) (D := s1.held pw e.dt) (fun _ => rfl) hk.forward hk.backward q 0 (by rw [Nat.zero_mul]; exact g2) (fun k hk' => by
          have hk' : k ≤ q := by simpa using hk'
          have x1 := setting_held e hdt hN hes.zero hes.one hA hpl1 rfl (hk.times _ (by simp [s1])) (hk.offGrid _ (by simp [s1])) (n + 1) k
          have y1 := setting_held e hdt hN hes.zero hes.one hA hpl2 rfl (hk.times _ (by simp [s2])) (hk.offGrid _ (by simp [s2])) (n + 1 + 1) k
          constructor
          · have hne : (n + 1 == n + 1 + 1) = false := by simp
            simp only [Note.vals, hps, List.find?_cons, hne, beq_self_eq_true, htake k _ hk', y1, Option.getD_some]
          · simp only [Note.vals, hps, List.find?_cons, beq_self_eq_true, htake k _ hk', x1, Option.getD_some])
      have hw : (p.note lo hi e.sr n).wave e 0 (List.replicate q []) = some z := by
        unfold Note.wave
        rw [hproc, hmail]
        rw [← z1, Nat.zero_mul]
      refine ⟨z, hw, z2, fun j hj => ?_⟩
      unfold Part.Plays
      rw [hins]
      dsimp only
      rw [show 128 * q + j = (0 + q) * e.c.N + j by rw [hN]; omega]
      exact z3 j (by omega)
  exact ⟨z, l, z1, hlev, z2, hparams, fun j hj => ⟨z3 j hj, hl3 j hj⟩⟩

/-- every quantum of the graph -/
theorem EScene.quantum (e : Studio K Empty Empty) (hsr : 0 < e.sr) (hN : e.c.N = 128) (h0 : 0 ≤ e.c.thr) (hrd : e.rd = id) (hne : e.sine ≠ [])
    {ex : K → K} {pw : K → K → K} (hA : ∀ mn mx, e.A mn mx = Param.exact ex pw mn mx) {lo hi : K} {ps : List (Part K)}
    (hp : ∀ p ∈ ps, p.Playable ex pw lo hi e.sr) (hc : ∀ p ∈ ps, p.Sampled pw e.ex2 lo hi e.sr)
    (he : ∀ p ∈ ps, ∀ c, p.instrument = .clip c → e.Samples pw) {g : RGraph (SProc K Empty) (MSig K e.c.N)} (hg : EScene e lo hi e.sr ps g) (q : Nat) :
    ∃ gk g' y, stage e.timed 0 g (List.replicate q []) = some gk ∧ gk.render (e.timed.at (0 + 128 * q)) = some (g', y) ∧
      ∀ c j, c < 2 → j < 128 → Heard pw e.comp e.ex2 e.sine lo hi e.sr e.c.thr ps (128 * q + j) (Node.sample y.q c j) := by
  have hin : Reads e.inner fun _ _ => False := fun p => nomatch p
  have hstb : Stable e.inner fun _ _ => False := ⟨(fun p => nomatch p), (fun p => nomatch p)⟩
  have hmail : ∀ i, (List.replicate q ([] : List (Msg (SProc K Empty) (SMsg K Empty)))).map (mail i) = List.replicate q [] := by
    intro i; rw [List.map_replicate]; rfl
  let W : Nat × Nat × Part K → MSig K e.c.N := fun x => ((x.2.2.note lo hi e.sr x.1).wave e 0 (List.replicate q [])).getD e.timed.base.silence
  let L : Nat × Nat × Part K → List K := fun x => ((x.2.2.note lo hi e.sr x.1).level e 0 (List.replicate q [])).getD []
  have hW : ∀ x ∈ places lo hi e.sr 11 1 ps, Joins e (fun _ _ => False) 0 g (List.replicate q []) (x.2.2.note lo hi e.sr x.1) (W x) (L x) ∧
      ∀ j, j < 128 → x.2.2.Plays pw e.comp e.ex2 e.sine lo hi e.sr (128 * q + j) (Node.sample (W x).q 0 j) ∧
        Node.gainAt (L x) j = x.2.2.level pw lo hi e.sr (128 * q + j) := by
    rintro ⟨n, τ, p⟩ hx
    obtain ⟨z, l, z1, z2, z3, z4, z5⟩ := Part.sings e hsr hN hrd hne hA (hp p (places_mem hx).2.2) (hc p (places_mem hx).2.2) (he p (places_mem hx).2.2) n q
    have e1 : W (n, τ, p) = z := by simp only [W, z1, Option.getD_some]
    have e2 : L (n, τ, p) = l := by simp only [L, z2, Option.getD_some]
    rw [e1, e2]
    exact ⟨⟨hg.begins hx, hg.sits hx, fun a ha => by rw [hmail]; exact z4 a ha, z1, z2, z3⟩, z5⟩
  have hgains : ((places lo hi e.sr 11 1 ps).map fun x => (x.2.2.note lo hi e.sr x.1, W x, L x)).map (fun s => s.1.gain) =
      (places lo hi e.sr 11 1 ps).map fun x => x.1 + (x.2.2.instrument.settings lo hi e.sr).length + 1 := by
    rw [List.map_map]; rfl
  obtain ⟨gk, g', y, r1, r2, r3⟩ := C112_band e hsr hN h0 hin hstb (f := 0) (g := g) (bs := List.replicate q [])
    (vs := (places lo hi e.sr 11 1 ps).map fun x => (x.2.2.note lo hi e.sr x.1, W x, L x)) hg.quiet hg.fit
    (fun s hs => by obtain ⟨x, hx, rfl⟩ := List.mem_map.1 hs; exact (hW x hx).1)
    (fun b hb => by rw [List.eq_of_mem_replicate hb]; intro m hm; cases hm)
    (by rw [hgains]; exact hg.atDest)
    (by
      rw [hgains]
      have := places_nodup (lo := lo) (hi := hi) (sr := e.sr) (ps := ps) (n := 11) (τ := 1)
        (F := fun p => (p.instrument.settings lo hi e.sr).length + 1) (fun p _ => by rw [Part.size]; omega)
      simpa only [Nat.add_assoc] using this)
  rw [List.length_replicate] at r2
  refine ⟨gk, g', y, r1, r2, fun c j hc hj => ?_⟩
  have h := r3 c j hc (by omega)
  rw [List.map_map, List.map_map] at h
  have hps : (places lo hi e.sr 11 1 ps).map (fun x => x.2.2) = ps := by
    rw [places_map (lo := lo) (hi := hi) (sr := e.sr) (fun p => p) ps 11 1, List.map_id']
  refine ⟨(places lo hi e.sr 11 1 ps).map fun x => Node.sample (W x).q 0 j, ?_, ?_⟩
  · conv_lhs => rw [← hps]
    rw [List.forall₂_map_left_iff, List.forall₂_map_right_iff, List.forall₂_same]
    exact fun x hx => ((hW x hx).2 j hj).1
  · have e1 : (ps.zip ((places lo hi e.sr 11 1 ps).map fun x => Node.sample (W x).q 0 j)).map (fun y => y.2 * y.1.level pw lo hi e.sr (128 * q + j)) =
        (places lo hi e.sr 11 1 ps).map ((fun s : Note K Empty × MSig K e.c.N × List K => Node.sample s.2.1.q 0 j * Node.gainAt s.2.2 j) ∘
          fun x => (x.2.2.note lo hi e.sr x.1, W x, L x)) := by
      conv_lhs => arg 2; arg 1; rw [← hps]
      rw [List.zip_map', List.map_map]
      refine List.map_congr_left fun x hx => ?_
      rw [Function.comp_apply, Function.comp_apply, ((hW x hx).2 j hj).2]
    rw [e1, List.map_map]
    exact h

/-- without buffer sources the waves are given -/
theorem Heard.waves {pw : K → K → K} {comp : K → K → K} {ex2 : K → K} {sine : List K} {lo hi sr thr : K} {ps : List (Part K)}
    (hps : ∀ p ∈ ps, ∀ c, p.instrument ≠ .clip c) {i : Nat} {x : K} (h : Heard pw comp ex2 sine lo hi sr thr ps i x) :
    |x - (ps.map fun p => p.wave pw comp sine lo hi sr i * p.level pw lo hi sr i).sum| ≤ thr * (ps.map fun p => |p.wave pw comp sine lo hi sr i|).sum := by
  obtain ⟨ws, h1, h2⟩ := h
  have hw : ws = ps.map fun p => p.wave pw comp sine lo hi sr i := by
    clear h2
    induction h1 with
    | nil => rfl
    | @cons p w ps ws h1 _ ih =>
      have : w = p.wave pw comp sine lo hi sr i := by
        have hp := hps p (by simp)
        unfold Part.Plays at h1
        cases hins : p.instrument with
        | clip c => exact absurd hins (hp c)
        | const o => rw [hins] at h1; exact h1
        | osc ty w f d => rw [hins] at h1; exact h1
      rw [List.map_cons, this, ih fun p hp => hps p (by simp [hp])]
  rw [hw] at h2
  have e1 : (ps.zip (ps.map fun p => p.wave pw comp sine lo hi sr i)) = ps.map fun p => (p, p.wave pw comp sine lo hi sr i) := by
    conv_lhs => arg 1; rw [← List.map_id' ps]
    rw [List.zip_map']
  rw [e1, List.map_map, List.map_map] at h2
  exact h2

end

end Verif.Whole
