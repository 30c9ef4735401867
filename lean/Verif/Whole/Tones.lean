import Verif.Whole.Score
import Verif.Source.ConstProps
import Verif.Param.Live

/-!
# C112: the notes of constant sources, and their envelopes

`Verif.Whole.Score` reduces the sound of a graph to sources and parameters alone. Here these are spelled out for constant sources
(`/repo/src/node/constant_source.rs` l.183-288) and for envelopes of set value, ramp and target events
(`/repo/src/param.rs` l.799-1600): times and values, no state.
-/

namespace Verif.Whole

open Verif Verif.Render Verif.Engine

section
variable {K : Type} [Field K] [LinearOrder K] [IsStrictOrderedRing K] [FloorRing K]
variable {Q X : Type}

/-- start and stop time after some messages -/
def schedule (ab : WithTop K × WithTop K) (ms : List (SMsg K X)) : WithTop K × WithTop K :=
  ms.foldl (fun ab m => match m with
    | .start t _ _ => ((t : WithTop K), ab.2)
    | .stop t => (ab.1, (t : WithTop K))
    | _ => ab) ab

open Classical in
/-- a constant source at time `t`: the offset between start and stop, otherwise nothing -/
noncomputable def constAt (ab : WithTop K × WithTop K) (offset t : K) : K :=
  if ab.1 ≤ (t : WithTop K) ∧ (t : WithTop K) < ab.2 then offset else 0

/-! ## A quantum of a constant source -/

theorem const_process {dt : K} (hdt : 0 < dt) {count : Nat} (s : Source.Const K) {offset : List K}
    (hlen : offset.length = 1 ∨ offset.length = count) :
    ((s.process dt count offset).1 = [] ∨ (s.process dt count offset).1.length = count) ∧
    ((s.process dt count offset).2.1.start = s.start ∧ (s.process dt count offset).2.1.stop = s.stop) ∧
    ∀ i, i < count → (s.process dt count offset).1.getD i 0 =
      constAt (s.start, s.stop) (Node.gainAt offset i) ((s.frame + i : Nat) * dt) := by
  have hsend : s.sendEnded.start = s.start ∧ s.sendEnded.stop = s.stop := by
    unfold Source.Const.sendEnded; split <;> exact ⟨rfl, rfl⟩
  have ht : ∀ i : Nat, ((s.frame + i : Nat) : K) * dt = s.frame * dt + i * dt := by intro i; push_cast; ring
  have hle_next : ∀ i : Nat, i < count → ((s.frame * dt + i * dt : K) : WithTop K) < ((s.frame * dt + dt * count : K) : WithTop K) := by
    intro i hi
    apply WithTop.coe_lt_coe.2
    have : (i : K) < count := by exact_mod_cast hi
    nlinarith
  have hnow : ∀ i : Nat, ((s.frame * dt : K) : WithTop K) ≤ ((s.frame * dt + i * dt : K) : WithTop K) := by
    intro i
    apply WithTop.coe_le_coe.2
    have : (0 : K) ≤ i * dt := by positivity
    linarith
  by_cases hst : ((s.frame * dt + dt * count : K) : WithTop K) ≤ s.start
  · have hout : (s.process dt count offset).1 = [] := by
      simp only [Source.Const.process]
      rw [if_pos hst]
      split <;> rfl
    refine ⟨.inl hout, ?_, fun i hi => ?_⟩
    · simp only [Source.Const.process]
      rw [if_pos hst]
      split
      · exact hsend
      · exact ⟨rfl, rfl⟩
    · rw [hout, constAt, if_neg]
      · simp
      · rw [ht]
        rintro ⟨h1, _⟩
        exact absurd (lt_of_lt_of_le (hle_next i hi) hst) (not_lt.2 h1)
  · have hout : (s.process dt count offset).1 =
        if offset.length = 1 ∧ s.start ≤ ((s.frame * dt : K) : WithTop K) ∧
            ((s.frame * dt + dt * count : K) : WithTop K) ≤ s.stop then
          List.replicate count (offset.headD 0)
        else
          (List.range count).map fun (i : Nat) =>
            if ((s.frame * dt + i * dt : K) : WithTop K) < s.start ∨
                s.stop ≤ ((s.frame * dt + i * dt : K) : WithTop K) then 0
            else (offset[i % offset.length]?).getD 0 := by
      simp only [Source.Const.process]
      rw [if_neg hst]
      split <;> rfl
    refine ⟨.inr (by rw [hout]; split <;> simp), ?_, fun i hi => ?_⟩
    · simp only [Source.Const.process]
      rw [if_neg hst]
      split
      · exact ⟨rfl, rfl⟩
      · exact hsend
    rw [hout, constAt, ht]
    have hone : offset.length = 1 → offset.headD 0 = Node.gainAt offset i := by
      intro h1
      unfold Node.gainAt
      rw [if_pos h1]
      cases offset with
      | nil => simp at h1
      | cons a l => rfl
    split
    · rename_i hc
      rw [if_pos ⟨le_trans hc.2.1 (hnow i), lt_of_lt_of_le (hle_next i hi) hc.2.2⟩, ← hone hc.1]
      simp [hi]
    · rw [List.getD_eq_getElem?_getD, List.getElem?_map, List.getElem?_range hi]
      simp only [Option.map_some, Option.getD_some]
      by_cases hp : s.start ≤ ((s.frame * dt + i * dt : K) : WithTop K) ∧ ((s.frame * dt + i * dt : K) : WithTop K) < s.stop
      · rw [if_pos hp, if_neg (by push Not; exact hp)]
        by_cases h1 : offset.length = 1
        · rw [← hone h1, h1, Nat.mod_one]
          cases offset with
          | nil => simp at h1
          | cons a l => rfl
        · have h2 : offset.length = count := hlen.resolve_left h1
          unfold Node.gainAt
          rw [if_neg h1, Nat.mod_eq_of_lt (by omega), List.getD_eq_getElem?_getD]
      · rw [if_neg hp, if_pos (by
          by_contra hc
          push Not at hc
          exact hp hc)]

theorem mono_out {N : Nat} {out : List K} {q : MSig K N} (h : outOf N (mono out) = some q) :
    q.q.length = 1 ∧ ∀ j, Node.sample q.q 0 j = out.getD j 0 := by
  unfold mono at h
  split at h
  · rename_i ho
    simp only [outOf, Option.some.injEq] at h
    subst h
    exact ⟨rfl, fun j => by rw [Node.sample_silence, ho]; simp⟩
  · simp only [outOf] at h
    split at h
    · simp only [Option.some.injEq] at h
      subst h
      exact ⟨rfl, fun j => rfl⟩
    · cases h

/-- messages set the start and the stop time -/
theorem const_mail (e : Studio K Q X) {o : Nat} : ∀ (b : List (SMsg K X)) {s : Source.Const K} {p : SProc K Q},
    RGraph.foldOpt e.onmessage b (.const s o) = some p →
    ∃ s', p = .const s' o ∧ (s'.start, s'.stop) = schedule (s.start, s.stop) b := by
  intro b
  induction b with
  | nil => intro s p h; simp only [RGraph.foldOpt, Option.some.injEq] at h; exact ⟨s, h.symm, rfl⟩
  | cons m b ih =>
    intro s p h
    cases m <;> exact ih h

/-- what a constant source plays alone -/
theorem const_played (e : Studio K Q X) (hdt : 0 < e.dt) {vals : Nat → Nat → List K} {o : Nat} :
    ∀ (bs : List (List (SMsg K X))) {f k : Nat} {s : Source.Const K} {z : MSig K e.c.N},
    (∀ k', k' ≤ k + bs.length → (vals k' o).length = 1 ∨ (vals k' o).length = e.c.N) →
    e.played vals f k (.const s o) bs = some z →
    z.q.length = 1 ∧ ∀ j, j < e.c.N → Node.sample z.q 0 j =
      constAt (schedule (s.start, s.stop) bs.flatten) (Node.gainAt (vals (k + bs.length) o) j)
        ((f + 128 * bs.length + j : Nat) * e.dt) := by
  intro bs
  induction bs with
  | nil =>
    intro f k s z hv h
    simp only [Studio.played, Studio.plays, Option.map_map, Option.map_eq_some_iff, Function.comp_apply] at h
    obtain ⟨q, hq, rfl⟩ := h
    obtain ⟨p1, _, p3⟩ := const_process hdt ({ s with frame := f } : Source.Const K) (hv k (by simp))
    obtain ⟨q1, q2⟩ := mono_out hq
    exact ⟨q1, fun j hj => by rw [q2, p3 j hj]; rfl⟩
  | cons b bs ih =>
    intro f k s z hv h
    simp only [Studio.played, Studio.plays, Option.bind_eq_some_iff, Option.map_eq_some_iff] at h
    obtain ⟨_, ⟨q, hq, rfl⟩, p', hp', h⟩ := h
    obtain ⟨_, ⟨p1, p2⟩, _⟩ := const_process hdt ({ s with frame := f } : Source.Const K) (hv k (by simp))
    obtain ⟨s', rfl, hs'⟩ := const_mail e b hp'
    obtain ⟨i1, i2⟩ := ih (fun k' hk' => hv k' (by simp only [List.length_cons]; omega)) h
    refine ⟨i1, fun j hj => ?_⟩
    rw [i2 j hj, hs']
    simp only [p1, p2]
    rw [show k + 1 + bs.length = k + (b :: bs).length by simp; omega,
      show f + 128 + 128 * bs.length + j = f + 128 * (b :: bs).length + j by simp; omega]
    congr 1
    unfold schedule
    rw [List.flatten_cons, List.foldl_append]

/-- one value, or one per frame -/
theorem Par.values_length {e : Studio K Q X} (hdt : 0 < e.dt) {a : Par K} {f : Nat} {bs : List (List (SMsg K X))} {l : List K}
    (h : a.values e f bs = some l) : l.length = 1 ∨ l.length = e.c.N := by
  unfold Par.values at h
  have hlast : ∃ ops, paramOps bs = ops ++ [.block] := by
    rcases List.eq_nil_or_concat bs with rfl | ⟨L, b, rfl⟩
    · exact ⟨[], rfl⟩
    · rw [List.concat_eq_append, paramOps_append]
      exact ⟨paramOps L ++ b.filterMap SMsg.paramOp, by simp⟩
  obtain ⟨ops, ho⟩ := hlast
  rw [ho, Param.run_append] at h
  simp only [Option.map_eq_some_iff] at h
  obtain ⟨s, hs, rfl⟩ := h
  cases hr : Param.run (e.A a.mn a.mx) e.dt e.c.N ⟨a.proc, f⟩ ops with
  | panic => rw [hr] at hs; simp [Param.Res.bind, resOpt] at hs
  | fuel => rw [hr] at hs; simp [Param.Res.bind, resOpt] at hs
  | ok s1 =>
    rw [hr] at hs
    simp only [Param.Res.bind, Param.run, Param.step] at hs
    cases hc : Param.computeBuffer (e.A a.mn a.mx) s1.p ⟨(s1.frame : K) * e.dt, e.dt, e.c.N⟩ with
    | panic => rw [hc] at hs; simp [resOpt] at hs
    | fuel => rw [hc] at hs; simp [resOpt] at hs
    | ok p' =>
      rw [hc] at hs
      simp only [resOpt, Option.some.injEq] at hs
      subst hs
      have := Param.C24_length (by exact hdt) hc
      unfold paramSeen
      split
      · exact .inl rfl
      · rw [List.length_map, this]
        split
        · exact .inr rfl
        · exact .inl rfl

/-- C112, constant sources: the wave of a note is one channel; it has the value of the offset between the start and the stop
time that the messages so far have set, and is zero otherwise. -/
theorem C112_constant (e : Studio K Q X) (hsr : 0 < e.sr) {v : Note K Q} {s : Source.Const K} {o : Par K}
    (hv : v.proc = .const s o.id) (ho : v.params = [o]) {f : Nat} {bs : List (List (Msg (SProc K Q) (SMsg K X)))}
    {offset : List K} (hoff : o.values e f (bs.map (mail o.id)) = some offset) {z : MSig K e.c.N} (hz : v.wave e f bs = some z) :
    z.q.length = 1 ∧ ∀ j, j < e.c.N → Node.sample z.q 0 j =
      constAt (schedule (s.start, s.stop) (bs.flatMap (mail v.src))) (Node.gainAt offset j)
        ((f + 128 * bs.length + j : Nat) * e.dt) := by
  have hdt : 0 < e.dt := one_div_pos.2 hsr
  have hvals : ∀ k, v.vals e f bs k o.id = (o.values e f ((bs.take k).map (mail o.id))).getD [] := by
    intro k; simp [Note.vals, ho]
  unfold Note.wave at hz
  rw [hv] at hz
  obtain ⟨h1, h2⟩ := const_played e hdt (bs.map (mail v.src)) (fun k hk => by
    rw [hvals]
    obtain ⟨_, _, hl⟩ := Par.values_prefix (e := e) (a := o) (f := f) ((List.take_prefix k bs).map (mail o.id)) (by rw [hoff]; rfl)
    rw [hl]
    exact Par.values_length hdt hl) hz
  refine ⟨h1, fun j hj => ?_⟩
  rw [h2 j hj, hvals]
  simp only [List.length_map, Nat.zero_add, List.take_length, hoff, Option.getD_some]
  rw [List.flatMap_def]

/-! ## Envelopes -/

section
open Param

/-- a quantum does not change the rate -/
theorem loop_rate {A : Arith K K} {b : Block K} (hdt : 0 < b.dt) {n : Nat} {p p' : Proc K K} (h : loop A b n p = .ok p') :
    p'.aRate = p.aRate := by
  induction n generalizing p with
  | zero => cases h
  | succ n ih =>
    unfold loop at h
    cases he : computeEvent A p b with
    | panic => rw [he] at h; cases h
    | fuel => rw [he] at h; cases h
    | ok r =>
      rw [he] at h
      simp only [Res.bind] at h
      have g := computeEvent_grows hdt he
      split at h
      · cases h
        exact g.rate
      · rw [ih h, g.rate]

theorem computeBuffer_rate {A : Arith K K} {b : Block K} (hdt : 0 < b.dt) {p p' : Proc K K} (h : computeBuffer A p b = .ok p') :
    p'.aRate = p.aRate := by
  unfold computeBuffer at h
  dsimp only at h
  split at h <;> split at h
  · cases h; rfl
  · exact (loop_rate hdt h).trans rfl
  · cases h; rfl
  · exact (loop_rate hdt h).trans rfl

theorem handle_rate {p p' : Proc K K} {e : Ev K K} (h : handle p e = .ok p') : p'.aRate = p.aRate := by
  unfold handle at h
  split at h
  · dsimp only at h
    split at h
    · cases h; rfl
    · split at h
      · split at h
        · cases h
        · cases h; rfl
      · cases h; rfl
  · cases h; rfl
  · unfold Param.insert at h
    split at h
    · cases h
    · cases h; rfl

/-- without messages about it the rate stays -/
theorem run_rate {A : Arith K K} {dt : K} (hdt : 0 < dt) {count : Nat} : ∀ (ops : List (Param.Op K K)) {s s' : Param.Sys K K},
    (∀ a, .rate a ∉ ops) → Param.run A dt count s ops = .ok s' → s'.p.aRate = s.p.aRate := by
  intro ops
  induction ops with
  | nil => intro s s' _ h; cases h; rfl
  | cons o ops ih =>
    intro s s' hr h
    rw [Param.run] at h
    cases hs : Param.step A dt count s o with
    | panic => rw [hs] at h; cases h
    | fuel => rw [hs] at h; cases h
    | ok s1 =>
      rw [hs] at h
      rw [ih (fun a ha => hr a (by simp [ha])) h]
      cases o with
      | rate a => exact absurd (by simp) (hr a)
      | event ev =>
        simp only [Param.step] at hs
        cases hh : handle s.p ev with
        | panic => rw [hh] at hs; cases hs
        | fuel => rw [hh] at hs; cases hs
        | ok p => rw [hh] at hs; cases hs; exact handle_rate hh
      | block =>
        simp only [Param.step] at hs
        cases hh : computeBuffer A s.p ⟨s.frame * dt, dt, count⟩ with
        | panic => rw [hh] at hs; cases hs
        | fuel => rw [hh] at hs; cases hs
        | ok p => rw [hh] at hs; cases hs; exact computeBuffer_rate (b := ⟨s.frame * dt, dt, count⟩) hdt hh

/-- nothing happens to a parameter without events -/
theorem run_idle {A : Arith K K} {dt : K} {count : Nat} : ∀ (m : Nat) {s : Param.Sys K K}, s.p.timeline = [] →
    ∃ s', Param.run A dt count s (List.replicate m .block) = .ok s' ∧ s'.p.timeline = [] ∧ s'.p.intrinsic = s.p.intrinsic ∧
      s'.p.last = s.p.last ∧ s'.p.aRate = s.p.aRate ∧ s'.frame = s.frame + m * count := by
  intro m
  induction m with
  | zero => intro s h; exact ⟨s, rfl, h, rfl, rfl, rfl, by simp⟩
  | succ m ih =>
    intro s h
    have hb : computeBuffer A s.p ⟨s.frame * dt, dt, count⟩ =
        .ok { s.p with current := A.clamp s.p.intrinsic, buffer := [s.p.intrinsic] } := by
      simp [computeBuffer, isConstant, h]
    obtain ⟨s', h1, h2, h3, h4, h5, h6⟩ := ih
      (s := { p := { s.p with current := A.clamp s.p.intrinsic, buffer := [s.p.intrinsic] }, frame := s.frame + count }) h
    refine ⟨s', ?_, h2, h3, h4, h5, by rw [h6]; dsimp only; ring⟩
    rw [List.replicate_succ, Param.run]
    simp only [Param.step, hb, Res.bind]
    exact h1

/-- C112, envelopes: the level of a note follows the events that were scheduled. For `m` quanta nothing is scheduled on the gain
of the note, then events arrive, each one before its time (`ops`: the events and the quanta in between). In the present quantum
the level is the value of the envelope of these events (`PlaysAt`, see C96), within the nominal range of the parameter. -/
theorem C112_envelope (e : Studio K Q X) (hsr : 0 < e.sr) (hN : 2 ≤ e.c.N) {v : Note K Q} {ex : K → K} (hm : Monotone ex)
    (hpos : ∀ x, 0 < ex x) {pw : K → K → K} (hA : e.A v.env.mn v.env.mx = exact ex pw v.env.mn v.env.mx)
    (hfresh : v.env.proc.timeline = []) (har : v.env.proc.aRate = true) {f : Nat}
    {bs : List (List (Msg (SProc K Q) (SMsg K X)))} {m : Nat} {ev : Ev K K} {ops : List (Param.Op K K)}
    (hops : paramOps (bs.map (mail v.env.id)) = List.replicate m .block ++ (.event ev :: ops ++ [.block]))
    (hL : Envelope (Param.start v.env.proc.intrinsic ((f + m * e.c.N : Nat) * e.dt) :: ev :: scheduled ops))
    (hin : Timely e.dt e.c.N (f + m * e.c.N) ops) (hfirst : ev.isRamp = true → v.env.proc.last = none) {l : List K}
    (hl : v.level e f bs = some l) {j : Nat} (hj : j < e.c.N) :
    ∃ x, Node.gainAt l j = clampTo v.env.mn v.env.mx x ∧
      PlaysAt ex pw v.env.proc.intrinsic (Param.start v.env.proc.intrinsic ((f + m * e.c.N : Nat) * e.dt) :: ev :: scheduled ops) e.dt
        ((f + bs.length * e.c.N : Nat) * e.dt) ((f + bs.length * e.c.N + j : Nat) * e.dt) x := by
  have hdt : 0 < e.dt := one_div_pos.2 hsr
  unfold Note.level Par.values at hl
  simp only [Option.map_eq_some_iff] at hl
  obtain ⟨s, hs, rfl⟩ := hl
  have hrun : Param.run (e.A v.env.mn v.env.mx) e.dt e.c.N ⟨v.env.proc, f⟩ (paramOps (bs.map (mail v.env.id))) = .ok s := by
    cases hr : Param.run (e.A v.env.mn v.env.mx) e.dt e.c.N ⟨v.env.proc, f⟩ (paramOps (bs.map (mail v.env.id))) with
    | ok s' => rw [hr] at hs; simp only [resOpt, Option.some.injEq] at hs; rw [hs]
    | panic => rw [hr] at hs; cases hs
    | fuel => rw [hr] at hs; cases hs
  rw [hops, hA, Param.run_append] at hrun
  obtain ⟨s1, a1, a2, a3, a4, a5, a6⟩ := run_idle (A := exact ex pw v.env.mn v.env.mx) (dt := e.dt) (count := e.c.N) m
    (s := ⟨v.env.proc, f⟩) hfresh
  rw [a1] at hrun
  simp only [Res.bind] at hrun
  dsimp only at a3 a4 a5 a6
  obtain ⟨x, x1, x2⟩ := C96_live_partial hm hpos hdt hN a2 (a5.trans har) (by rw [a3, a6]; exact hL) (by rw [a6]; exact hin)
    (fun h => a4.trans (hfirst h)) hj hrun
  -- number of quanta
  have hq : ∀ l l' : List (Param.Op K K), quanta (l ++ l') = quanta l + quanta l' := by
    intro l l'
    induction l with
    | nil => simp [quanta]
    | cons o l ih => cases o <;> simp [quanta, ih] <;> omega
  have hq0 : ∀ m, quanta (List.replicate m (.block : Param.Op K K)) = m := by
    intro m; induction m with
    | zero => rfl
    | succ m ih => rw [List.replicate_succ, quanta, ih]
  have hqm : ∀ l : List (SMsg K X), quanta (l.filterMap SMsg.paramOp) = 0 := by
    intro l
    induction l with
    | nil => rfl
    | cons m l ih => cases m <;> exact ih
  have hqp : ∀ l : List (List (SMsg K X)), quanta (paramOps l) = l.length + 1 := by
    intro l
    unfold paramOps
    rw [quanta]
    congr 1
    induction l with
    | nil => rfl
    | cons b l ih => rw [List.flatMap_cons, hq, hq, hqm, ih]; simp [quanta]; omega
  have hcount : bs.length = m + quanta ops := by
    have := congrArg quanta hops
    rw [hqp, hq, hq0, hq, List.length_map] at this
    simp only [quanta] at this
    omega
  have hfr : s1.frame + quanta ops * e.c.N = f + bs.length * e.c.N := by rw [a6, hcount]; ring
  rw [a3, hfr, a6] at x2
  refine ⟨x, ?_, x2⟩
  -- rate
  have hnr : ∀ a, (.rate a : Param.Op K K) ∉ (.event ev :: ops ++ [.block]) := by
    have : ∀ (ops : List (Param.Op K K)) fr, Timely e.dt e.c.N fr ops → ∀ a, (.rate a : Param.Op K K) ∉ ops := by
      intro ops
      induction ops with
      | nil => intro _ _ a h; simp at h
      | cons o ops ih =>
        intro fr h a hm
        cases o with
        | rate _ => exact h
        | event _ => exact ih _ h.2 a (by simpa using hm)
        | block => exact ih _ h a (by simpa using hm)
    intro a ha
    simp at ha
    exact this ops _ hin a ha
  have hrate := run_rate hdt _ hnr hrun
  rw [a5, har] at hrate
  have hlen : s.p.buffer.length = 1 ∨ 1 < s.p.buffer.length := by
    unfold Proc.valueAt at x1
    split at x1
    · left; assumption
    · rename_i hne
      right
      have := (List.getElem?_eq_some_iff.1 x1).1
      omega
  unfold Proc.valueAt at x1
  rcases hlen with h1 | h1
  · have hp : paramSeen v.env.mn v.env.mx s.p = [clampTo v.env.mn v.env.mx (s.p.buffer.headD 0)] := if_pos (.inl h1)
    rw [if_pos h1] at x1
    rw [hp, List.headD_eq_head?_getD, List.head?_eq_getElem?, x1]
    rfl
  · have hp : paramSeen v.env.mn v.env.mx s.p = s.p.buffer.map (clampTo v.env.mn v.env.mx) :=
      if_neg (by rw [hrate]; simp; omega)
    rw [if_neg (by omega)] at x1
    unfold Node.gainAt
    rw [hp, List.length_map, if_neg (by omega), List.getD_eq_getElem?_getD, List.getElem?_map, x1]
    rfl

end

end

end Verif.Whole
