import Verif.Whole.Stage
import Verif.Whole.Studio

/-!
# C112: a score sounds as written

A note is a source (constant source, oscillator or buffer source) with its parameters, a gain node and the envelope of its
gain. The specification describes each of these alone: a parameter with the events it gets (`Verif.Param.Model`), a source with
the messages it gets and the values of its parameters (`Verif.Source`). The graph, the queue of messages and the other notes do
not occur in it. The engine is that of `Verif.Whole.Studio`.
-/

namespace Verif.Whole

open Verif Verif.Render Verif.Engine

section
variable {K : Type} [Field K] [LinearOrder K] [IsStrictOrderedRing K] [FloorRing K]
variable {Q X : Type}

/-! ## Specification: parameters and sources alone -/

/-- the operation of a parameter that belongs to a message -/
def SMsg.paramOp : SMsg K X → Option (Param.Op K K)
  | .event ev => some (.event ev)
  | .rate a => some (.rate a)
  | _ => none

/-- what happens to a parameter: a quantum, then messages and a quantum, and so on -/
def paramOps (bs : List (List (SMsg K X))) : List (Param.Op K K) :=
  .block :: bs.flatMap fun b => b.filterMap SMsg.paramOp ++ [.block]

/-- The values a node sees of a parameter without input: within the nominal range; one value if the automation yields one or
the parameter is k-rate, otherwise one per frame (`mix_to_output`, `/repo/src/param.rs` l.739-797). -/
def paramSeen (mn mx : K) (p : Param.Proc K K) : List K :=
  if p.buffer.length = 1 ∨ p.aRate = false then [clampTo mn mx (p.buffer.headD 0)] else p.buffer.map (clampTo mn mx)

/-- a parameter with default value, nominal range and state -/
structure Par (K : Type) where
  id : Nat
  dflt : K
  mn : K
  mx : K
  proc : Param.Proc K K

/-- The values of the parameter, alone from frame `f` on, in the quantum after the messages `bs`. -/
def Par.values (e : Studio K Q X) (a : Par K) (f : Nat) (bs : List (List (SMsg K X))) : Option (List K) :=
  (resOpt (Param.run (e.A a.mn a.mx) e.dt e.c.N ⟨a.proc, f⟩ (paramOps bs))).map fun s => paramSeen a.mn a.mx s.p

/-- A source alone, with the values of its parameters, in the quantum at frame `f`: its new state and what it puts out. -/
def Studio.plays (e : Studio K Q X) (f : Nat) (vals : Nat → List K) : SProc K Q → Option (SProc K Q × MSig K e.c.N)
  | .const s o =>
    let r := ({ s with frame := f } : Source.Const K).process e.dt e.c.N (vals o)
    (outOf e.c.N (mono r.1)).map fun q => (.const { r.2.1 with frame := 0 } o, q)
  | .osc s fr de =>
    (({ s with frame := f } : Source.Osc K).process e.rd e.sine e.comp e.dt e.c.N (vals fr) (vals de)).bind fun r =>
      (outOf e.c.N (mono r.1)).map fun q => (.osc { r.2.1 with frame := 0 } fr de, q)
  | .buffer b s ra de =>
    (exOpt (({ s with frame := f } : Source.BufSt K).process (e.bufEnv b) ((vals ra).headD 0) (e.ex2 ((vals de).headD 0)))).bind
      fun r => (outOf e.c.N r.1).map fun q => (.buffer b { r.2.1 with frame := 0 } ra de, q)
  | _ => none

/-- What a source plays, alone from frame `f` on, in the quantum after the messages `bs`; `vals k` are the values of the
parameters in quantum `k`. -/
def Studio.played (e : Studio K Q X) (vals : Nat → Nat → List K) : Nat → Nat → SProc K Q → List (List (SMsg K X)) →
    Option (MSig K e.c.N)
  | f, k, p, [] => (e.plays f (vals k) p).map (·.2)
  | f, k, p, b :: bs => (e.plays f (vals k) p).bind fun r =>
      (RGraph.foldOpt e.onmessage b r.1).bind fun p' => e.played vals (f + 128) (k + 1) p' bs

/-- A note: the ids of source and gain node, the state of the source, the gain parameter, the parameters of the source. -/
structure Note (K Q : Type) where
  src : Nat
  proc : SProc K Q
  gain : Nat
  env : Par K
  params : List (Par K)

/-- the parameters that a processor reads -/
def sreads (innerReads : Q → Nat → Prop) : SProc K Q → Nat → Prop
  | .const _ o, j => j = o
  | .osc _ fr de, j => j = fr ∨ j = de
  | .buffer _ _ ra de, j => j = ra ∨ j = de
  | .gain p, j => j = p
  | .other q, j => innerReads q j
  | _, _ => False

/-- connections from node `u` to the inputs of node `i` -/
def into {P S : Type} (g : RGraph P S) (u i : Nat) : List Edge :=
  match g.slot u with
  | some n => n.edges.filter fun e => decide (e.dst = i ∧ e.port ≠ none)
  | none => []

/-- the parameter is in the graph, with nothing connected to it -/
def ParamIn {S : Type} (g : RGraph (SProc K Q) S) (i : Nat) : Prop :=
  ∃ n, g.slot i = some n ∧ n.inputs.length = 1 ∧ n.outputs.length = 1 ∧ n.dropped = false ∧ ∀ u, into g u i = []

/-- the source is in the graph -/
def SourceIn {S : Type} (g : RGraph (SProc K Q) S) (i : Nat) : Prop :=
  ∃ n, g.slot i = some n ∧ n.outputs.length = 1 ∧ n.dropped = false

/-- the gain node is in the graph; only output 0 of node `src` is connected to it -/
def GainIn {S : Type} (g : RGraph (SProc K Q) S) (src i : Nat) : Prop :=
  ∃ n, g.slot i = some n ∧ n.inputs.length = 1 ∧ n.outputs.length = 1 ∧ n.dropped = false ∧ n.cfg.mode = 0 ∧
    ∀ u, into g u i = if u = src then [⟨0, i, some 0⟩] else []

/-- The values of the parameters of the source in quantum `k` after frame `f`, each parameter alone with its messages. -/
def Note.vals (e : Studio K Q X) (v : Note K Q) (f : Nat) (bs : List (List (Msg (SProc K Q) (SMsg K X)))) (k j : Nat) : List K :=
  match v.params.find? fun a => a.id == j with
  | some a => (a.values e f ((bs.take k).map (mail a.id))).getD []
  | none => []

/-- what the source plays, alone from frame `f` on, in the quantum after the messages -/
def Note.wave (e : Studio K Q X) (v : Note K Q) (f : Nat) (bs : List (List (Msg (SProc K Q) (SMsg K X)))) :
    Option (MSig K e.c.N) := e.played (v.vals e f bs) f 0 v.proc (bs.map (mail v.src))

/-- the values of the envelope, alone from frame `f` on, in the quantum after the messages -/
def Note.level (e : Studio K Q X) (v : Note K Q) (f : Nat) (bs : List (List (Msg (SProc K Q) (SMsg K X)))) : Option (List K) :=
  v.env.values e f (bs.map (mail v.env.id))

/-- the nodes of a note -/
def Note.ids (v : Note K Q) : List Nat := v.src :: v.gain :: (v.env :: v.params).map (·.id)

/-- The note is in the graph: the source is connected to the gain node and nothing else is, nothing is connected to the
parameters, the handles are not dropped. -/
structure Note.Sits {S : Type} (v : Note K Q) (g : RGraph (SProc K Q) S) : Prop where
  source : SourceIn g v.src
  gain : GainIn g v.src v.gain
  params : ∀ a ∈ v.env :: v.params, ParamIn g a.id

/-- the processors of the note are in the given states -/
structure Note.Begins {S : Type} (ir : Q → Nat → Prop) (v : Note K Q) (g : RGraph (SProc K Q) S) : Prop where
  source : ∀ n, g.slot v.src = some n → n.proc = v.proc
  gain : ∀ n, g.slot v.gain = some n → n.proc = .gain v.env.id
  params : ∀ a ∈ v.env :: v.params, ∀ n, g.slot a.id = some n → n.proc = .param a.dflt a.mn a.mx a.proc
  reads : ∀ j, sreads ir v.proc j → ∃ a ∈ v.params, a.id = j

/-- The destination is in the graph, with two channels (explicit, speakers); the gain nodes `gains` and nothing else are
connected to it. -/
def DestIn {S : Type} (g : RGraph (SProc K Q) S) (gains : List Nat) : Prop :=
  ∃ n, g.slot 0 = some n ∧ n.proc = .destination ∧ n.inputs.length = 1 ∧ n.outputs.length = 1 ∧ n.dropped = false ∧
    n.cfg = ⟨2, 2, 0⟩ ∧ ∀ u, into g u 0 = if u ∈ gains then [⟨0, 0, some 0⟩] else []

/-- A note of a score, with its wave and its level in the present quantum: it was in the given state when the quantum after
the first `start` batches of messages began, and has been in the graph since then; its nodes are not created anew. What the
source plays and the values of the envelope are those of the source and of the parameters alone. -/
structure Sounds (e : Studio K Q X) (ir : Q → Nat → Prop) (f : Nat) (g : RGraph (SProc K Q) (MSig K e.c.N))
    (bs : List (List (Msg (SProc K Q) (SMsg K X)))) (v : Note K Q) (start : Nat) (z : MSig K e.c.N) (l : List K) : Prop where
  begins : start ≤ bs.length ∧ ∃ g', stage e.timed f g (bs.take start) = some g' ∧ v.Begins ir g' ∧
    Throughout e.timed (f + 128 * start) g' (bs.drop start) v.Sits
  spares : ∀ b ∈ bs.drop start, ∀ i ∈ v.ids, Spares i b
  params : ∀ a ∈ v.params, (a.values e (f + 128 * start) ((bs.drop start).map (mail a.id))).isSome
  wave : v.wave e (f + 128 * start) (bs.drop start) = some z
  level : v.level e (f + 128 * start) (bs.drop start) = some l
  mono : z.q.length = 1

/-! ## The engine -/

theorem Studio.reads (e : Studio K Q X) {innerReads : Q → Nat → Prop} (h : Reads e.inner innerReads) (f : Nat) :
    Reads (e.timed.at f) (sreads innerReads) := by
  intro p ins outs ps ps' hp
  show e.process f p ins outs ps = e.process f p ins outs ps'
  cases p with
  | destination => cases ins <;> cases outs <;> rfl
  | const s o =>
    cases outs with
    | nil => cases ins <;> rfl
    | cons q os => simp only [Studio.process, hp o rfl]
  | osc s fr de =>
    cases outs with
    | nil => cases ins <;> rfl
    | cons q os => simp only [Studio.process, hp fr (.inl rfl), hp de (.inr rfl)]
  | buffer b s ra de =>
    cases outs with
    | nil => cases ins <;> rfl
    | cons q os => simp only [Studio.process, hp ra (.inl rfl), hp de (.inr rfl)]
  | param d mn mx p => cases ins <;> cases outs <;> rfl
  | gain p =>
    cases ins with
    | nil => cases outs <;> rfl
    | cons i is =>
      cases outs with
      | nil => rfl
      | cons q os => simp only [Studio.process, hp p rfl]
  | other q => simp only [Studio.process, h q ins outs ps ps' hp]

/-! ## What arrives -/

section
variable {P S M : Type} {sem : Sem P S M} {g : RGraph P S} {ks : List Nat} {r : Results P S}

theorem sends_into (i q u : Nat) : sends g r i q u = match r u with
    | some x => (into g u i).filterMap fun e => if e.port = some q then x.2.1[e.out]? else none
    | none => [] := by
  unfold sends into
  cases hs : g.slot u with
  | none => cases r u <;> rfl
  | some n =>
    cases r u with
    | none => rfl
    | some x =>
      simp only [List.filterMap_filter]
      refine List.filterMap_congr fun e _ => ?_
      by_cases h1 : e.dst = i <;> by_cases h2 : e.port = some q <;> simp [h1, h2]

theorem arriving_none {i : Nat} (h : ∀ u, into g u i = []) (q : Nat) : arriving g ks r i q = [] := by
  unfold arriving
  rw [List.flatMap_eq_nil_iff]
  intro u _
  rw [sends_into, h u]
  cases r u <;> rfl

theorem flatMap_one {α : Type} {F : Nat → List α} {s : Nat} : ∀ {ks : List Nat}, ks.Nodup → s ∈ ks → (∀ u, u ≠ s → F u = []) →
    ks.flatMap F = F s := by
  intro ks
  induction ks with
  | nil => intro _ h; cases h
  | cons u ks ih =>
    intro hnd hs hF
    rw [List.flatMap_cons]
    have hnd' := List.nodup_cons.1 hnd
    by_cases hu : u = s
    · subst hu
      have : ks.flatMap F = [] := by
        rw [List.flatMap_eq_nil_iff]
        intro v hv
        exact hF v fun hc => hnd'.1 (hc ▸ hv)
      rw [this, List.append_nil]
    · rw [hF u hu, List.nil_append]
      exact ih hnd'.2 ((List.mem_cons.1 hs).resolve_left (Ne.symm hu)) hF

theorem arriving_one {i s : Nat} (hl : Lists g ks) {n : Node P S} (hn : g.slot s = some n)
    (h : ∀ u, into g u i = if u = s then [⟨0, i, some 0⟩] else []) {x : P × List S × Bool} (hx : r s = some x) {y : S}
    (hy : x.2.1 = [y]) : arriving g ks r i 0 = [y] := by
  unfold arriving
  rw [flatMap_one hl.1 ((hl.2 s).2 (by rw [hn]; rfl)) (s := s)]
  · rw [sends_into, hx, h s, if_pos rfl]
    simp [hy]
  · intro u hu
    rw [sends_into, h u, if_neg hu]
    cases r u <;> rfl

end

/-! ## A parameter in a quantum -/

theorem data_length {N : Nat} (z : MSig K N) : ((z.q.headD none).data N).length = N := by
  cases hz : z.q with
  | nil => exact absurd hz z.full.1
  | cons c cs =>
    cases c with
    | none => simp [Node.Chan.data]
    | some l =>
      have := z.full.2 l (by rw [hz]; simp)
      simpa [Node.Chan.data] using this

theorem paramOut_silent {N : Nat} (hN : 0 < N) (dflt mn mx : K) (p : Param.Proc K K)
    (hb : p.buffer.length = 1 ∨ p.buffer.length = N) (o : MSig K N) :
    ∃ y, paramOut ⟨dflt, mn, mx, p.aRate, fun _ => p.buffer⟩ 0 ⟨Node.silence, silence_full N, false⟩ o = some y ∧
      y.q.length = 1 ∧ seenVals y = paramSeen mn mx p := by
  obtain ⟨d0, ds, hd⟩ : ∃ d0 ds, (o.q.headD none).data N = d0 :: ds := by
    cases h : (o.q.headD none).data N with
    | nil => have := data_length o; rw [h] at this; simp at this; omega
    | cons a l => exact ⟨a, l, rfl⟩
  have hlen : (d0 :: ds).length = N := by rw [← hd]; exact data_length o
  obtain ⟨b0, bs, hbb⟩ : ∃ b0 bs, p.buffer = b0 :: bs := by
    cases h : p.buffer with
    | nil => rw [h] at hb; simp at hb; omega
    | cons a l => exact ⟨a, l, rfl⟩
  obtain ⟨M, rfl⟩ : ∃ M, N = M + 1 := ⟨N - 1, by omega⟩
  have hz : ((Node.silence : Sig K).headD none).data (M + 1) = List.replicate (M + 1) 0 := rfl
  have hzn : ((Node.silence : Sig K).headD none).isNone = true := rfl
  unfold paramOut Param.mixToOutput
  simp only [hz, hzn, hd, List.length_map]
  by_cases hc : p.buffer.length = 1 ∨ p.aRate = false
  · simp only [if_pos hc, true_or, if_true]
    have h0 : (p.buffer.map Param.Fl.fin)[0]? = some (.fin b0) := by rw [hbb]; rfl
    have h1 : ((List.replicate (M + 1) (0 : K)).map Param.Fl.fin)[0]? = some (.fin 0) := by simp
    rw [h0, h1]
    dsimp only
    rw [Option.bind_some, dif_pos (by simpa using hlen)]
    refine ⟨_, rfl, rfl, ?_⟩
    unfold seenVals paramSeen
    rw [if_pos hc, hbb]
    simp [Node.Chan.data, finAdd, fix_fin, toK]
  · rw [if_neg hc]
    push Not at hc
    have hl : p.buffer.length = M + 1 := hb.resolve_left hc.1
    have hdat : List.zipWith (fun o p_1 => Param.fix dflt mn mx (finAdd o p_1)) ((List.replicate (M + 1) (0 : K)).map Param.Fl.fin)
        (p.buffer.map Param.Fl.fin) ++ ((List.replicate (M + 1) (0 : K)).map Param.Fl.fin).drop p.buffer.length =
        p.buffer.map fun x => Param.Fl.fin (clampTo mn mx x) := by
      rw [hl, List.drop_of_length_le (by simp), List.append_nil]
      refine List.ext_getElem? fun k => ?_
      rw [List.getElem?_zipWith]
      by_cases hk : k < p.buffer.length
      · simp [hk, hl ▸ hk, finAdd, fix_fin]
      · simp [hk]
    rw [hdat, Option.bind_some, dif_pos (by simpa using hl)]
    refine ⟨_, rfl, rfl, ?_⟩
    have hps : paramSeen mn mx p = p.buffer.map (clampTo mn mx) := by
      unfold paramSeen
      exact if_neg (by push Not; exact hc)
    rw [hps]
    unfold seenVals
    have hm : (List.map toK (p.buffer.map fun x => Param.Fl.fin (clampTo mn mx x))) = p.buffer.map (clampTo mn mx) := by
      rw [List.map_map]; rfl
    simp [Node.Chan.data, hm, ← hl]

/-- quantum of a parameter with nothing connected to it -/
theorem param_quantum (e : Studio K Q X) (hdt : 0 < e.dt) (hN : 0 < e.c.N) {f : Nat} {g : RGraph (SProc K Q) (MSig K e.c.N)}
    {ks : List Nat} {r : Results (SProc K Q) (MSig K e.c.N)} (hq : Quiet e.timed g) (hs : Solves (e.timed.at f) g ks r) {i : Nat}
    (hp : ParamIn g i) {dflt mn mx : K} {p p' : Param.Proc K K}
    (hpr : ∀ n, g.slot i = some n → n.proc = .param dflt mn mx p)
    (h : Param.computeBuffer (e.A mn mx) p ⟨f * e.dt, e.dt, e.c.N⟩ = .ok p') :
    ∃ y, r i = some (.param dflt mn mx p', [y], true) ∧ seenVals y = paramSeen mn mx p' ∧
      ((seenVals y).length = 1 ∨ (seenVals y).length = e.c.N) ∧ leaves (e.timed.at f) g ks r i = false := by
  obtain ⟨n, hn, h1, h2, h3, h4⟩ := hp
  obtain ⟨a, ha⟩ := List.length_eq_one_iff.1 h1
  obtain ⟨o, ho⟩ := List.length_eq_one_iff.1 h2
  have hin : inputsOf (e.timed.at f) g ks r i n = [⟨Node.silence, silence_full e.c.N, false⟩] := by
    unfold inputsOf
    rw [ha]
    simp only [List.mapIdx_cons, List.mapIdx_nil, arriving_none h4, List.foldl_nil]
    rw [hq i n hn a (by rw [ha]; simp)]
    rfl
  have hlen : p'.buffer.length = 1 ∨ p'.buffer.length = e.c.N := by
    have := Param.C24_length (by exact hdt) h
    rw [this]
    split
    · exact .inr rfl
    · exact .inl rfl
  obtain ⟨y, hy, hy1, hy2⟩ := paramOut_silent hN dflt mn mx p' hlen o
  have hr := hs.eq i n hn
  rw [hpr n hn, hin, ho] at hr
  have hr' : r i = some (.param dflt mn mx p', [y], true) := by
    rw [hr, show (e.timed.at f).process = e.process f from rfl]
    simp only [Studio.process, h, resOpt, Option.bind_some, hy, Option.map_some]
  refine ⟨y, hr', hy2, ?_, ?_⟩
  · rw [hy2]
    unfold paramSeen
    split
    · exact .inl rfl
    · rwa [List.length_map]
  · simp [leaves, hn, hr', h3]

/-! ## A parameter in a history -/

/-- a parameter in a history of the graph is what it is alone -/
theorem param_at (e : Studio K Q X) (hdt : 0 < e.dt) (hN : e.c.N = 128) {innerReads : Q → Nat → Prop}
    (hin : Reads e.inner innerReads) {i : Nat} {dflt mn mx : K} : ∀ (bs : List (List (Msg (SProc K Q) (SMsg K X)))) {f : Nat}
    {g gk : RGraph (SProc K Q) (MSig K e.c.N)} {p : Param.Proc K K} {s : Param.Sys K K},
    Quiet e.timed g → Throughout e.timed f g bs (fun g => Fit (sreads innerReads) g ∧ ParamIn g i) → (∀ b ∈ bs, Spares i b) →
    (∀ n, g.slot i = some n → n.proc = .param dflt mn mx p) → stage e.timed f g bs = some gk →
    Param.run (e.A mn mx) e.dt e.c.N ⟨p, f⟩ (paramOps (bs.map (mail i))) = .ok s →
    Quiet e.timed gk ∧ ∀ ks r, Solves (e.timed.at (f + 128 * bs.length)) gk ks r →
      ∃ y, r i = some (.param dflt mn mx s.p, [y], true) ∧ seenVals y = paramSeen mn mx s.p ∧
        ((seenVals y).length = 1 ∨ (seenVals y).length = e.c.N) ∧
        leaves (e.timed.at (f + 128 * bs.length)) gk ks r i = false := by
  intro bs
  induction bs with
  | nil =>
    intro f g gk p s hq ht hsp hpr hst hrun
    simp only [stage, Option.some.injEq] at hst
    subst hst
    refine ⟨hq, fun ks r hs => ?_⟩
    simp only [paramOps, List.map_nil, List.flatMap_nil, Param.run, Param.step] at hrun
    cases hc : Param.computeBuffer (e.A mn mx) p ⟨(f : K) * e.dt, e.dt, e.c.N⟩ with
    | ok p' =>
      rw [hc] at hrun
      simp only [Param.Res.bind, Param.Res.ok.injEq] at hrun
      subst hrun
      exact param_quantum e hdt (by omega) hq hs ht.head.2 hpr hc
    | panic => rw [hc] at hrun; cases hrun
    | fuel => rw [hc] at hrun; cases hrun
  | cons b bs ih =>
    intro f g gk p s hq ht hsp hpr hst hrun
    obtain ⟨ks, r, g1, g2, o, _, k2, k3, k4, k5, k6, _, k7⟩ := stage_cons (e.reads hin) ht.head.1 hst
    simp only [paramOps, List.map_cons, List.flatMap_cons, Param.run, Param.step] at hrun
    cases hc : Param.computeBuffer (e.A mn mx) p ⟨(f : K) * e.dt, e.dt, e.c.N⟩ with
    | ok p' =>
      rw [hc] at hrun
      simp only [Param.Res.bind] at hrun
      obtain ⟨y, hy, _, _, hlv⟩ := param_quantum e hdt (by omega) hq k2 ht.head.2 hpr hc
      obtain ⟨n, hn, _⟩ := ht.head.2
      obtain ⟨n', m1, m2, m3⟩ := k7 i n _ hn hy hlv (hsp b (by simp))
      -- messages
      have hmsg : ∀ (l : List (SMsg K X)) (p0 : Param.Proc K K) (ops : List (Param.Op K K)) (pr : SProc K Q),
          RGraph.foldOpt e.onmessage l (.param dflt mn mx p0) = some pr → ∀ fr,
          ∃ p1, pr = .param dflt mn mx p1 ∧ Param.run (e.A mn mx) e.dt e.c.N ⟨p0, fr⟩ (l.filterMap SMsg.paramOp ++ ops) =
            Param.run (e.A mn mx) e.dt e.c.N ⟨p1, fr⟩ ops := by
        intro l
        induction l with
        | nil => intro p0 ops pr h fr; simp only [RGraph.foldOpt, Option.some.injEq] at h; exact ⟨p0, h.symm, rfl⟩
        | cons m l ihl =>
          intro p0 ops pr h fr
          simp only [RGraph.foldOpt] at h
          cases m with
          | event ev =>
            simp only [Studio.onmessage] at h
            cases hh : Param.handle p0 ev with
            | ok p1 =>
              rw [hh] at h
              simp only [resOpt, Option.map_some] at h
              obtain ⟨p2, a1, a2⟩ := ihl p1 ops pr h fr
              refine ⟨p2, a1, ?_⟩
              simp only [List.filterMap_cons, SMsg.paramOp, List.cons_append, Param.run, Param.step, hh, Param.Res.bind]
              exact a2
            | panic => rw [hh] at h; simp [resOpt] at h
            | fuel => rw [hh] at h; simp [resOpt] at h
          | rate a =>
            simp only [Studio.onmessage] at h
            obtain ⟨p2, a1, a2⟩ := ihl _ ops pr h fr
            refine ⟨p2, a1, ?_⟩
            simp only [List.filterMap_cons, SMsg.paramOp, List.cons_append, Param.run, Param.step, Param.Res.bind]
            exact a2
          | _ => exact ihl p0 ops pr h fr
      obtain ⟨p2, a1, a2⟩ := hmsg (mail i b) p' (.block :: (bs.map (mail i)).flatMap fun b => b.filterMap SMsg.paramOp ++ [.block])
        n'.proc m3 (f + e.c.N)
      have hrun2 : Param.run (e.A mn mx) e.dt e.c.N ⟨p2, f + 128⟩ (paramOps (bs.map (mail i))) = .ok s := by
        rw [hN] at a2 hrun ⊢
        rw [show paramOps (bs.map (mail i)) = Param.Op.block ::
          (bs.map (mail i)).flatMap fun b => b.filterMap SMsg.paramOp ++ [.block] from rfl, ← a2, ← hrun]
        simp
      have hpr2 : ∀ m, g2.slot i = some m → m.proc = .param dflt mn mx p2 := by
        intro m hm
        rw [m1] at hm; cases hm
        exact a1
      have := ih k6 (ht.tail k3 k4) (fun b' hb' => hsp b' (by simp [hb'])) hpr2 k5 hrun2
      rwa [show f + 128 + 128 * bs.length = f + 128 * (b :: bs).length by simp; omega] at this
    | panic => rw [hc] at hrun; cases hrun
    | fuel => rw [hc] at hrun; cases hrun

/-! ## A source -/

/-- quantum of a source -/
theorem source_quantum (e : Studio K Q X) {f : Nat} {g : RGraph (SProc K Q) (MSig K e.c.N)} {ks : List Nat}
    {r : Results (SProc K Q) (MSig K e.c.N)} (hs : Solves (e.timed.at f) g ks r) {i : Nat} (hp : SourceIn g i)
    {ir : Q → Nat → Prop} {p p' : SProc K Q} (hpr : ∀ n, g.slot i = some n → n.proc = p) {vals : Nat → List K}
    (hv : ∀ j, sreads ir p j → ∃ y, seen (e.timed.at f) g ks r i j = some y ∧ seenVals y = vals j) {z : MSig K e.c.N}
    (h : e.plays f vals p = some (p', z)) :
    ∃ tail, r i = some (p', [z], tail) ∧ leaves (e.timed.at f) g ks r i = false ∧ ∀ j, sreads ir p' j ↔ sreads ir p j := by
  obtain ⟨n, hn, h1, h2⟩ := hp
  obtain ⟨o, ho⟩ := List.length_eq_one_iff.1 h1
  have hr := hs.eq i n hn
  rw [hpr n hn, ho, show (e.timed.at f).process = e.process f from rfl] at hr
  have key : ∃ tail, r i = some (p', [z], tail) ∧ ∀ j, sreads ir p' j ↔ sreads ir p j := by
    cases p with
    | const s of =>
      obtain ⟨y, hy, hy2⟩ := hv of rfl
      simp only [Studio.plays, Option.map_eq_some_iff, Prod.mk.injEq] at h
      obtain ⟨q, hq, rfl, rfl⟩ := h
      simp only [Studio.process, hy, Option.bind_some, hy2, hq, Option.map_some] at hr
      exact ⟨_, hr, fun j => Iff.rfl⟩
    | osc s fr de =>
      obtain ⟨y, hy, hy2⟩ := hv fr (.inl rfl)
      obtain ⟨y', hy', hy2'⟩ := hv de (.inr rfl)
      simp only [Studio.plays, Option.bind_eq_some_iff, Option.map_eq_some_iff, Prod.mk.injEq] at h
      obtain ⟨x, hx, q, hq, rfl, rfl⟩ := h
      simp only [Studio.process, hy, hy', Option.bind_some, hy2, hy2', hx, hq, Option.map_some] at hr
      exact ⟨_, hr, fun j => Iff.rfl⟩
    | buffer b s ra de =>
      obtain ⟨y, hy, hy2⟩ := hv ra (.inl rfl)
      obtain ⟨y', hy', hy2'⟩ := hv de (.inr rfl)
      simp only [Studio.plays, Option.bind_eq_some_iff, Option.map_eq_some_iff, Prod.mk.injEq] at h
      obtain ⟨x, hx, q, hq, rfl, rfl⟩ := h
      simp only [Studio.process, hy, hy', Option.bind_some, first, hy2, hy2', hx, hq, Option.map_some] at hr
      exact ⟨_, hr, fun j => Iff.rfl⟩
    | destination => cases h
    | param d mn mx p => cases h
    | gain p => cases h
    | other q => cases h
  obtain ⟨tail, hk, hk2⟩ := key
  exact ⟨tail, hk, by simp [leaves, hn, hk, h2], hk2⟩

theorem foldOpt_reads (e : Studio K Q X) {ir : Q → Nat → Prop} : ∀ (l : List (SMsg K X)) {p p' : SProc K Q} {f : Nat}
    {vals : Nat → List K} {x : SProc K Q × MSig K e.c.N}, e.plays f vals p = some x → RGraph.foldOpt e.onmessage l x.1 = some p' →
    ∀ j, sreads ir p' j ↔ sreads ir p j := by
  have step : ∀ {p p' : SProc K Q} {m : SMsg K X}, ((∃ s o, p = .const s o) ∨ (∃ s a b, p = .osc s a b) ∨ ∃ b s a d, p = .buffer b s a d) →
      e.onmessage p m = some p' → ((∃ s o, p' = .const s o) ∨ (∃ s a b, p' = .osc s a b) ∨ ∃ b s a d, p' = .buffer b s a d) ∧
        ∀ j, sreads ir p' j ↔ sreads ir p j := by
    rintro p p' m (⟨s, o, rfl⟩ | ⟨s, a, b, rfl⟩ | ⟨b, s, a, d, rfl⟩) h
    all_goals
      cases m <;> simp only [Studio.onmessage, Option.some.injEq] at h <;> subst h <;>
        exact ⟨by simp, fun j => Iff.rfl⟩
  have all : ∀ (l : List (SMsg K X)) {p p' : SProc K Q},
      ((∃ s o, p = .const s o) ∨ (∃ s a b, p = .osc s a b) ∨ ∃ b s a d, p = .buffer b s a d) →
      RGraph.foldOpt e.onmessage l p = some p' → ∀ j, sreads ir p' j ↔ sreads ir p j := by
    intro l
    induction l with
    | nil => intro p p' _ h j; simp only [RGraph.foldOpt, Option.some.injEq] at h; rw [h]
    | cons m l ih =>
      intro p p' hp h j
      simp only [RGraph.foldOpt] at h
      cases hm : e.onmessage p m with
      | none => rw [hm] at h; cases h
      | some p1 =>
        rw [hm] at h
        obtain ⟨a, b⟩ := step hp hm
        rw [ih a h j, b j]
  intro l p p' f vals x hx h j
  cases p with
  | const s of =>
    simp only [Studio.plays, Option.map_eq_some_iff] at hx
    obtain ⟨q, hq, rfl⟩ := hx
    exact all l (.inl ⟨_, _, rfl⟩) h j
  | osc s fr de =>
    simp only [Studio.plays, Option.bind_eq_some_iff, Option.map_eq_some_iff] at hx
    obtain ⟨_, _, q, hq, rfl⟩ := hx
    exact all l (.inr (.inl ⟨_, _, _, rfl⟩)) h j
  | buffer b s ra de =>
    simp only [Studio.plays, Option.bind_eq_some_iff, Option.map_eq_some_iff] at hx
    obtain ⟨_, _, q, hq, rfl⟩ := hx
    exact all l (.inr (.inr ⟨_, _, _, _, rfl⟩)) h j
  | destination => cases hx
  | param d mn mx p => cases hx
  | gain p => cases hx
  | other q => cases hx

/-- a source in a history of the graph is what it is alone, if its parameters have the given values -/
theorem source_at (e : Studio K Q X) {ir : Q → Nat → Prop} (hin : Reads e.inner ir) {i : Nat} {vals : Nat → Nat → List K} :
    ∀ (bs : List (List (Msg (SProc K Q) (SMsg K X)))) {f k : Nat} {g gk : RGraph (SProc K Q) (MSig K e.c.N)} {p : SProc K Q}
      {z : MSig K e.c.N},
    Throughout e.timed f g bs (fun g => Fit (sreads ir) g ∧ SourceIn g i) → (∀ b ∈ bs, Spares i b) →
    (∀ n, g.slot i = some n → n.proc = p) → stage e.timed f g bs = some gk →
    (∀ bs' g', bs' <+: bs → stage e.timed f g bs' = some g' → ∀ ks r, Solves (e.timed.at (f + 128 * bs'.length)) g' ks r →
      ∀ j, sreads ir p j → ∃ y, seen (e.timed.at (f + 128 * bs'.length)) g' ks r i j = some y ∧
        seenVals y = vals (k + bs'.length) j) →
    e.played vals f k p (bs.map (mail i)) = some z →
    ∀ ks r, Solves (e.timed.at (f + 128 * bs.length)) gk ks r → ∃ p' tail, r i = some (p', [z], tail) ∧
      ∀ b vals', (∀ i, i ≤ k + bs.length → vals' i = vals i) → (e.played vals' f k p (bs.map (mail i) ++ [b])).isSome →
        (RGraph.foldOpt e.onmessage b p').isSome := by
  intro bs
  induction bs with
  | nil =>
    intro f k g gk p z ht hsp hpr hst hv hpl ks r hs
    simp only [stage, Option.some.injEq] at hst
    subst hst
    simp only [List.map_nil, Studio.played, Option.map_eq_some_iff] at hpl
    obtain ⟨⟨p', z'⟩, hp', rfl⟩ := hpl
    obtain ⟨tail, h1, _⟩ := source_quantum e hs ht.head.2 (ir := ir) hpr (hv [] g List.nil_prefix rfl ks r hs) hp'
    refine ⟨p', tail, h1, fun b vals' he hb => ?_⟩
    simp only [List.map_nil, List.nil_append, Studio.played, he k (by simp), hp', Option.bind_some] at hb
    cases hf : RGraph.foldOpt e.onmessage b p' with
    | some x => rfl
    | none => rw [hf] at hb; cases hb
  | cons b bs ih =>
    intro f k g gk p z ht hsp hpr hst hv hpl
    obtain ⟨ks, r, g1, g2, o, _, k2, k3, k4, k5, k6, _, k7⟩ := stage_cons (e.reads hin) ht.head.1 hst
    simp only [List.map_cons, Studio.played, Option.bind_eq_some_iff] at hpl
    obtain ⟨⟨p', z'⟩, hp', p2, hp2, hpl⟩ := hpl
    obtain ⟨tail, h1, h2, h3⟩ := source_quantum e k2 ht.head.2 (ir := ir) hpr
      (hv [] g List.nil_prefix rfl ks r k2) hp'
    obtain ⟨n, hn, _⟩ := ht.head.2
    obtain ⟨n', m1, m2, m3⟩ := k7 i n _ hn h1 h2 (hsp b (by simp))
    have hpp : n'.proc = p2 := by
      have : RGraph.foldOpt e.onmessage (mail i b) p' = some n'.proc := m3
      rw [hp2] at this
      exact (Option.some.inj this).symm
    have hrd := foldOpt_reads e (ir := ir) (mail i b) hp' hp2
    have := ih (k := k + 1) (ht.tail k3 k4) (fun b' hb' => hsp b' (by simp [hb']))
      (fun m hm => by rw [m1] at hm; cases hm; exact hpp) k5
      (fun bs' g' hpre hst' ks' r' hs' j hj => by
        have hst2 : stage e.timed f g (b :: bs') = some g' := by
          simp only [stage, k3, k4, Option.bind_some, hst']
        have := hv (b :: bs') g' (List.cons_prefix_cons.2 ⟨rfl, hpre⟩) hst2 ks' r'
        rw [show f + 128 * (b :: bs').length = f + 128 + 128 * bs'.length by simp; omega,
          show k + (b :: bs').length = k + 1 + bs'.length by simp; omega] at this
        exact this hs' j ((hrd j).1 hj)) hpl
    rw [show f + 128 + 128 * bs.length = f + 128 * (b :: bs).length by simp; omega] at this
    intro ks' r' hs'
    obtain ⟨q, tail, q1, q2⟩ := this ks' r' hs'
    refine ⟨q, tail, q1, fun b' vals' he hb' => q2 b' vals' (fun i hi => he i (by simp only [List.length_cons]; omega)) ?_⟩
    simpa only [List.map_cons, List.cons_append, Studio.played, he k (by omega), hp', hp2, Option.bind_some] using hb'

/-! ## The gain -/

theorem fr_silence (f : Nat) : fr (Node.silence : Sig K) f = [0] := by
  simp [fr, Node.silence, at']

/-- the first signal that arrives at an input with mode `max` is taken as it is -/
theorem first_input (e : Studio K Q X) (c : Cfg) (hc : c.mode = 0) (z : MSig K e.c.N) :
    (e.timed.base.add c e.timed.base.silence z).q.length = z.q.length ∧
    ∀ k j, j < e.c.N → Node.sample (e.timed.base.add c e.timed.base.silence z).q k j = Node.sample z.q k j := by
  have hz : 0 < z.q.length := List.length_pos_of_ne_nil z.full.1
  have hsc : sumCount c (Node.silence : Sig K) z.q = z.q.length := by
    unfold sumCount
    rw [hc]
    show Nat.max 1 z.q.length = _
    exact Nat.max_eq_right hz
  have hadd : (e.timed.base.add c e.timed.base.silence z).q = addSig e.c.N e.c.r c Node.silence z.q := by
    simp only [Studio.timed]
    rw [dif_pos (by omega)]
  rw [hadd]
  refine ⟨by rw [addSig_length _ _ _ (silence_full e.c.N).1 z.full.1, hsc], fun k j hj => ?_⟩
  rw [sample_fr, addSig_fr _ _ _ (silence_full e.c.N).1 z.full.1 hj, hsc, sample_fr, fr_silence]
  have h1 : Mix.mixF e.c.r (interpOf c.interp) z.q.length [0] = List.replicate z.q.length 0 :=
    Mix.mixF_zeros e.c.r (interpOf c.interp) 1 z.q.length
  have h2 : Mix.mixF e.c.r (interpOf c.interp) z.q.length (fr z.q j) = fr z.q j := by
    have := Mix.mixF_self e.c.r (interpOf c.interp) (fr z.q j)
    rwa [fr_length] at this
  rw [h1, h2]
  congr 1
  refine List.ext_getElem? fun k => ?_
  rw [List.getElem?_zipWith]
  by_cases hk : k < z.q.length
  · have hk' : k < (fr z.q j).length := by rwa [fr_length]
    simp [hk, hk']
  · have hk' : ¬ k < (fr z.q j).length := by rwa [fr_length]
    simp [hk, hk']

/-- quantum of a gain node with one source -/
theorem gain_quantum (e : Studio K Q X) (h0 : 0 ≤ e.c.thr) {f : Nat} {g : RGraph (SProc K Q) (MSig K e.c.N)} {ks : List Nat}
    {r : Results (SProc K Q) (MSig K e.c.N)} (hq : Quiet e.timed g) (hl : Lists g ks) (hs : Solves (e.timed.at f) g ks r)
    {src i p : Nat} (hp : GainIn g src i) (hpr : ∀ n, g.slot i = some n → n.proc = .gain p) (hsrc : SourceIn g src)
    {ps : SProc K Q} {z : MSig K e.c.N} {t : Bool} (hz : r src = some (ps, [z], t)) {y : MSig K e.c.N}
    (hy : seen (e.timed.at f) g ks r i p = some y) (hlen : (seenVals y).length = 1 ∨ (seenVals y).length = e.c.N) :
    ∃ w, r i = some (.gain p, [w], false) ∧ Shape z.q.length w.q ∧ ∀ c j, j < e.c.N →
      |Node.sample w.q c j - Node.sample z.q c j * Node.gainAt (seenVals y) j| ≤ e.c.thr * |Node.sample z.q c j| := by
  obtain ⟨n, hn, h1, h2, h3, h4, h5⟩ := hp
  obtain ⟨m, hm, _⟩ := hsrc
  obtain ⟨a, ha⟩ := List.length_eq_one_iff.1 h1
  obtain ⟨o, ho⟩ := List.length_eq_one_iff.1 h2
  have hin : inputsOf (e.timed.at f) g ks r i n = [e.timed.base.add n.cfg e.timed.base.silence z] := by
    unfold inputsOf
    rw [ha]
    simp only [List.mapIdx_cons, List.mapIdx_nil, arriving_one hl hm h5 hz rfl, List.foldl_cons, List.foldl_nil]
    rw [hq i n hn a (by rw [ha]; simp)]
    rfl
  obtain ⟨f1, f2⟩ := first_input e n.cfg h4 z
  have hr := hs.eq i n hn
  rw [hpr n hn, hin, ho, show (e.timed.at f).process = e.process f from rfl] at hr
  generalize e.timed.base.add n.cfg e.timed.base.silence z = x at hr f1 f2
  simp only [Studio.process, hy, Option.map_some] at hr
  refine ⟨_, hr, ?_, ?_⟩
  · have := (gain_full_shape (n := z.q.length) e.c.thr (seenVals y) x.full (.inl f1)).2
    exact this
  · intro c j hj
    have := Node.C40_gain h0 hlen x.q c j hj
    rw [f2 c j hj] at this
    exact this

/-- the processor of a gain node stays as it is -/
theorem gain_at (e : Studio K Q X) {ir : Q → Nat → Prop} (hin : Reads e.inner ir) {src i p : Nat} :
    ∀ (bs : List (List (Msg (SProc K Q) (SMsg K X)))) {f : Nat} {g gk : RGraph (SProc K Q) (MSig K e.c.N)},
    Throughout e.timed f g bs (fun g => Fit (sreads ir) g ∧ GainIn g src i) → (∀ b ∈ bs, Spares i b) →
    (∀ n, g.slot i = some n → n.proc = .gain p) → stage e.timed f g bs = some gk →
    ∀ n, gk.slot i = some n → n.proc = .gain p := by
  intro bs
  induction bs with
  | nil =>
    intro f g gk _ _ hpr hst
    simp only [stage, Option.some.injEq] at hst
    exact hst ▸ hpr
  | cons b bs ih =>
    intro f g gk ht hsp hpr hst
    obtain ⟨ks, r, g1, g2, o, _, k2, k3, k4, k5, _, k6, k7⟩ := stage_cons (e.reads hin) ht.head.1 hst
    have ht2 := ht.tail k3 k4
    obtain ⟨n, hn, h1, h2, h3, _⟩ := ht.head.2
    obtain ⟨n2, hn2, _⟩ := ht2.head.2
    have hr := k2.eq i n hn
    rw [hpr n hn, show (e.timed.at f).process = e.process f from rfl] at hr
    refine ih ht2 (fun b' hb' => hsp b' (by simp [hb'])) ?_ k5
    cases hx : r i with
    | none => rw [k6 i hx (hsp b (by simp))] at hn2; cases hn2
    | some x =>
      have hx1 : x.1 = .gain p := by
        rw [hx] at hr
        generalize inputsOf (e.timed.at f) g ks r i n = ins at hr
        generalize n.outputs = outs at hr
        cases ins with
        | nil => cases outs <;> cases hr
        | cons a l =>
          cases outs with
          | nil => cases hr
          | cons q os =>
            simp only [Studio.process] at hr
            have hr := hr.symm
            rw [Option.map_eq_some_iff] at hr
            obtain ⟨s, _, hs⟩ := hr
            rw [← hs]
      obtain ⟨n', m1, _, m3⟩ := k7 i n x hn hx (by simp [leaves, hn, hx, h3]) (hsp b (by simp))
      intro m hm
      rw [m1] at hm; cases hm
      have : ∀ (l : List (SMsg K X)) (q : SProc K Q), RGraph.foldOpt e.onmessage l (.gain p) = some q → q = .gain p := by
        intro l
        induction l with
        | nil => intro q h; simp only [RGraph.foldOpt, Option.some.injEq] at h; exact h.symm
        | cons a l ihl => intro q h; exact ihl q h
      exact this (mail i b) _ (by rw [← hx1]; exact m3)

/-! ## A note -/

theorem paramOps_append (bs bs' : List (List (SMsg K X))) :
    paramOps (bs ++ bs') = paramOps bs ++ bs'.flatMap fun b => b.filterMap SMsg.paramOp ++ [.block] := by
  simp [paramOps, List.flatMap_append]

/-- what can be computed to the end can be computed to each quantum before -/
theorem Par.values_prefix {e : Studio K Q X} {a : Par K} {f : Nat} {bs bs' : List (List (SMsg K X))} (hp : bs' <+: bs)
    (h : (a.values e f bs).isSome) : ∃ s, Param.run (e.A a.mn a.mx) e.dt e.c.N ⟨a.proc, f⟩ (paramOps bs') = .ok s ∧
      a.values e f bs' = some (paramSeen a.mn a.mx s.p) := by
  obtain ⟨l, rfl⟩ := hp
  unfold Par.values at h ⊢
  rw [paramOps_append, Param.run_append] at h
  cases hr : Param.run (e.A a.mn a.mx) e.dt e.c.N ⟨a.proc, f⟩ (paramOps bs') with
  | ok s => exact ⟨s, rfl, rfl⟩
  | panic => rw [hr] at h; simp [Param.Res.bind, resOpt] at h
  | fuel => rw [hr] at h; simp [Param.Res.bind, resOpt] at h

theorem Throughout.mono {P S M : Type} {t : Timed P S M} {f : Nat} {g : RGraph P S} {bs : List (List (Msg P M))} {Q Q' : RGraph P S → Prop}
    (h : Throughout t f g bs Q) (hq : ∀ g, Q g → Q' g) : Throughout t f g bs Q' :=
  fun bs' g' hp hs => hq g' (h bs' g' hp hs)

theorem Throughout.prefix {P S M : Type} {t : Timed P S M} {f : Nat} {g : RGraph P S} {bs bs' : List (List (Msg P M))}
    {Q : RGraph P S → Prop} (h : Throughout t f g bs Q) (hp : bs' <+: bs) : Throughout t f g bs' Q :=
  fun bs'' g' hp' hs => h bs'' g' (hp'.trans hp) hs

/-- what a gain or source node reads of a parameter -/
theorem seen_param (e : Studio K Q X) {f : Nat} {g : RGraph (SProc K Q) (MSig K e.c.N)} {ks : List Nat}
    {r : Results (SProc K Q) (MSig K e.c.N)} {i j : Nat} (hne : j ≠ i) {p : SProc K Q} {y : MSig K e.c.N} {t : Bool}
    (h1 : r j = some (p, [y], t)) (h2 : leaves (e.timed.at f) g ks r j = false) : seen (e.timed.at f) g ks r i j = some y := by
  simp [seen, hne, h2, h1]

/-- a note in a history of the graph: the output of the gain node is the wave times the envelope -/
theorem note_at (e : Studio K Q X) (hsr : 0 < e.sr) (hN : e.c.N = 128) (h0 : 0 ≤ e.c.thr) {ir : Q → Nat → Prop}
    (hin : Reads e.inner ir) {v : Note K Q} {bs : List (List (Msg (SProc K Q) (SMsg K X)))} {f : Nat}
    {g gk : RGraph (SProc K Q) (MSig K e.c.N)} (hq : Quiet e.timed g)
    (ht : Throughout e.timed f g bs fun g => Fit (sreads ir) g ∧ v.Sits g) (hsp : ∀ b ∈ bs, ∀ i ∈ v.ids, Spares i b)
    (hb : v.Begins ir g) (hst : stage e.timed f g bs = some gk)
    (hpar : ∀ a ∈ v.params, (a.values e f (bs.map (mail a.id))).isSome) {z : MSig K e.c.N} (hz : v.wave e f bs = some z)
    {l : List K} (hl : v.level e f bs = some l) {ks : List Nat} (hks : Lists gk ks) {r : Results (SProc K Q) (MSig K e.c.N)}
    (hs : Solves (e.timed.at (f + 128 * bs.length)) gk ks r) :
    (∃ w, r v.gain = some (.gain v.env.id, [w], false) ∧ Shape z.q.length w.q ∧ ∀ c j, j < e.c.N →
      |Node.sample w.q c j - Node.sample z.q c j * Node.gainAt l j| ≤ e.c.thr * |Node.sample z.q c j|) ∧
    (∃ ps tail, r v.src = some (ps, [z], tail) ∧
      ∀ b vals', (∀ i, i ≤ bs.length → vals' i = v.vals e f bs i) →
        (e.played vals' f 0 v.proc (bs.map (mail v.src) ++ [b])).isSome → (RGraph.foldOpt e.onmessage b ps).isSome) ∧
    ∀ a ∈ v.env :: v.params, ∃ s y, r a.id = some (.param a.dflt a.mn a.mx s.p, [y], true) ∧
      Param.run (e.A a.mn a.mx) e.dt e.c.N ⟨a.proc, f⟩ (paramOps (bs.map (mail a.id))) = .ok s := by
  have hdt : 0 < e.dt := one_div_pos.2 hsr
  have hall : ∀ a ∈ v.env :: v.params, (a.values e f (bs.map (mail a.id))).isSome := by
    intro a ha
    rcases List.mem_cons.1 ha with rfl | ha
    · rw [show v.env.values e f (bs.map (mail v.env.id)) = some l from hl]; rfl
    · exact hpar a ha
  -- parameters in every quantum
  have hp : ∀ a ∈ v.env :: v.params, ∀ bs' g', bs' <+: bs → stage e.timed f g bs' = some g' → Quiet e.timed g' ∧
      ∀ ks r, Solves (e.timed.at (f + 128 * bs'.length)) g' ks r → ∃ s y l', r a.id = some (.param a.dflt a.mn a.mx s.p, [y], true) ∧
        Param.run (e.A a.mn a.mx) e.dt e.c.N ⟨a.proc, f⟩ (paramOps (bs'.map (mail a.id))) = .ok s ∧ a.values e f (bs'.map (mail a.id)) = some l' ∧ seenVals y = l' ∧
        ((seenVals y).length = 1 ∨ (seenVals y).length = e.c.N) ∧
        leaves (e.timed.at (f + 128 * bs'.length)) g' ks r a.id = false := by
    intro a ha bs' g' hpre hst'
    obtain ⟨s, h1, h2⟩ := Par.values_prefix (e := e) (a := a) (f := f) (hpre.map (mail a.id)) (hall a ha)
    have := param_at e hdt hN hin bs' hq ((ht.prefix hpre).mono fun g h => ⟨h.1, h.2.params a ha⟩)
      (fun b hb' => hsp b (hpre.subset hb') a.id (by unfold Note.ids; simp only [List.mem_cons, List.mem_map]; exact .inr (.inr ⟨a, by simpa using ha, rfl⟩)))
      (hb.params a ha) hst' h1
    refine ⟨this.1, fun ks r hs => ?_⟩
    obtain ⟨y, k1, k2, k3, k4⟩ := this.2 ks r hs
    exact ⟨s, y, _, k1, h1, h2, k2, k3, k4⟩
  -- ids of parameters differ from those of the source and the gain node
  have hsits := (ht.head).2
  have hneS : ∀ a ∈ v.env :: v.params, a.id ≠ v.src := by
    intro a ha hc
    obtain ⟨n, hn, _⟩ := hsits.params a ha
    have h1 := hb.params a ha n hn
    have h2 := hb.source n (hc ▸ hn)
    have hz' := hz
    unfold Note.wave at hz'
    rw [← h2, h1] at hz'
    cases hbs : bs.map (mail v.src) with
    | nil => rw [hbs] at hz'; simp [Studio.played, Studio.plays] at hz'
    | cons b l => rw [hbs] at hz'; simp [Studio.played, Studio.plays] at hz'
  have hneG : v.env.id ≠ v.gain := by
    intro hc
    obtain ⟨n, hn, _⟩ := hsits.params v.env (by simp)
    have h1 := hb.params v.env (by simp) n hn
    have h2 := hb.gain n (hc ▸ hn)
    rw [h1] at h2; cases h2
  -- the source
  obtain ⟨ps, tail, hsrc, hgo⟩ := source_at e hin (ir := ir) (vals := v.vals e f bs) bs (k := 0) (ht.mono fun g h => ⟨h.1, h.2.source⟩)
    (fun b hb' => hsp b hb' v.src (by simp [Note.ids])) hb.source hst
    (by
      intro bs' g' hpre hst' ks' r' hs' j hj
      obtain ⟨a0, ha0, hid⟩ := hb.reads j hj
      have hf : (v.params.find? fun a => a.id == j).isSome := by
        rw [List.find?_isSome]
        exact ⟨a0, ha0, by simp [hid]⟩
      obtain ⟨a, haf⟩ := Option.isSome_iff_exists.1 hf
      have ha : a ∈ v.params := List.mem_of_find?_eq_some haf
      have haj : a.id = j := by simpa using List.find?_some haf
      obtain ⟨_, h2⟩ := hp a (by simp [ha]) bs' g' hpre hst'
      obtain ⟨p, y, l', k1, _, k2, k3, _, k5⟩ := h2 ks' r' hs'
      refine ⟨y, ?_, ?_⟩
      · rw [← haj]
        exact seen_param e (hneS a (by simp [ha])) k1 k5
      · have hpre' : bs.take bs'.length = bs' := (List.prefix_iff_eq_take.1 hpre).symm
        simp only [Note.vals, haf, Nat.zero_add, hpre', k2, Option.getD_some, k3])
    hz ks r hs
  obtain ⟨hqk, henv⟩ := hp v.env (by simp) bs gk (List.prefix_refl _) hst
  obtain ⟨p, y, l', k1, _, k2, k3, k4, k5⟩ := henv ks r hs
  have hll : l' = l := by
    have : v.env.values e f (bs.map (mail v.env.id)) = some l := hl
    rw [k2] at this
    exact Option.some.inj this
  have hg := gain_at e hin bs (ht.mono fun g h => ⟨h.1, h.2.gain⟩) (fun b hb' => hsp b hb' v.gain (by simp [Note.ids])) hb.gain hst
  have hend := ht bs gk (List.prefix_refl _) hst
  obtain ⟨w, w1, w2, w3⟩ := gain_quantum e h0 hqk hks hs hend.2.gain hg hend.2.source hsrc (seen_param e hneG k1 k5) k4
  rw [k3, hll] at w3
  refine ⟨⟨w, w1, w2, w3⟩, ⟨ps, tail, hsrc, fun b vals' h => hgo b vals' fun i hi => h i (by omega)⟩, fun a ha => ?_⟩
  obtain ⟨_, h2⟩ := hp a ha bs gk (List.prefix_refl _) hst
  obtain ⟨s, y, _, k1, k2, _⟩ := h2 ks r hs
  exact ⟨s, y, k1, k2⟩

/-! ## The destination -/

/-- the sum at an input with a fixed number of channels -/
theorem explicit_input (e : Studio K Q X) {c : Cfg} (hm : c.mode = 2) (hc : 0 < c.count) : ∀ (l : List (MSig K e.c.N)) (a : MSig K e.c.N),
    (l ≠ [] → (l.foldl (e.timed.base.add c) a).q.length = c.count) ∧ ∀ k j, j < e.c.N →
      (Mix.mixF e.c.r (interpOf c.interp) c.count (fr (l.foldl (e.timed.base.add c) a).q j)).getD k 0 =
        (Mix.mixF e.c.r (interpOf c.interp) c.count (fr a.q j)).getD k 0 +
          (l.map fun s => (Mix.mixF e.c.r (interpOf c.interp) c.count (fr s.q j)).getD k 0).sum := by
  intro l
  induction l with
  | nil => intro a; exact ⟨fun h => absurd rfl h, fun k j _ => by simp⟩
  | cons b l ih =>
    intro a
    have hsc : sumCount c a.q b.q = c.count := by simp [sumCount, hm, modeOf, Mix.newCount]
    have hadd : (e.timed.base.add c a b).q = addSig e.c.N e.c.r c a.q b.q := by
      simp only [Studio.timed]
      rw [dif_pos (by omega)]
    have hlen : (e.timed.base.add c a b).q.length = c.count := by
      rw [hadd, addSig_length _ _ _ a.full.1 b.full.1, hsc]
    obtain ⟨h1, h2⟩ := ih (e.timed.base.add c a b)
    refine ⟨fun _ => ?_, fun k j hj => ?_⟩
    · rw [List.foldl_cons]
      cases l with
      | nil => exact hlen
      | cons b' l => exact h1 (by simp)
    · rw [List.foldl_cons, h2 k j hj, List.map_cons, List.sum_cons, ← add_assoc]
      congr 1
      have hself : Mix.mixF e.c.r (interpOf c.interp) c.count (fr (e.timed.base.add c a b).q j) = fr (e.timed.base.add c a b).q j := by
        have := Mix.mixF_self e.c.r (interpOf c.interp) (fr (e.timed.base.add c a b).q j)
        rwa [fr_length, hlen] at this
      rw [hself, hadd, addSig_fr _ _ _ a.full.1 b.full.1 hj, hsc,
        Mix.getD_zipWith_add _ _ (by rw [Mix.mixF_length, Mix.mixF_length])]

theorem flatMap_filter_of_nil {α β : Type} (F : α → List β) (p : α → Bool) : ∀ (l : List α), (∀ u, p u = false → F u = []) →
    l.flatMap F = (l.filter p).flatMap F := by
  intro l h
  induction l with
  | nil => rfl
  | cons u l ih =>
    rw [List.flatMap_cons, ih, List.filter_cons]
    cases hu : p u with
    | false => rw [h u hu]; simp
    | true => simp

/-- quantum of the destination: both channels are the sum of the mono signals that the gain nodes put out -/
theorem dest_quantum (e : Studio K Q X) {f : Nat} {g : RGraph (SProc K Q) (MSig K e.c.N)} {ks : List Nat}
    {r : Results (SProc K Q) (MSig K e.c.N)} (hq : Quiet e.timed g) (hl : Lists g ks) (hs : Solves (e.timed.at f) g ks r)
    {gains : List Nat} (hd : DestIn g gains) (hnd : gains.Nodup) {w : Nat → MSig K e.c.N}
    (hw : ∀ i ∈ gains, ∃ p t, r i = some (p, [w i], t) ∧ Shape 1 (w i).q) :
    ∃ y, r 0 = some (.destination, [y], true) ∧ leaves (e.timed.at f) g ks r 0 = false ∧
      ∀ k j, k < 2 → j < e.c.N → Node.sample y.q k j = (gains.map fun i => Node.sample (w i).q 0 j).sum := by
  obtain ⟨n, hn, h1, h2, h3, h4, h5, h6⟩ := hd
  obtain ⟨a, ha⟩ := List.length_eq_one_iff.1 h2
  obtain ⟨o, ho⟩ := List.length_eq_one_iff.1 h3
  -- what arrives
  have hF : ∀ u, sends g r 0 0 u = if u ∈ gains then [w u] else [] := by
    intro u
    rw [sends_into, h6 u]
    by_cases hu : u ∈ gains
    · obtain ⟨p, t, hr, _⟩ := hw u hu
      simp [hu, hr]
    · rw [if_neg hu, if_neg hu]
      cases r u <;> rfl
  have hperm : (ks.filter fun u => decide (u ∈ gains)).Perm gains := by
    rw [List.perm_ext_iff_of_nodup (hl.1.filter _) hnd]
    intro u
    rw [List.mem_filter]
    constructor
    · intro h; simpa using h.2
    · intro h
      refine ⟨?_, by simpa using h⟩
      obtain ⟨p, t, hr, _⟩ := hw u h
      rw [hl.2]
      cases hs' : g.slot u with
      | none => rw [hs.none u hs'] at hr; cases hr
      | some _ => rfl
  have harr : (arriving g ks r 0 0).Perm (gains.map w) := by
    unfold arriving
    rw [flatMap_filter_of_nil _ (fun u => decide (u ∈ gains)) ks (fun u hu => by rw [hF, if_neg (by simpa using hu)])]
    have := hperm.flatMap_right (sends g r 0 0)
    refine this.trans ?_
    have : gains.flatMap (sends g r 0 0) = gains.map w := by
      rw [← List.flatMap_pure_eq_map]
      refine List.flatMap_congr fun u hu => ?_
      rw [hF, if_pos hu]
      rfl
    rw [this]
  have hin : inputsOf (e.timed.at f) g ks r 0 n = [(arriving g ks r 0 0).foldl (e.timed.base.add n.cfg) e.timed.base.silence] := by
    unfold inputsOf
    rw [ha]
    simp only [List.mapIdx_cons, List.mapIdx_nil]
    rw [hq 0 n hn a (by rw [ha]; simp)]
    rfl
  obtain ⟨x1, x2⟩ := explicit_input e (c := n.cfg) (by rw [h5]) (by rw [h5]; decide) (arriving g ks r 0 0) e.timed.base.silence
  have hr := hs.eq 0 n hn
  rw [h1, hin, ho, show (e.timed.at f).process = e.process f from rfl] at hr
  generalize hx : (arriving g ks r 0 0).foldl (e.timed.base.add n.cfg) e.timed.base.silence = x at hr x1 x2
  simp only [Studio.process] at hr
  refine ⟨x, hr, by simp [leaves, hn, hr, h4], fun k j hk hj => ?_⟩
  have hsum := x2 k j hj
  rw [(harr.map _).sum_eq, h5] at hsum
  have hmono : ∀ y : MSig K e.c.N, Shape 1 y.q → (Mix.mixF e.c.r (interpOf 0) 2 (fr y.q j)).getD k 0 = Node.sample y.q 0 j := by
    intro y hy
    rw [mixF_norm e.c.r (interpOf 0) 2 hy]
    have : norm 1 y.q j = [Node.sample y.q 0 j] := rfl
    rw [this]
    rcases k with _ | _ | k
    · simp [interpOf, Mix.mixF, Mix.codeMatrix, Mix.dot]
    · simp [interpOf, Mix.mixF, Mix.codeMatrix, Mix.dot]
    · omega
  have hsil : (Mix.mixF e.c.r (interpOf 0) 2 (fr e.timed.base.silence.q j)).getD k 0 = 0 := by
    rw [hmono e.timed.base.silence (.inl rfl)]
    exact Node.sample_silence 0 j
  dsimp only at hsum
  rw [hsil, zero_add, List.map_map] at hsum
  have hval : ((gains.map ((fun s : MSig K e.c.N => (Mix.mixF e.c.r (interpOf 0) 2 (fr s.q j)).getD k 0) ∘ w))) =
      gains.map fun i => Node.sample (w i).q 0 j := by
    refine List.map_congr_left fun i hi => ?_
    obtain ⟨_, _, _, hsh⟩ := hw i hi
    exact hmono (w i) hsh
  rw [hval] at hsum
  rw [← hsum]
  by_cases harr0 : arriving g ks r 0 0 = []
  · rw [harr0] at hx
    rw [← hx, List.foldl_nil, hsil]
    exact Node.sample_silence k j
  · have hlen : x.q.length = 2 := by rw [x1 harr0, h5]
    have := Mix.mixF_self e.c.r (interpOf 0) (fr x.q j)
    rw [fr_length, hlen] at this
    rw [this, sample_fr]

/-! ## The score -/

theorem stage_quiet {P S M : Type} {t : Timed P S M} {reads : P → Nat → Prop} (hreads : ∀ f, Reads (t.at f) reads) :
    ∀ (bs : List (List (Msg P M))) {f : Nat} {g gk : RGraph P S}, Quiet t g → Throughout t f g bs (Fit reads) →
    stage t f g bs = some gk → Quiet t gk := by
  intro bs
  induction bs with
  | nil => intro f g gk hq _ h; simp only [stage, Option.some.injEq] at h; exact h ▸ hq
  | cons b bs ih =>
    intro f g gk _ ht h
    obtain ⟨ks, r, g1, g2, o, _, _, k3, k4, k5, k6, _⟩ := stage_cons hreads ht.head h
    exact ih k6 (ht.tail k3 k4) k5

theorem Throughout.drop {P S M : Type} {t : Timed P S M} {f : Nat} {g g' : RGraph P S} {bs : List (List (Msg P M))}
    {Q : RGraph P S → Prop} (h : Throughout t f g bs Q) {m : Nat} (hm : m ≤ bs.length)
    (hs : stage t f g (bs.take m) = some g') : Throughout t (f + 128 * m) g' (bs.drop m) Q := by
  intro bs' g'' hp hst
  refine h (bs.take m ++ bs') g'' ?_ ?_
  · obtain ⟨l, hl⟩ := hp
    exact ⟨l, by rw [List.append_assoc, hl, List.take_append_drop]⟩
  · rw [stage_append, hs, Option.bind_some, List.length_take, Nat.min_eq_left hm]
    exact hst

/-- the gain node of a note of a score -/
theorem Sounds.out {e : Studio K Q X} (hsr : 0 < e.sr) (hN : e.c.N = 128) (h0 : 0 ≤ e.c.thr) {ir : Q → Nat → Prop}
    (hin : Reads e.inner ir) {f : Nat} {g gk : RGraph (SProc K Q) (MSig K e.c.N)} {bs : List (List (Msg (SProc K Q) (SMsg K X)))}
    (hq : Quiet e.timed g) (ht : Throughout e.timed f g bs (Fit (sreads ir))) (hst : stage e.timed f g bs = some gk)
    {v : Note K Q} {start : Nat} {z : MSig K e.c.N} {l : List K} (h : Sounds e ir f g bs v start z l) {ks : List Nat}
    (hks : Lists gk ks) {r : Results (SProc K Q) (MSig K e.c.N)} (hs : Solves (e.timed.at (f + 128 * bs.length)) gk ks r) :
    ∃ w, r v.gain = some (.gain v.env.id, [w], false) ∧ Shape 1 w.q ∧ ∀ c j, j < e.c.N →
      |Node.sample w.q c j - Node.sample z.q c j * Node.gainAt l j| ≤ e.c.thr * |Node.sample z.q c j| := by
  obtain ⟨⟨h1, g', h2, h3, h4⟩, h5, h6, h7, h8, h9⟩ := h
  have hst' : stage e.timed (f + 128 * start) g' (bs.drop start) = some gk := by
    have := stage_append e.timed (bs.take start) (bs.drop start) f g
    rw [List.take_append_drop, hst, h2, Option.bind_some, List.length_take, Nat.min_eq_left h1] at this
    exact this.symm
  have hq' := stage_quiet (e.reads hin) (bs.take start) hq (ht.prefix (List.take_prefix _ _)) h2
  have hd := ht.drop h1 h2
  have hlen : f + 128 * start + 128 * (bs.drop start).length = f + 128 * bs.length := by
    rw [List.length_drop]; omega
  have := note_at e hsr hN h0 hin hq' (fun bs' g'' a b => ⟨hd bs' g'' a b, h4 bs' g'' a b⟩) h5 h3 hst' h6 h7 h8 hks
    (by rw [hlen]; exact hs)
  rw [h9] at this
  exact this.1

/-- C112: a score sounds as written. Take any history of messages and quanta, and a quantum in which the gain nodes of some
notes, and nothing else, are connected to the destination. The notes may have come at different times, and other nodes may
be anywhere in the graph. Both channels of the output are, at every frame, the sum over the notes of what the source of the
note plays there times the value of its envelope there; source and envelope as they are alone, with the messages they got.
(Up to the threshold of the shortcut of the gain node for values near 0 and 1.) -/
theorem C112_score (e : Studio K Q X) (hsr : 0 < e.sr) (hN : e.c.N = 128) (h0 : 0 ≤ e.c.thr) {ir : Q → Nat → Prop}
    (hin : Reads e.inner ir) {f : Nat} {g gk : RGraph (SProc K Q) (MSig K e.c.N)} {bs : List (List (Msg (SProc K Q) (SMsg K X)))}
    (hq : Quiet e.timed g) (ht : Throughout e.timed f g bs (Fit (sreads ir))) (hst : stage e.timed f g bs = some gk)
    {vs : List (Note K Q × Nat × MSig K e.c.N × List K)} (hv : ∀ s ∈ vs, Sounds e ir f g bs s.1 s.2.1 s.2.2.1 s.2.2.2)
    (hd : DestIn gk (vs.map fun s => s.1.gain)) (hnd : (vs.map fun s => s.1.gain).Nodup) :
    ∃ g' y, gk.render (e.timed.at (f + 128 * bs.length)) = some (g', y) ∧ ∀ k j, k < 2 → j < e.c.N →
      |Node.sample y.q k j - (vs.map fun s => Node.sample s.2.2.1.q 0 j * Node.gainAt s.2.2.2 j).sum| ≤
        e.c.thr * (vs.map fun s => |Node.sample s.2.2.1.q 0 j|).sum := by
  obtain ⟨ks, r, hl, hs, _, o, rec, he⟩ := C111_equations (e.reads hin (f + 128 * bs.length)) (ht bs gk (List.prefix_refl _) hst)
  have hqk := stage_quiet (e.reads hin) bs hq ht hst
  have hout := fun s hs' => (hv s hs').out hsr hN h0 hin hq ht hst hl hs
  -- the output of each gain node
  let w : Nat → MSig K e.c.N := fun i => match r i with
    | some (_, [y], _) => y
    | _ => e.timed.base.silence
  have hw : ∀ i ∈ vs.map (fun s => s.1.gain), ∃ p t, r i = some (p, [w i], t) ∧ Shape 1 (w i).q := by
    intro i hi
    obtain ⟨s, hsv, rfl⟩ := List.mem_map.1 hi
    obtain ⟨y, h1, h2, _⟩ := hout s hsv
    refine ⟨.gain s.1.env.id, false, ?_, ?_⟩
    · simp only [w, h1]
    · simpa only [w, h1] using h2
  obtain ⟨y, y1, y2, y3⟩ := dest_quantum e hqk hl hs hd hnd hw
  obtain ⟨n, hn, _⟩ := hd
  have hag : (afterwards (e.timed.at (f + 128 * bs.length)) gk ks r 0).bind (fun d => d.outputs.head?) = some y := by
    simp only [afterwards, hn, y1, y2]
    rfl
  rw [hag] at he
  refine ⟨_, y, he, fun k j hk hj => ?_⟩
  rw [y3 k j hk hj, List.map_map]
  have key : ∀ l : List (Note K Q × Nat × MSig K e.c.N × List K), (∀ s ∈ l, s ∈ vs) →
      |(l.map ((fun i => Node.sample (w i).q 0 j) ∘ fun s => s.1.gain)).sum -
        (l.map fun s => Node.sample s.2.2.1.q 0 j * Node.gainAt s.2.2.2 j).sum| ≤
        e.c.thr * (l.map fun s => |Node.sample s.2.2.1.q 0 j|).sum := by
    intro l
    induction l with
    | nil => intro _; simp
    | cons s l ih =>
      intro hsub
      have h1 := ih fun s hs => hsub s (by simp [hs])
      obtain ⟨y, a1, _, a3⟩ := hout s (hsub s (by simp))
      have h2 := a3 0 j hj
      have hwy : w s.1.gain = y := by simp only [w, a1]
      simp only [List.map_cons, List.sum_cons, Function.comp_apply, hwy, mul_add]
      refine le_trans ?_ (add_le_add h2 h1)
      refine le_trans (le_of_eq ?_) (abs_add_le _ _)
      congr 1
      ring
  exact key vs fun s hs => hs

end

end Verif.Whole
