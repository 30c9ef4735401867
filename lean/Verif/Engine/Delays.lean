import Verif.Engine.More
import Verif.Graph.Shared
import Verif.Delay.Model

/-!
# C101: graphs with delay nodes

An engine of nodes without shared memory (`Verif.Engine.Model`, `Verif.Engine.More`) and the two halves of delay nodes (`/repo/src/node/delay.rs` l.283-743, `Verif.Delay.Model`), which are two
nodes of the graph that share a ring of quanta. The writer is a cycle breaker, so that the graph may contain loops with delays in them.

Simplification: the shared memory contains the private fields of the two processors too; each delay node has its own number `key`, by which
its processors find their memory. The delay times are those that the parameter will have in each quantum.
-/

namespace Verif.Engine

open Verif.Render

set_option linter.unusedSectionVars false

section
variable {K : Type} [Field K] [LinearOrder K] [IsStrictOrderedRing K] [FloorRing K] {B M : Type}

/-- Processors: those of an engine without delay nodes and the halves of delay nodes. -/
inductive DProc (B K : Type) where
  | base (p : B)
  /-- `DelayWriter`, delay.rs l.376-381 -/
  | writer (key : Nat)
  /-- `DelayReader`, l.491-500, and the values of its parameter -/
  | reader (key : Nat) (delays : Nat → List K) (k : Nat)

/-- the memory: the number of the current quantum, and what is shared by the halves of each delay node -/
structure Mem (K : Type) where
  now : Nat
  line : Nat → Delay.St K

/-- the memory with the clock of the scope -/
def Mem.get (w : Mem K) (key : Nat) : Delay.St K := { w.line key with now := w.now }

/-- change of the memory of a delay node -/
def Mem.set (w : Mem K) (key : Nat) (s : Delay.St K) : Mem K := { w with line := fun k => if k = key then s else w.line k }

/-- the frames of a signal -/
def framesOf (N : Nat) (q : Sig K) : Delay.Quantum K := fun i => q.map fun c => (Node.Chan.data N c).getD i 0

/-- the signal with given frames; without a sample other than zero it is silence (`make_silent`, l.662-664) -/
def ofFrames (fs : List (List K)) : Sig K :=
  if fs.all (fun f => f.all fun x => x = 0) then Node.silence
  else (List.range (fs.headD []).length).map fun c => some (fs.map fun f => f.getD c 0)

/-- constants, with the sample rate -/
def envOf (e : Consts K) (sr : K) : Delay.Env K := ⟨sr, e.N, e.r⟩

/-- `AudioProcessor::process` while the memory is `w`, l.428-461 and l.515-683; `none` is a panic -/
def dprocess (b : Sem B (Sig K) M) (e : Consts K) (sr : K) (w : Mem K) :
    DProc B K → List (Sig K) → List (Sig K) → (Nat → Option (Sig K)) → Option (DProc B K × List (Sig K) × Bool)
  | .base p, ins, outs, ps => (b.process p ins outs ps).map fun r => (.base r.1, r.2.1, r.2.2)
  | .writer key, i :: _, _ :: os, _ =>
    ((w.get key).write (envOf e sr) (framesOf e.N i)).map fun _ => (.writer key, Node.silence :: os, false)
  | .reader key delays k, _, _ :: os, _ =>
    ((w.get key).read (envOf e sr) (delays k)).map fun r => (.reader key delays (k + 1), ofFrames r.1 :: os, r.2.1)
  | _, _, _, _ => none

/-- the memory after `process` -/
def dmemory (e : Consts K) (sr : K) (w : Mem K) : DProc B K → List (Sig K) → List (Sig K) → Mem K
  | .writer key, i :: _, _ :: _ => match (w.get key).write (envOf e sr) (framesOf e.N i) with
    | some s => w.set key s
    | none => w
  | .reader key delays k, _, _ :: _ => match (w.get key).read (envOf e sr) (delays k) with
    | some r => w.set key r.2.2
    | none => w
  | _, _, _ => w

/-- `Drop for DelayWriter`, l.409-419 -/
def ddrop (w : Mem K) : DProc B K → Mem K
  | .writer key => w.set key (w.get key).drop
  | _ => w

/-- The graph with these processors. `DelayWriter::has_side_effects`: l.458-460. -/
def dsem (b : Sem B (Sig K) M) (e : Consts K) (sr : K) : SemS (DProc B K) (Sig K) M (Mem K) where
  base w :=
    { process := dprocess b e sr w
      process_len := by
        intro p ins outs ps p' outs' t h
        unfold dprocess at h
        split at h
        · simp only [Option.map_eq_some_iff, Prod.mk.injEq] at h
          obtain ⟨r, hr, _, rfl, _⟩ := h
          exact b.process_len _ _ _ _ r.1 r.2.1 r.2.2 hr
        · simp only [Option.map_eq_some_iff, Prod.mk.injEq] at h
          obtain ⟨r, hr, _, rfl, _⟩ := h
          rfl
        · simp only [Option.map_eq_some_iff, Prod.mk.injEq] at h
          obtain ⟨r, hr, _, rfl, _⟩ := h
          rfl
        · cases h
      onmessage := fun p m => match p with
        | .base p => (b.onmessage p m).map .base
        | p => some p
      sideEffects := fun p => match p with
        | .base p => b.sideEffects p
        | .writer _ => true
        | .reader _ _ _ => false
      silence := b.silence
      add := b.add }
  memory w p ins outs _ := dmemory e sr w p ins outs
  dropped := ddrop
  tick w := { w with now := w.now + 1 }

/-! ## Louder delay lines -/

/-- a frame, `c` times as loud -/
def lf (c : K) (f : List K) : List K := f.map (c * ·)

/-- a quantum in the ring, `c` times as loud -/
def lq (c : K) (q : Delay.Quantum K) : Delay.Quantum K := fun i => lf c (q i)

/-- a delay line, its memory `c` times as loud -/
def ll (c : K) (s : Delay.St K) : Delay.St K := { s with ring := s.ring.map (lq c) }

theorem lf_getD (c : K) (f : List K) (i : Nat) : (lf c f).getD i 0 = c * f.getD i 0 := getD_map_mul c f i

theorem chansOf_lq (c : K) (q : Delay.Quantum K) : Delay.chansOf (lq c q) = Delay.chansOf q := by simp [Delay.chansOf, lq, lf]

theorem lq_silence (c : K) (n : Nat) : lq c (Delay.silence n) = Delay.silence n := by
  funext i
  simp [lq, lf, Delay.silence]

theorem head_lq (c : K) (ring : List (Delay.Quantum K)) :
    (ring.map (lq c)).headD (Delay.silence 1) = lq c (ring.headD (Delay.silence 1)) := by
  cases ring with
  | nil => exact (lq_silence c 1).symm
  | cons q ring => rfl

theorem dot_lf (c : K) (row : List K) : ∀ x : List K, Mix.dot row (lf c x) = c * Mix.dot row x := by
  induction row with
  | nil => intro x; simp [Mix.dot]
  | cons a row ih =>
    intro x
    cases x with
    | nil => simp [Mix.dot, lf]
    | cons y x =>
      have := ih x
      simp only [Mix.dot, lf] at this
      simp only [Mix.dot, lf, List.map_cons, List.zipWith_cons_cons, List.sum_cons, this]
      ring

theorem mixF_lf (c r : K) (interp : Mix.Interp) (m : Nat) (x : List K) : Mix.mixF r interp m (lf c x) = lf c (Mix.mixF r interp m x) := by
  unfold Mix.mixF
  rw [show (lf c x).length = x.length from List.length_map _]
  split
  · simp only [lf, List.map_map]
    refine List.map_congr_left fun row _ => ?_
    exact dot_lf c row x
  · simp only [lf, List.map_map]
    refine List.map_congr_left fun j _ => ?_
    exact lf_getD c x j

theorem remix_ll (e : Delay.Env K) (c : K) (ring : List (Delay.Quantum K)) (n : Nat) :
    Delay.remix e (ring.map (lq c)) n = (Delay.remix e ring n).map (lq c) := by
  unfold Delay.remix
  rw [head_lq, chansOf_lq]
  split
  · rfl
  · rw [List.map_map, List.map_map]
    refine List.map_congr_left fun q _ => ?_
    funext i
    exact mixF_lf c e.r .speakers n (q i)

theorem write_ll (e : Delay.Env K) (c : K) (s : Delay.St K) (q : Delay.Quantum K) :
    (ll c s).write e (lq c q) = (s.write e q).map (ll c) := by
  have hr : Delay.remix e (ll c s).ring (Delay.chansOf (lq c q)) = (Delay.remix e s.ring (Delay.chansOf q)).map (lq c) := by
    rw [chansOf_lq]
    exact remix_ll e c s.ring _
  unfold Delay.St.write
  rw [hr]
  simp only [List.length_map]
  by_cases hw : s.writeIndex < (Delay.remix e s.ring (Delay.chansOf q)).length
  · rw [if_pos hw, if_pos (show (ll c s).writeIndex < _ from hw)]
    simp only [ll, Option.map_some, List.map_set]
  · rw [if_neg hw, if_neg (show ¬ (ll c s).writeIndex < _ from hw)]
    rfl

theorem drop_ll (c : K) (s : Delay.St K) : (ll c s).drop = ll c s.drop := by
  simp [Delay.St.drop, ll]

theorem frameAt_ll (e : Delay.Env K) (c : K) (ring : List (Delay.Quantum K)) (ch b f : Nat) :
    Delay.frameAt e (ring.map (lq c)) ch b f = (Delay.frameAt e ring ch b f).map (lf c) := by
  unfold Delay.frameAt
  rw [List.getElem?_map]
  cases ring[b]? with
  | none => rfl
  | some q =>
    simp only [Option.map_some, Option.bind_some, chansOf_lq]
    split <;> rfl

theorem outFrame_ll (e : Delay.Env K) (c : K) (ring : List (Delay.Quantum K)) (ch : Nat) (p : Delay.Info K) :
    Delay.outFrame e (ring.map (lq c)) ch p = (Delay.outFrame e ring ch p).map (lf c) := by
  unfold Delay.outFrame
  simp only [frameAt_ll, List.length_map]
  cases Delay.frameAt e ring ch p.block p.frame with
  | none => rfl
  | some a =>
    simp only [Option.map_some, Option.bind_some]
    cases Delay.frameAt e ring ch _ _ with
    | none => rfl
    | some b =>
      simp only [Option.map_some, Option.some.injEq]
      unfold lf
      rw [List.map_map]
      refine List.map_congr_left fun k _ => ?_
      simp only [Function.comp_apply]
      rw [getD_map_mul, getD_map_mul]
      ring

theorem mapM_ll {α : Type} (c : K) (f g : α → Option (List K)) (h : ∀ a, g a = (f a).map (lf c)) (l : List α) :
    l.mapM g = (l.mapM f).map (List.map (lf c)) := by
  induction l with
  | nil => rfl
  | cons a l ih =>
    simp only [List.mapM_cons, h, ih]
    cases f a with
    | none => rfl
    | some b =>
      cases l.mapM f with
      | none => rfl
      | some bs => rfl

theorem zero_lf {c : K} (hc : c ≠ 0) (fs : List (List K)) :
    (fs.map (lf c)).all (fun f => f.all fun x => x = 0) = fs.all (fun f => f.all fun x => x = 0) := by
  rw [List.all_map]
  congr 1
  funext f
  simp only [Function.comp_apply, lf, List.all_map]
  congr 1
  funext x
  simp [hc]

theorem read_ll (e : Delay.Env K) {c : K} (hc : c ≠ 0) (s : Delay.St K) (delays : List K) :
    (ll c s).read e delays = (s.read e delays).map fun r => (r.1.map (lf c), r.2.1, ll c r.2.2) := by
  unfold Delay.St.read
  generalize hb : (s.inCycle || decide (s.latest ≠ some s.now)) = b
  have hb' : ((ll c s).inCycle || decide ((ll c s).latest ≠ some (ll c s).now)) = b := hb
  rw [hb']
  simp only [ll]
  rw [head_lq, chansOf_lq, List.length_map]
  cases Delay.infos e b s.ring.length s.readIndex delays with
  | none => rfl
  | some ps =>
    simp only [Option.bind_some]
    rw [mapM_ll c (Delay.outFrame e s.ring _) _ (fun p => outFrame_ll e c s.ring _ p)]
    cases ps.mapM (Delay.outFrame e s.ring (Delay.chansOf (s.ring.headD (Delay.silence 1)))) with
    | none => rfl
    | some out =>
      simp only [Option.map_some, zero_lf hc]
      have hz : (List.replicate e.N ([0] : List K)).map (lf c) = List.replicate e.N [0] := by simp [lf]
      split <;> split <;> simp only [hz] <;> rfl

theorem ofFrames_lf {c : K} (hc : c ≠ 0) (fs : List (List K)) : ofFrames (fs.map (lf c)) = loud c (ofFrames fs) := by
  unfold ofFrames
  rw [zero_lf hc]
  split
  · rfl
  · unfold loud
    have hl : ((fs.map (lf c)).headD []).length = (fs.headD []).length := by cases fs <;> simp [lf]
    rw [hl, List.map_map]
    refine List.map_congr_left fun k _ => ?_
    simp only [Function.comp_apply, Option.map_some, List.map_map, Option.some.injEq]
    refine List.map_congr_left fun f _ => ?_
    exact lf_getD c f k

theorem framesOf_loud (c : K) (N : Nat) (q : Sig K) : framesOf N (loud c q) = lq c (framesOf N q) := by
  funext i
  simp only [framesOf, loud, lq, lf, List.map_map]
  refine List.map_congr_left fun x _ => ?_
  simp only [Function.comp_apply, data_map]
  exact getD_map_mul c _ i

/-- the memory with louder delay lines -/
def lw (c : K) (w : Mem K) : Mem K := ⟨w.now, fun k => ll c (w.line k)⟩

theorem lw_get (c : K) (w : Mem K) (key : Nat) : (lw c w).get key = ll c (w.get key) := rfl

theorem lw_set (c : K) (w : Mem K) (key : Nat) (s : Delay.St K) : (lw c w).set key (ll c s) = lw c (w.set key s) := by
  simp only [lw, Mem.set, Mem.mk.injEq, true_and]
  funext k
  split <;> rfl

/-- a processor in a system whose sources are louder, for a translation of the other processors -/
def dlp (f : B → B) : DProc B K → DProc B K
  | .base p => .base (f p)
  | .writer key => .writer key
  | .reader key delays k => .reader key delays k

theorem dprocess_loud (b : Sem B (Sig K) M) (h : Hom b b) (e : Consts K) (sr : K) {c : K} (hc : c ≠ 0) (hS : h.fS = loud c) (w : Mem K)
    (p : DProc B K) (ins outs : List (Sig K)) (ps : Nat → Option (Sig K)) :
    dprocess b e sr (lw c w) (dlp h.fP p) (ins.map h.fS) (outs.map h.fS) (fun j => (ps j).map h.fS) =
      (dprocess b e sr w p ins outs ps).map fun r => (dlp h.fP r.1, r.2.1.map h.fS, r.2.2) := by
  cases p with
  | base p =>
    simp only [dlp, dprocess, h.process]
    cases b.process p ins outs ps <;> rfl
  | writer key =>
    rw [hS]
    cases ins with
    | nil => rfl
    | cons i ins =>
      cases outs with
      | nil => rfl
      | cons o os =>
        simp only [dlp, List.map_cons, dprocess, lw_get, framesOf_loud, write_ll]
        cases (w.get key).write (envOf e sr) (framesOf e.N i) <;> rfl
  | reader key delays k =>
    rw [hS]
    cases outs with
    | nil => cases ins <;> rfl
    | cons o os =>
      simp only [dlp, List.map_cons, dprocess, lw_get, read_ll _ hc]
      cases (w.get key).read (envOf e sr) (delays k) with
      | none => rfl
      | some r => simp only [Option.map_some, ofFrames_lf hc, List.map_cons]

theorem dmemory_loud (e : Consts K) (sr : K) {c : K} (hc : c ≠ 0) (f : B → B) (w : Mem K) (p : DProc B K) (ins outs : List (Sig K)) :
    dmemory e sr (lw c w) (dlp f p) (ins.map (loud c)) (outs.map (loud c)) = lw c (dmemory e sr w p ins outs) := by
  cases p with
  | base p => rfl
  | writer key =>
    cases ins with
    | nil => rfl
    | cons i ins =>
      cases outs with
      | nil => rfl
      | cons o os =>
        simp only [dlp, List.map_cons, dmemory, lw_get, framesOf_loud, write_ll]
        cases (w.get key).write (envOf e sr) (framesOf e.N i) with
        | none => rfl
        | some s => exact lw_set c w key s
  | reader key delays k =>
    cases outs with
    | nil => cases ins <;> rfl
    | cons o os =>
      simp only [dlp, List.map_cons, dmemory, lw_get, read_ll _ hc]
      cases (w.get key).read (envOf e sr) (delays k) with
      | none => rfl
      | some r => exact lw_set c w key r.2.2

/-- Making sources louder is a translation of a graph with delay nodes, if it is one of the graphs without them. -/
def dlouder (b : Sem B (Sig K) M) (h : Hom b b) (e : Consts K) (sr : K) {c : K} (hc : c ≠ 0) (hS : h.fS = loud c) :
    HomS (dsem b e sr) (dsem b e sr) where
  fP := dlp h.fP
  fS := h.fS
  fM := h.fM
  fW := lw c
  process w p ins outs ps := dprocess_loud b h e sr hc hS w p ins outs ps
  onmessage w p m := by
    cases p with
    | base p =>
      show (b.onmessage (h.fP p) (h.fM m)).map DProc.base = ((b.onmessage p m).map DProc.base).map (dlp h.fP)
      rw [h.onmessage]
      cases b.onmessage p m <;> rfl
    | writer key => rfl
    | reader key delays k => rfl
  side w p := by
    cases p with
    | base p => exact h.side p
    | _ => rfl
  silence _ := h.silence
  add _ := h.add
  memory w p ins outs _ := by rw [hS]; exact dmemory_loud e sr hc h.fP w p ins outs
  dropped w p := by
    cases p with
    | base p => rfl
    | reader key delays k => rfl
    | writer key =>
      show (lw c w).set key ((lw c w).get key).drop = lw c (w.set key (w.get key).drop)
      rw [lw_get, drop_ll, lw_set]
  tick _ := rfl

/-- the memory of new delay nodes, for given sizes of their rings; the clock is at the first quantum -/
def Mem.new (cap : Nat → Nat) : Mem K := ⟨0, fun k => Delay.St.new (cap k)⟩

theorem lw_new (c : K) (cap : Nat → Nat) : lw c (Mem.new cap) = Mem.new cap := by
  simp [lw, Mem.new, ll, Delay.St.new, lq_silence]

theorem sound_delays (b : Sem B (Sig K) M) (h : Hom b b) (e : Consts K) (sr : K) {c : K} (hc : c ≠ 0) (hS : h.fS = loud c) (dest : B)
    (hd : h.fP dest = dest) (cfg : Cfg) (cap : Nat → Nat) (ops ops' : List (Op (DProc B K) M))
    (h1 : ops' = ops.map ((dlouder b h e sr hc hS).hom (Mem.new cap)).op) :
    (Sys.soundS (dsem b e sr) (Sys.init ((dsem b e sr).base (Mem.new cap)) (.base dest) cfg, Mem.new cap) ops').map
        (fun r => (r.2, r.1.1.g.reclaimed, r.1.1.g.ordered)) =
      (Sys.soundS (dsem b e sr) (Sys.init ((dsem b e sr).base (Mem.new cap)) (.base dest) cfg, Mem.new cap) ops).map
        (fun r => (r.2.map (loud c), r.1.1.g.reclaimed, r.1.1.g.ordered)) := by
  have h2 : Sys.init ((dsem b e sr).base (Mem.new cap)) (.base dest) cfg =
      ((dlouder b h e sr hc hS).hom (Mem.new cap)).sys (Sys.init ((dsem b e sr).base (Mem.new cap)) (.base dest) cfg) := by
    rw [Hom.sys_init]
    show _ = Sys.init ((dsem b e sr).base (Mem.new cap)) (.base (h.fP dest)) cfg
    rw [hd]
  have h3 := (dlouder b h e sr hc hS).sound_map (Mem.new cap) ops (Sys.init ((dsem b e sr).base (Mem.new cap)) (.base dest) cfg) (Mem.new cap)
  rw [← h1, ← h2] at h3
  have h4 := congrArg (Option.map fun r => (r.2, r.1.1.g.reclaimed, r.1.1.g.ordered)) h3
  rw [Option.map_map] at h4
  have h5 : (dlouder b h e sr hc hS).fW (Mem.new cap) = Mem.new cap := lw_new c cap
  conv at h4 => lhs; rw [h5]
  refine h4.trans ?_
  rw [← hS]
  rfl

end

/-! ## C101 -/

section
variable {K : Type} [Field K] [LinearOrder K] [IsStrictOrderedRing K] [FloorRing K]

/-- The same history with all sources `c` times as loud. -/
def dlouderOp (c : K) : Op (DProc (Proc K) K) (Nat → Sig K × Bool) → Op (DProc (Proc K) K) (Nat → Sig K × Bool)
  | .register id (.base (.source play k)) nin nout cfg => .register id (.base (.source (loudPlay c play) k)) nin nout cfg
  | .post h m => .post h (loudPlay c m)
  | op => op

/-- filters that are created have no memory yet -/
def DNew : Op (DProc (Proc K) K) (Nat → Sig K × Bool) → Prop
  | .register id (.base p) nin nout cfg => NewFilter (.register id p nin nout cfg)
  | _ => True

/-- **C101, graphs with delays and feedback.** If all sources of a history are made `c` times as loud, the sound is `c` times as loud, sample
by sample; the same nodes are freed in the same quanta, the same histories panic. The graph may contain delay nodes of any size, also in cycles.
Nodes as in `C101_louder`. -/
theorem C101_louder_delays (e : Consts K) (sr : K) {c : K} (hc : c ≠ 0) (cfg : Cfg) (cap : Nat → Nat)
    (ops : List (Op (DProc (Proc K) K) (Nat → Sig K × Bool))) (hnew : ∀ op ∈ ops, DNew op) :
    (Sys.soundS (dsem (sem e) e sr) (Sys.init ((dsem (sem e) e sr).base (Mem.new cap)) (.base .destination) cfg, Mem.new cap)
        (ops.map (dlouderOp c))).map (fun r => (r.2, r.1.1.g.reclaimed, r.1.1.g.ordered)) =
      (Sys.soundS (dsem (sem e) e sr) (Sys.init ((dsem (sem e) e sr).base (Mem.new cap)) (.base .destination) cfg, Mem.new cap) ops).map
        (fun r => (r.2.map (loud c), r.1.1.g.reclaimed, r.1.1.g.ordered)) := by
  refine sound_delays (sem e) (louder e hc) e sr hc rfl .destination rfl cfg cap ops _ (List.map_congr_left fun op hop => ?_)
  have h := hnew op hop
  cases op with
  | register id p nin nout cfg =>
    cases p with
    | base p =>
      have := louder_op e hc (.register id p nin nout cfg) h
      simp only [Hom.op, louder] at this
      show _ = Op.register id (DProc.base (lp c p)) nin nout cfg
      cases p with
      | source play k => rfl
      | _ =>
        simp only [louderOp, Op.register.injEq, and_true, true_and] at this
        simp only [this, dlouderOp]
    | _ => rfl
  | _ => rfl

end

/-- The same history with all sources `c` times as loud, for the nodes of `Verif.Engine.More`. -/
noncomputable def drlouderOp (c : ℝ) : Op (DProc RProc ℝ) RMsg → Op (DProc RProc ℝ) RMsg
  | .register id (.base (.base (.source play k))) nin nout cfg => .register id (.base (.base (.source (loudPlay c play) k))) nin nout cfg
  | .post h (.play m) => .post h (.play (loudPlay c m))
  | op => op

/-- filters and convolvers that are created have no memory yet -/
def DRNew : Op (DProc RProc ℝ) RMsg → Prop
  | .register id (.base p) nin nout cfg => RNew (.register id p nin nout cfg)
  | _ => True

/-- **C101, delays with all linear nodes.** As `C101_louder_delays`, also with biquad filters, stereo panners and convolvers. -/
theorem C101_louder_delays_more (e : Consts ℝ) (sr : ℝ) {c : ℝ} (hc : c ≠ 0) (cfg : Cfg) (cap : Nat → Nat)
    (ops : List (Op (DProc RProc ℝ) RMsg)) (hnew : ∀ op ∈ ops, DRNew op) :
    (Sys.soundS (dsem (rsem e) e sr) (Sys.init ((dsem (rsem e) e sr).base (Mem.new cap)) (.base (.base .destination)) cfg, Mem.new cap)
        (ops.map (drlouderOp c))).map (fun r => (r.2, r.1.1.g.reclaimed, r.1.1.g.ordered)) =
      (Sys.soundS (dsem (rsem e) e sr) (Sys.init ((dsem (rsem e) e sr).base (Mem.new cap)) (.base (.base .destination)) cfg, Mem.new cap) ops).map
        (fun r => (r.2.map (loud c), r.1.1.g.reclaimed, r.1.1.g.ordered)) := by
  refine sound_delays (rsem e) (rlouder e hc) e sr hc rfl (.base .destination) rfl cfg cap ops _ (List.map_congr_left fun op hop => ?_)
  have h := hnew op hop
  cases op with
  | register id p nin nout cfg =>
    cases p with
    | base p =>
      have := rlouder_op e hc (.register id p nin nout cfg) h
      simp only [Hom.op, rlouder] at this
      show _ = Op.register id (DProc.base (rlp c p)) nin nout cfg
      cases p with
      | base p =>
        cases p with
        | source play k => rfl
        | _ =>
          simp only [rlouderOp, Op.register.injEq, and_true, true_and] at this
          simp only [this, drlouderOp]
      | _ =>
        simp only [rlouderOp, Op.register.injEq, and_true, true_and] at this
        simp only [this, drlouderOp]
    | _ => rfl
  | post x m => cases m <;> rfl
  | _ => rfl

/-! ### A history that meets the hypotheses -/

/-- An echo with feedback, in quanta of two frames: a click into a delay of one frame, which goes to the destination and through a gain of a half
back into itself (the cycle breaker makes the delay one quantum); later the handles are dropped. -/
def echoDemo : List (Op (DProc (Proc ℚ) ℚ) (Nat → Sig ℚ × Bool)) :=
  [.acquire, .register 11 (.base (.source (fun k => (if k = 0 then [some [8, 16]] else [none], k < 1)) 0)) 0 1 ⟨2, 0, 0⟩,
   .acquire, .acquire, .register 13 (.reader 0 (fun _ => [1 / 100]) 0) 1 1 ⟨2, 0, 0⟩, .register 12 (.writer 0) 1 1 ⟨2, 0, 0⟩,
   .acquire, .register 14 (.base (.gain (fun _ => [1 / 2]) 0)) 1 1 ⟨2, 0, 0⟩,
   .breaker ⟨12, 3, 1, 1⟩, .connect ⟨12, 3, 1, 1⟩ ⟨13, 2, 1, 1⟩ 0 0,
   .connect ⟨11, 1, 0, 1⟩ ⟨12, 3, 1, 1⟩ 0 0, .connect ⟨13, 2, 1, 1⟩ ⟨0, 0, 1, 1⟩ 0 0,
   .connect ⟨13, 2, 1, 1⟩ ⟨14, 4, 1, 1⟩ 0 0, .connect ⟨14, 4, 1, 1⟩ ⟨12, 3, 1, 1⟩ 0 0,
   .recv, .recv, .recv, .recv, .recv, .recv, .recv, .recv, .recv, .recv, .quantum, .quantum, .quantum, .quantum,
   .drop ⟨11, 1, 0, 1⟩, .recv, .quantum]

example : (∀ op ∈ echoDemo, DNew op) ∧
    (Sys.soundS (dsem (sem demoConsts) demoConsts 100)
      (Sys.init ((dsem (sem demoConsts) demoConsts 100).base (Mem.new fun _ => 3)) (.base .destination) ⟨1, 2, 0⟩, Mem.new fun _ => 3) echoDemo).map
        (fun r => (r.2, r.1.1.g.reclaimed)) = some ([[none], [some [8, 16]], [some [4, 8]], [some [2, 4]], [some [1, 2]]], [11]) := by
  refine ⟨?_, by decide +kernel⟩
  intro op hop
  simp only [echoDemo, List.mem_cons, List.not_mem_nil, or_false] at hop
  rcases hop with rfl | rfl | rfl | rfl | rfl | rfl | rfl | rfl | rfl | rfl | rfl | rfl | rfl | rfl | rfl | rfl | rfl |
    rfl | rfl | rfl | rfl | rfl | rfl | rfl | rfl | rfl | rfl | rfl | rfl | rfl | rfl
  all_goals simp only [DNew, NewFilter]

end Verif.Engine
