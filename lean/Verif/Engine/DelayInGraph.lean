import Verif.Engine.Delays
import Verif.Graph.SharedProofs
import Verif.Delay.Echo

/-!
# C120: a delay node in a graph is a delay line

The stand-alone delay line of `Verif.Delay` (C35) sees a sequence of quanta in which its writer and its reader are processed. Here the two
halves are nodes of any graph (`Verif.Engine.Delays`): whatever else the graph contains and however it is changed between quanta, the reader
puts out the delayed input of the writer.
-/

namespace Verif.Engine

open Verif.Render RGraph Verif.Delay

set_option linter.unusedSectionVars false

section
variable {K : Type} [Field K] [LinearOrder K] [IsStrictOrderedRing K] [FloorRing K] {B M : Type}

/-! ## Specification -/

/-- the processor is a half of the delay node `key` -/
def uses (key : Nat) : DProc B K → Prop
  | .base _ => False
  | .writer k => k = key
  | .reader k _ _ => k = key

/-- The graph contains the delay node `key`: its writer is node `a`, its reader is node `b`, both as they are created
(`/repo/src/node/delay.rs` l.283-368: one input and one output, the writer without parameters) and their handles are alive. The parameter of
the reader has the values `dl k` in the next quantum. -/
structure HasDelay (g : RGraph (DProc B K) (Sig K)) (key a b : Nat) (dl : Nat → List K) (k : Nat) : Prop where
  ne : a ≠ b
  writer : ∃ n, g.slot a = some n ∧ n.proc = .writer key ∧ n.dropped = false ∧ n.inputs.length = 1 ∧ n.outputs.length = 1
  reader : ∃ n, g.slot b = some n ∧ n.proc = .reader key dl k ∧ n.dropped = false ∧ n.outputs.length = 1
  others : ∀ i, i ≠ a → i ≠ b → ∀ n, g.slot i = some n → ¬ uses key n.proc

/-- What the node finds at its first input when it is processed. -/
def inputAt {P S W : Type} (sem : SemS P S M W) (s : RGraph P S × W) (i : Nat) : Option S :=
  (foldOpt (renderNodeS sem) (s.1.ordered.takeWhile (· ≠ i)) s).bind fun s => (s.1.slot i).bind (·.inputs.head?)

/-- the graph with its order of processing -/
def ready {P S : Type} (g : RGraph P S) : RGraph P S := g.orderedGraph.getD g

/-- what the writer gets in a quantum -/
def gets {P W : Type} (sem : SemS P (Sig K) M W) (g : RGraph P (Sig K)) (w : W) (a : Nat) : Sig K := (inputAt sem (ready g, w) a).getD []

/-- the reader is processed before the writer -/
def readerFirst (L : List Nat) (a b : Nat) : Bool := decide (b ∈ L.takeWhile (· ≠ a))

/-! ## Proofs -/

theorem get_set_ne (w : Mem K) {key k : Nat} (h : k ≠ key) (s : St K) : (w.set k s).get key = w.get key := by
  simp [Mem.get, Mem.set, Ne.symm h]

theorem get_set (w : Mem K) (key : Nat) {s : St K} (h : s.now = w.now) : (w.set key s).get key = s := by
  simp only [Mem.get, Mem.set, if_true, ← h]

theorem dpart (b : Sem B (Sig K) M) (e : Consts K) (sr : K) (key : Nat) :
    Part (dsem b e sr) (uses key) (fun w : Mem K => w.get key) where
  memory w p ins outs ps hp := by
    show (dmemory e sr w p ins outs).get key = w.get key
    unfold dmemory
    split
    · split
      · exact get_set_ne w hp _
      · rfl
    · split
      · exact get_set_ne w hp _
      · rfl
    · rfl
  dropped w p hp := by
    show (ddrop w p).get key = w.get key
    unfold ddrop
    split
    · exact get_set_ne w hp _
    · rfl
  keeps w p ins outs ps p' o t h := by
    change dprocess b e sr w p ins outs ps = _ at h
    unfold dprocess at h
    split at h
    · simp only [Option.map_eq_some_iff, Prod.mk.injEq] at h
      obtain ⟨r, _, rfl, _⟩ := h
      rfl
    · simp only [Option.map_eq_some_iff, Prod.mk.injEq] at h
      obtain ⟨r, _, rfl, _⟩ := h
      rfl
    · simp only [Option.map_eq_some_iff, Prod.mk.injEq] at h
      obtain ⟨r, _, rfl, _⟩ := h
      rfl
    · cases h

theorem write_now {e : Env K} {s s' : St K} {q : Delay.Quantum K} (h : s.write e q = some s') : s'.now = s.now := by
  unfold St.write at h
  dsimp only at h
  split at h
  · cases h; rfl
  · cases h

theorem read_now {e : Env K} {s s' : St K} {d : List K} {o : List (List K)} {t : Bool} (h : s.read e d = some (o, t, s')) :
    s'.now = s.now := by
  unfold St.read at h
  rw [Option.bind_eq_some_iff] at h
  obtain ⟨ps, _, h⟩ := h
  rw [Option.map_eq_some_iff] at h
  obtain ⟨out, hm, h⟩ := h
  dsimp only at h
  split at h <;> cases h <;> rfl

/-- processing of the writer -/
theorem step_writer (bs : Sem B (Sig K) M) (e : Consts K) (sr : K) {L : List Nat} (hL : L.Nodup) {a key : Nat} {post : List Nat}
    {s : RGraph (DProc B K) (Sig K) × Mem K} (ha : a ∈ L) (hnd : (a :: post).Nodup) (h : LoopInv L (a :: post) s.1)
    {n : Node (DProc B K) (Sig K)} (hn : s.1.slot a = some n) (h1 : n.proc = .writer key) (h2 : n.dropped = false)
    {x : Sig K} (h3 : n.inputs = [x]) (h4 : n.outputs.length = 1) {l : St K}
    (hw : (s.2.get key).write (envOf e sr) (framesOf e.N x) = some l) :
    ∃ g', renderNodeS (dsem bs e sr) s a = some (g', s.2.set key l) ∧ LoopInv L post g' ∧
      (∃ n', g'.slot a = some n' ∧ n'.proc = .writer key ∧ n'.dropped = false ∧ n'.inputs.length = 1 ∧ n'.outputs.length = 1) := by
  obtain ⟨n0, g', hn0, hr, hs, h5⟩ := loop_stepS (dsem bs e sr) hL ha hnd h
  rw [hn] at hn0; cases hn0
  obtain ⟨y, hy⟩ := List.length_eq_one_iff.1 h4
  have hp : s.1.process ((dsem bs e sr).base s.2) a n = ({ n with proc := .writer key, outputs := [Node.silence] }, true, false) := by
    unfold RGraph.process
    rw [show ((dsem bs e sr).base s.2).process n.proc n.inputs n.outputs (s.1.params a) = some (.writer key, [Node.silence], false) from by
      rw [h1, h3, hy]
      show ((s.2.get key).write (envOf e sr) (framesOf e.N x)).map _ = _
      rw [hw]; rfl]
  have hf : s.1.freed ((dsem bs e sr).base s.2) a n = false := by
    unfold freed
    rw [hp]
    simp [Node.canFree, h2]
  refine ⟨g', ?_, h5, ?_⟩
  · rw [hr]
    unfold RGraph.after
    rw [hf, if_neg (by simp), h1, h3, hy]
    show some (g', dmemory e sr s.2 (.writer key : DProc B K) [x] [y]) = _
    simp only [dmemory, hw]
  · have hself := hs.self
    rw [hf, if_neg (by simp), hp] at hself
    exact ⟨_, hself, rfl, h2, (by simp [h3]), rfl⟩

/-- processing of the reader -/
theorem step_reader (bs : Sem B (Sig K) M) (e : Consts K) (sr : K) {L : List Nat} (hL : L.Nodup) {b key k : Nat} {dl : Nat → List K}
    {post : List Nat} {s : RGraph (DProc B K) (Sig K) × Mem K} (hb : b ∈ L) (hnd : (b :: post).Nodup) (h : LoopInv L (b :: post) s.1)
    {n : Node (DProc B K) (Sig K)} (hn : s.1.slot b = some n) (h1 : n.proc = .reader key dl k) (h2 : n.dropped = false)
    (h4 : n.outputs.length = 1) {l : St K} {o : List (List K)} {t : Bool} (hw : (s.2.get key).read (envOf e sr) (dl k) = some (o, t, l)) :
    ∃ g', renderNodeS (dsem bs e sr) s b = some (g', s.2.set key l) ∧ LoopInv L post g' ∧
      (∃ n', g'.slot b = some n' ∧ n'.proc = .reader key dl (k + 1) ∧ n'.dropped = false ∧ n'.outputs = [ofFrames o]) := by
  obtain ⟨n0, g', hn0, hr, hs, h5⟩ := loop_stepS (dsem bs e sr) hL hb hnd h
  rw [hn] at hn0; cases hn0
  obtain ⟨y, hy⟩ := List.length_eq_one_iff.1 h4
  have hp : s.1.process ((dsem bs e sr).base s.2) b n = ({ n with proc := .reader key dl (k + 1), outputs := [ofFrames o] }, true, t) := by
    unfold RGraph.process
    rw [show ((dsem bs e sr).base s.2).process n.proc n.inputs n.outputs (s.1.params b) = some (.reader key dl (k + 1), [ofFrames o], t) from by
      rw [h1, hy]
      show dprocess bs e sr s.2 (.reader key dl k) n.inputs [y] (s.1.params b) = _
      simp only [dprocess, hw, Option.map_some]]
  have hf : s.1.freed ((dsem bs e sr).base s.2) b n = false := by
    unfold freed
    rw [hp]
    simp [Node.canFree, h2]
  refine ⟨g', ?_, h5, ?_⟩
  · rw [hr]
    unfold RGraph.after
    rw [hf, if_neg (by simp), h1, hy]
    show some (g', dmemory e sr s.2 (.reader key dl k : DProc B K) n.inputs [y]) = _
    simp only [dmemory, hw]
  · have hself := hs.self
    rw [hf, if_neg (by simp), hp] at hself
    exact ⟨_, hself, rfl, h2, rfl⟩

theorem HasDelay.ordered {g g1 : RGraph (DProc B K) (Sig K)} {key a b : Nat} {dl : Nat → List K} {k : Nat} (h : HasDelay g key a b dl k)
    (wf : WF g) (h1 : g.orderedGraph = some g1) : HasDelay g1 key a b dl k := by
  obtain ⟨g1', e1, _, _, _, _, e6, e7⟩ := orderedGraph_spec wf
  rw [h1] at e1; cases e1
  have key : ∀ i n, g.slot i = some n → ∃ n', g1.slot i = some n' ∧ n'.proc = n.proc ∧ n'.dropped = n.dropped ∧ n'.inputs = n.inputs ∧
      n'.outputs = n.outputs := by
    intro i n hn
    rcases e7 i n hn with h | ⟨h, _⟩
    · exact ⟨_, h, rfl, rfl, rfl, rfl⟩
    · exact ⟨_, h, rfl, rfl, rfl, rfl⟩
  refine ⟨h.ne, ?_, ?_, ?_⟩
  · obtain ⟨n, a1, a2, a3, a4, a5⟩ := h.writer
    obtain ⟨n', b1, b2, b3, b4, b5⟩ := key a n a1
    exact ⟨n', b1, b2.trans a2, b3.trans a3, by rw [b4, a4], by rw [b5, a5]⟩
  · obtain ⟨n, a1, a2, a3, a5⟩ := h.reader
    obtain ⟨n', b1, b2, b3, b4, b5⟩ := key b n a1
    exact ⟨n', b1, b2.trans a2, b3.trans a3, by rw [b5, a5]⟩
  · intro i ha hb n hn
    cases hs : g.slot i with
    | none => rw [e6 i hs] at hn; cases hn
    | some m =>
      obtain ⟨n', b1, b2, _⟩ := key i m hs
      rw [hn] at b1; cases b1
      rw [b2]
      exact h.others i ha hb m hs

/-- One quantum: the delay line of the node is processed as the stand-alone one. -/
theorem quantum_delay (bs : Sem B (Sig K) M) (e : Consts K) (sr : K) {g : RGraph (DProc B K) (Sig K)} (wf : WF g) {key a b : Nat}
    {dl : Nat → List K} {k : Nat} (hd : HasDelay g key a b dl k) (ha : a ∈ g.ordered) (hb : b ∈ g.ordered) (w : Mem K) :
    ∃ x, inputAt (dsem bs e sr) (g, w) a = some x ∧
      ∀ o alive l, (w.get key).turn (envOf e sr) (Round.turn (readerFirst g.ordered a b, framesOf e.N x, dl k)) = some (o, alive, l) →
        ∃ s2, foldOpt (renderNodeS (dsem bs e sr)) g.ordered (g, w) = some s2 ∧ HasDelay s2.1 key a b dl (k + 1) ∧
          (∃ n, s2.1.slot b = some n ∧ n.outputs = [ofFrames o]) ∧ ((dsem bs e sr).tick s2.2).get key = l := by
  have hL := wf.nodup
  have inv0 := wf_loopInv wf
  have hP := dpart bs e sr key
  have hadd : ∀ w v, ((dsem bs e sr).base w).add = ((dsem bs e sr).base v).add := fun _ _ => rfl
  obtain ⟨na, a1, a2, a3, a4, a5⟩ := hd.writer
  obtain ⟨nb, b1, b2, b3, b5⟩ := hd.reader
  have hsplit := split_at ha
  generalize hpre : g.ordered.takeWhile (· ≠ a) = pre at hsplit
  generalize (g.ordered.dropWhile (· ≠ a)).tail = rest at hsplit
  have hapre : a ∉ pre := by
    rw [← hpre]; intro h; have := List.mem_takeWhile_imp h; simp at this
  have hnd : (pre ++ a :: rest).Nodup := hsplit ▸ hL
  have hsubp : ∀ i ∈ pre, i ∈ g.ordered := fun i hi => by rw [hsplit]; simp [hi]
  have inv1 : LoopInv g.ordered (pre ++ a :: rest) g := by rw [← hsplit]; exact inv0
  obtain ⟨s1, f1, i1⟩ := loop_specS (dsem bs e sr) hL pre (a :: rest) (g, w) hsubp hnd inv1
  obtain ⟨n1, c1, c2, c3, c4, c5, _⟩ := loop_inputsS (dsem bs e sr) hL pre (a :: rest) (g, w) s1 hsubp hnd inv1 f1 a hapre na a1 hadd w
  obtain ⟨x, hx⟩ := List.length_eq_one_iff.1 (c5.trans a4)
  refine ⟨x, ?_, ?_⟩
  · unfold inputAt
    rw [hpre, f1]
    simp [c1, hx]
  intro o alive l ht
  have hoth : ∀ (s2 : RGraph (DProc B K) (Sig K) × Mem K), foldOpt (renderNodeS (dsem bs e sr)) g.ordered (g, w) = some s2 →
      ∀ i, i ≠ a → i ≠ b → ∀ n, s2.1.slot i = some n → ¬ uses key n.proc := fun s2 h2 i hia hib =>
    loop_others hP hL g.ordered [] (g, w) s2 (fun _ h => h) (by simpa using hL) (by simpa using inv0) h2 i (hd.others i hia hib)
  have hndr : (a :: rest).Nodup := (List.nodup_append.1 hnd).2.1
  have hsubr : ∀ i ∈ rest, i ∈ g.ordered := fun i hi => by rw [hsplit]; simp [hi]
  have harest : a ∉ rest := (List.nodup_cons.1 hndr).1
  by_cases hbp : b ∈ pre
  · -- the reader first
    have he : readerFirst g.ordered a b = true := by unfold readerFirst; rw [hpre]; simpa using hbp
    rw [he] at ht
    simp only [Round.turn, if_true, St.turn, Option.bind_eq_some_iff, Option.map_eq_some_iff, Prod.mk.injEq] at ht
    obtain ⟨⟨o', t', l1⟩, r1, l2, r2, rfl, rfl, rfl⟩ := ht
    obtain ⟨p1, p2, rfl⟩ := List.append_of_mem hbp
    simp only [List.append_assoc, List.cons_append, List.mem_append, List.mem_cons, not_or] at hapre hnd hsplit hsubp
    have hndb : (b :: (p2 ++ a :: rest)).Nodup := (List.nodup_append.1 hnd).2.1
    have hbn : b ∉ p2 ++ a :: rest := (List.nodup_cons.1 hndb).1
    have hb1 : b ∉ p1 := fun h => (List.nodup_append.1 hnd).2.2 b h b (by simp) rfl
    simp only [List.mem_append, List.mem_cons, not_or] at hbn
    have inv2 : LoopInv g.ordered (p1 ++ b :: (p2 ++ a :: rest)) g := by rw [← hsplit]; exact inv0
    obtain ⟨u1, d1, j1⟩ := loop_specS (dsem bs e sr) hL p1 (b :: (p2 ++ a :: rest)) (g, w) (fun i hi => hsubp i (.inl hi)) hnd inv2
    obtain ⟨m1, q1, q2, q3, q4, q5, _⟩ := loop_inputsS (dsem bs e sr) hL p1 _ (g, w) u1 (fun i hi => hsubp i (.inl hi)) hnd inv2 d1 b hb1 nb b1 hadd w
    have k1 : u1.2.get key = w.get key := loop_quiet hP hL p1 _ (g, w) u1 (fun i hi => hsubp i (.inl hi)) hnd inv2 d1 (fun i hi n hn =>
      hd.others i (by rintro rfl; exact hapre.1 hi) (by rintro rfl; exact hb1 hi) n hn)
    obtain ⟨g2, d2, j2, m2, y1, y2, y3, y4⟩ := step_reader bs e sr hL hb hndb j1 q1 (q2.trans b2) (q4.trans b3) (by rw [q3, b5]) (by rw [k1]; exact r1)
    have hnd2 : (p2 ++ a :: rest).Nodup := (List.nodup_cons.1 hndb).2
    have hsub2 : ∀ i ∈ p2, i ∈ g.ordered := fun i hi => hsubp i (.inr (.inr hi))
    obtain ⟨u3, d3, j3⟩ := loop_specS (dsem bs e sr) hL p2 (a :: rest) (g2, u1.2.set key l1) hsub2 hnd2 j2
    have hu3 : u3 = s1 := by
      rw [foldOpt_append, d1] at f1
      simp only [Option.bind_some, foldOpt, d2, d3, Option.some.injEq] at f1
      exact f1
    subst hu3
    have hq2 : ∀ i ∈ p2, ∀ n, g2.slot i = some n → ¬ uses key n.proc := by
      intro i hi n hn
      have := loop_others hP hL (p1 ++ [b]) (p2 ++ a :: rest) (g, w) (g2, u1.2.set key l1)
        (fun j hj => by rcases List.mem_append.1 hj with h | h
                        · exact hsubp j (.inl h)
                        · exact hsubp j (.inr (.inl (List.mem_singleton.1 h))))
        (by simpa using hnd) (by simpa using inv2) (by rw [foldOpt_append, d1]; simp [foldOpt, d2]) i
        (hd.others i (by rintro rfl; exact hapre.2.2 hi) (by rintro rfl; exact hbn.1 hi))
      exact this n hn
    have k3 : u3.2.get key = l1 := by
      rw [loop_quiet hP hL p2 _ (g2, u1.2.set key l1) u3 hsub2 hnd2 j2 d3 hq2]
      exact get_set _ _ (by rw [read_now r1, ← k1]; rfl)
    obtain ⟨m3, z1, z2, z3, z4, _⟩ := loop_inputsS (dsem bs e sr) hL p2 _ (g2, u1.2.set key l1) u3 hsub2 hnd2 j2 d3 b hbn.1 m2 y1 hadd w
    obtain ⟨g4, d4, j4, m4, v1, v2, v3, v4, v5⟩ := step_writer bs e sr hL ha hndr i1 c1 (c2.trans a2) (c4.trans a3) hx (by rw [c3, a5])
      (by rw [k3]; exact r2)
    have hr0 : (rest ++ []).Nodup := by simpa using (List.nodup_cons.1 hndr).2
    have j4' : LoopInv g.ordered (rest ++ []) g4 := by simpa using j4
    obtain ⟨u5, d5, j5⟩ := loop_specS (dsem bs e sr) hL rest [] (g4, u3.2.set key l2) hsubr hr0 j4'
    have hfold : foldOpt (renderNodeS (dsem bs e sr)) g.ordered (g, w) = some u5 := by
      rw [hsplit, foldOpt_append, d1]
      simp only [Option.bind_some, foldOpt, d2]
      rw [foldOpt_append, d3]
      simp only [Option.bind_some, foldOpt, d4, d5]
    -- the reader's node is not touched by the writer
    obtain ⟨n6, g6, hn6, hr6, hs6, _⟩ := loop_stepS (dsem bs e sr) hL ha hndr i1
    rw [d4] at hr6
    have hg6 : g6 = g4 := (Prod.mk.inj (Option.some.inj hr6)).1.symm
    subst hg6
    obtain ⟨m6, x0, x1, x2, x3, x4, x5, _⟩ := hs6.some b m3 (Ne.symm hd.ne) z1
    obtain ⟨m7, o1, o2, o3, o4, _⟩ := loop_inputsS (dsem bs e sr) hL rest [] (g6, u3.2.set key l2) u5 hsubr hr0 j4' d5 b hbn.2.2 m6 x0 hadd w
    obtain ⟨m8, w1, w2, w3, w4, w5, _⟩ := loop_inputsS (dsem bs e sr) hL rest [] (g6, u3.2.set key l2) u5 hsubr hr0 j4' d5 a harest m4 v1 hadd w
    have hq5 : ∀ i ∈ rest, ∀ n, g6.slot i = some n → ¬ uses key n.proc := by
      intro i hi n hn
      have := loop_others hP hL (p1 ++ b :: (p2 ++ [a])) rest (g, w) (g6, u3.2.set key l2)
        (fun j hj => by rw [hsplit]; simp only [List.mem_append, List.mem_cons, List.mem_singleton, List.not_mem_nil, or_false] at hj ⊢; tauto)
        (by simpa using hnd) (by simpa using inv2)
        (by rw [foldOpt_append, d1]; simp only [Option.bind_some, foldOpt, d2]; rw [foldOpt_append, d3]; simp [foldOpt, d4]) i
        (hd.others i (by rintro rfl; exact harest hi) (by rintro rfl; exact hbn.2.2 hi))
      exact this n hn
    refine ⟨u5, hfold, ⟨hd.ne, ⟨m8, w1, w2.trans v2, w4.trans v3, w5.trans v4, by rw [w3, v5]⟩,
      ⟨m7, o1, (o2.trans x2).trans (z2.trans y2), (o4.trans x5).trans (z4.trans y3), by rw [o3, x3, z3, y4]; rfl⟩, hoth u5 hfold⟩,
      ⟨m7, o1, by rw [o3, x3, z3, y4]⟩, ?_⟩
    have k5 : u5.2.get key = l2 := by
      rw [loop_quiet hP hL rest [] (g6, u3.2.set key l2) u5 hsubr hr0 j4' d5 hq5]
      exact get_set _ _ (by rw [write_now r2, ← k3]; rfl)
    rw [← k5]
    rfl
  · -- the writer first
    have he : readerFirst g.ordered a b = false := by unfold readerFirst; rw [hpre]; simpa using hbp
    rw [he] at ht
    simp only [Round.turn, Bool.false_eq_true, if_false, St.turn, Option.bind_eq_some_iff, Option.map_eq_some_iff, Prod.mk.injEq] at ht
    obtain ⟨l1, r1, ⟨o', t', l2⟩, r2, rfl, rfl, rfl⟩ := ht
    have hbr : b ∈ rest := by
      rw [hsplit] at hb
      simp only [List.mem_append, List.mem_cons] at hb
      rcases hb with h | h | h
      · exact absurd h hbp
      · exact absurd h.symm hd.ne
      · exact h
    obtain ⟨p2, post, rfl⟩ := List.append_of_mem hbr
    have k1 : s1.2.get key = w.get key := loop_quiet hP hL pre _ (g, w) s1 hsubp hnd inv1 f1 (fun i hi n hn =>
      hd.others i (by rintro rfl; exact hapre hi) (by rintro rfl; exact hbp hi) n hn)
    obtain ⟨m1, q1, q2, q3, q4, q5, _⟩ := loop_inputsS (dsem bs e sr) hL pre _ (g, w) s1 hsubp hnd inv1 f1 b hbp nb b1 hadd w
    obtain ⟨g2, d2, j2, m2, v1, v2, v3, v4, v5⟩ := step_writer bs e sr hL ha hndr i1 c1 (c2.trans a2) (c4.trans a3) hx (by rw [c3, a5])
      (by rw [k1]; exact r1)
    obtain ⟨n6, g6, hn6, hr6, hs6, _⟩ := loop_stepS (dsem bs e sr) hL ha hndr i1
    rw [d2] at hr6
    have hg6 : g6 = g2 := (Prod.mk.inj (Option.some.inj hr6)).1.symm
    subst hg6
    obtain ⟨m6, x0, x1, x2, x3, x4, x5, _⟩ := hs6.some b m1 (Ne.symm hd.ne) q1
    have hnd2 : (p2 ++ b :: post).Nodup := (List.nodup_cons.1 hndr).2
    have hbp2 : b ∉ p2 := fun h => (List.nodup_append.1 hnd2).2.2 b h b (by simp) rfl
    simp only [List.mem_append, List.mem_cons, not_or] at harest hsubr
    have hsub2 : ∀ i ∈ p2, i ∈ g.ordered := fun i hi => hsubr i (.inl hi)
    obtain ⟨u3, d3, j3⟩ := loop_specS (dsem bs e sr) hL p2 (b :: post) (g6, s1.2.set key l1) hsub2 hnd2 j2
    have hq2 : ∀ i, i ≠ a → i ≠ b → ∀ n, g6.slot i = some n → ¬ uses key n.proc := by
      intro i hia hib
      exact loop_others hP hL (pre ++ [a]) (p2 ++ b :: post) (g, w) (g6, s1.2.set key l1)
        (fun j hj => by rw [hsplit]; simp only [List.mem_append, List.mem_cons, List.mem_singleton, List.not_mem_nil, or_false] at hj ⊢; tauto)
        (by simpa using hnd) (by simpa using inv1) (by rw [foldOpt_append, f1]; simp [foldOpt, d2]) i (hd.others i hia hib)
    have k3 : u3.2.get key = l1 := by
      rw [loop_quiet hP hL p2 _ (g6, s1.2.set key l1) u3 hsub2 hnd2 j2 d3
        (fun i hi n hn => hq2 i (by rintro rfl; exact harest.1 hi) (by rintro rfl; exact hbp2 hi) n hn)]
      exact get_set _ _ (by rw [write_now r1, ← k1]; rfl)
    obtain ⟨m3, z1, z2, z3, z4, _⟩ := loop_inputsS (dsem bs e sr) hL p2 _ (g6, s1.2.set key l1) u3 hsub2 hnd2 j2 d3 b hbp2 m6 x0 hadd w
    have hndb : (b :: post).Nodup := (List.nodup_append.1 hnd2).2.1
    have hbpost : b ∉ post := (List.nodup_cons.1 hndb).1
    obtain ⟨g4, d4, j4, m4, y1, y2, y3, y4⟩ := step_reader bs e sr hL hb hndb j3 z1 (z2.trans (x2.trans (q2.trans b2)))
      (z4.trans (x5.trans (q4.trans b3))) (by rw [z3, x3, q3, b5]) (by rw [k3]; exact r2)
    have hr0 : (post ++ []).Nodup := by simpa using (List.nodup_cons.1 hndb).2
    have j4' : LoopInv g.ordered (post ++ []) g4 := by simpa using j4
    have hsub5 : ∀ i ∈ post, i ∈ g.ordered := fun i hi => hsubr i (.inr (.inr hi))
    obtain ⟨u5, d5, j5⟩ := loop_specS (dsem bs e sr) hL post [] (g4, u3.2.set key l2) hsub5 hr0 j4'
    have hfold : foldOpt (renderNodeS (dsem bs e sr)) g.ordered (g, w) = some u5 := by
      rw [hsplit, foldOpt_append, f1]
      simp only [Option.bind_some, foldOpt, d2]
      rw [foldOpt_append, d3]
      simp only [Option.bind_some, foldOpt, d4, d5]
    obtain ⟨m7, o1, o2, o3, o4, _⟩ := loop_inputsS (dsem bs e sr) hL post [] (g4, u3.2.set key l2) u5 hsub5 hr0 j4' d5 b hbpost m4 y1 hadd w
    -- the writer's node after its processing
    obtain ⟨m8, w1, w2, w3, w4, w5, _⟩ := loop_inputsS (dsem bs e sr) hL (p2 ++ b :: post) [] (g6, s1.2.set key l1) u5
      (fun j hj => hsubr j (by simpa using hj)) (by simpa using hnd2) (by simpa using j2)
      (by rw [foldOpt_append, d3]; simp only [Option.bind_some, foldOpt, d4, d5]) a (by simpa using harest) m2 v1 hadd w
    have hq5 : ∀ i ∈ post, ∀ n, g4.slot i = some n → ¬ uses key n.proc := by
      intro i hi n hn
      have := loop_others hP hL (p2 ++ [b]) post (g6, s1.2.set key l1) (g4, u3.2.set key l2)
        (fun j hj => hsubr j (by simp only [List.mem_append, List.mem_singleton] at hj; tauto))
        (by simpa using hnd2) (by simpa using j2) (by rw [foldOpt_append, d3]; simp [foldOpt, d4]) i
        (hq2 i (by rintro rfl; exact harest.2.2 hi) (by rintro rfl; exact hbpost hi))
      exact this n hn
    refine ⟨u5, hfold, ⟨hd.ne, ⟨m8, w1, w2.trans v2, w4.trans v3, w5.trans v4, by rw [w3, v5]⟩,
      ⟨m7, o1, o2.trans y2, o4.trans y3, by rw [o3, y4]; rfl⟩, hoth u5 hfold⟩, ⟨m7, o1, by rw [o3, y4]⟩, ?_⟩
    have k5 : u5.2.get key = l2 := by
      rw [loop_quiet hP hL post [] (g4, u3.2.set key l2) u5 hsub5 hr0 j4' d5 hq5]
      exact get_set _ _ (by rw [read_now r2, ← k3]; rfl)
    rw [← k5]
    rfl

/-! ### Delay lines that begin later -/

/-- a delay line, `d` quanta later -/
def later (d : Nat) (s : St K) : St K := { s with now := s.now + d, latest := s.latest.map (· + d) }

theorem write_later (e : Env K) (d : Nat) (s : St K) (q : Delay.Quantum K) : (later d s).write e q = (s.write e q).map (later d) := by
  unfold St.write
  show (if (later d s).writeIndex < (remix e (later d s).ring (chansOf q)).length then _ else _) =
    (if s.writeIndex < (remix e s.ring (chansOf q)).length then _ else _ : Option (St K)).map _
  by_cases h : s.writeIndex < (remix e s.ring (chansOf q)).length
  · rw [if_pos h, if_pos (show (later d s).writeIndex < (remix e (later d s).ring (chansOf q)).length from h)]; rfl
  · rw [if_neg h, if_neg (show ¬ (later d s).writeIndex < (remix e (later d s).ring (chansOf q)).length from h)]; rfl

theorem read_later (e : Env K) (d : Nat) (s : St K) (x : List K) :
    (later d s).read e x = (s.read e x).map fun r => (r.1, r.2.1, later d r.2.2) := by
  have hb : ((later d s).inCycle || decide ((later d s).latest ≠ some (later d s).now)) = (s.inCycle || decide (s.latest ≠ some s.now)) := by
    have : ((later d s).latest ≠ some (later d s).now) ↔ (s.latest ≠ some s.now) := by
      simp only [later]
      cases s.latest with
      | none => simp
      | some m => simp
    rw [decide_eq_decide.2 this]
    rfl
  unfold St.read
  rw [hb]
  dsimp only [later]
  cases infos e (s.inCycle || decide (s.latest ≠ some s.now)) s.ring.length s.readIndex x with
  | none => rfl
  | some ps =>
    simp only [Option.bind_some]
    cases ps.mapM (outFrame e s.ring (chansOf (s.ring.headD (Delay.silence 1)))) with
    | none => rfl
    | some out =>
      simp only [Option.map_some]
      split
      · rename_i hc
        exact (congrArg some (if_pos hc)).trans rfl
      · rename_i hc
        exact (congrArg some (if_neg hc)).trans rfl

theorem tick_later (d : Nat) (s : St K) : (later d s).tick = later d s.tick := by
  simp only [St.tick, later, St.mk.injEq, true_and]
  omega

theorem turn_later (e : Env K) (d : Nat) (s : St K) (t : Turn K) :
    (later d s).turn e t = (s.turn e t).map fun r => (r.1, r.2.1, later d r.2.2) := by
  cases t with
  | forward q x =>
    simp only [St.turn, write_later]
    cases s.write e q with
    | none => rfl
    | some s1 =>
      simp only [Option.map_some, Option.bind_some, read_later]
      cases s1.read e x with
      | none => rfl
      | some r => simp only [Option.map_some, tick_later]
  | cycle q x =>
    simp only [St.turn, read_later]
    cases s.read e x with
    | none => rfl
    | some r =>
      simp only [Option.map_some, Option.bind_some, write_later]
      cases r.2.2.write e q with
      | none => rfl
      | some s1 => simp only [Option.map_some, tick_later]
  | alone x =>
    simp only [St.turn, read_later]
    cases s.read e x with
    | none => rfl
    | some r => simp only [Option.map_some, tick_later]

/-! ### Frames and signals -/

theorem framesOf_uniform (N : Nat) (q : Sig K) : Uniform (chansOf (framesOf N q)) (framesOf N q) := by
  intro i
  simp [framesOf, chansOf]

/-- all frames of an output have the same number of channels -/
theorem read_even {e : Env K} {s s' : St K} {d : List K} {o : List (List K)} {t : Bool} (h : s.read e d = some (o, t, s')) :
    ∃ c, ∀ f ∈ o, f.length = c := by
  unfold St.read at h
  rw [Option.bind_eq_some_iff] at h
  obtain ⟨ps, _, h⟩ := h
  rw [Option.map_eq_some_iff] at h
  obtain ⟨out, hm, h⟩ := h
  have h2 : o = if out.all (fun f => f.all fun x => x = 0) then List.replicate e.N [0] else out := by
    dsimp only at h
    split at h <;> cases h <;> rfl
  rw [h2]
  split
  · exact ⟨1, fun f hf => by rw [List.eq_of_mem_replicate hf]; rfl⟩
  · refine ⟨chansOf (s.ring.headD (Delay.silence 1)), fun f hf => ?_⟩
    obtain ⟨p, _, hp⟩ := mapM_mem hm f hf
    unfold outFrame at hp
    rw [Option.bind_eq_some_iff] at hp
    obtain ⟨a, _, hp⟩ := hp
    rw [Option.map_eq_some_iff] at hp
    obtain ⟨b, _, rfl⟩ := hp
    simp

theorem turn_even {e : Env K} {s s' : St K} {x : Round K} {o : List (List K)} {t : Bool} (h : s.turn e x.turn = some (o, t, s')) :
    ∃ c, ∀ f ∈ o, f.length = c := by
  unfold Round.turn at h
  split at h
  · simp only [St.turn, Option.bind_eq_some_iff, Option.map_eq_some_iff, Prod.mk.injEq] at h
    obtain ⟨⟨o', t', l1⟩, r1, l2, r2, rfl, _⟩ := h
    exact read_even r1
  · simp only [St.turn, Option.bind_eq_some_iff, Option.map_eq_some_iff, Prod.mk.injEq] at h
    obtain ⟨l1, r1, ⟨o', t', l2⟩, r2, rfl, _⟩ := h
    exact read_even r2

/-- the samples of the output as a signal -/
theorem framesOf_ofFrames (N : Nat) {o : List (List K)} {c : Nat} (h : ∀ f ∈ o, f.length = c) {i : Nat} (hi : i < N) (j : Nat) :
    (framesOf N (ofFrames o) i).getD j 0 = Delay.heard o i j := by
  unfold ofFrames
  by_cases hz : (o.all fun f => f.all fun x => x = 0) = true
  · rw [if_pos hz]
    have h1 : heard o i j = 0 := by
      unfold Delay.heard
      rw [List.all_eq_true] at hz
      cases hf : o[i]? with
      | none => simp
      | some f =>
        have := hz f (List.mem_of_getElem? hf)
        simp only [List.all_eq_true, decide_eq_true_eq] at this
        simp only [Option.getD_some, List.getD_eq_getElem?_getD]
        cases hx : f[j]? with
        | none => rfl
        | some x => exact this x (List.mem_of_getElem? hx)
    rw [h1]
    simp only [framesOf, Node.silence, Node.Chan.data, List.map_cons, List.map_nil]
    cases j with
    | zero => simp [List.getD_eq_getElem?_getD, List.getElem?_replicate, hi]
    | succ j => simp
  · rw [if_neg hz]
    have hne : o ≠ [] := by rintro rfl; simp at hz
    obtain ⟨f0, o', rfl⟩ := List.exists_cons_of_ne_nil hne
    have hc : ((f0 :: o').headD []).length = c := h f0 (by simp)
    rw [hc]
    simp only [framesOf, List.map_map, Delay.heard, List.getD_eq_getElem?_getD, List.getElem?_map]
    by_cases hj : j < c
    · rw [List.getElem?_range hj]
      simp only [Option.map_some, Option.getD_some, Function.comp_apply, Node.Chan.data, List.getElem?_map]
      cases (f0 :: o')[i]? with
      | none => simp
      | some f => rfl
    · rw [List.getElem?_eq_none (by simpa using hj)]
      cases hf : (f0 :: o')[i]? with
      | none => simp
      | some f =>
        have := h f (List.mem_of_getElem? hf)
        simp only [Option.map_none, Option.getD_none, Option.getD_some]
        rw [List.getElem?_eq_none (by omega)]
        rfl

/-! ## C120 -/

/-- the values of the delay parameter fit into the ring -/
def Allowed (e : Env K) (cap : Nat) (delays : List K) : Prop :=
  (delays.length = 1 ∨ delays.length = e.N) ∧
    ∀ i, i < e.N → 0 ≤ delayAt delays i ∧ delayAt delays i * e.sr ≤ (e.N * (cap - 1 : Nat) : Nat)

/-- **C120.** Take any sequence of quanta, with any changes of the graph in between, in which the graph contains a delay node that is new at
the beginning, with both halves in the order of processing. In every quantum the writer gets a signal, and the output of the reader, at every
frame, is what the writer got earlier: the signal at this frame minus the delay (on the straight line between frames, mixed to the layouts of the
later inputs, silence before the beginning); if the reader is processed before the writer, now or earlier, the delay is at least a quantum. The
node keeps working. -/
theorem C120_delay (bs : Sem B (Sig K) M) (e : Consts K) (hN : 0 < e.N) {sr : K} (hsr : 0 < sr) {cap : Nat} (hcap : 2 ≤ cap)
    {key a b : Nat} {dl : Nat → List K} {T : Nat} {g g' : Nat → RGraph (DProc B K) (Sig K)} {w : Nat → Mem K} {y : Nat → Sig K}
    (hnew : (w 0).line key = St.new cap)
    (hrun : ∀ t < T, (g t).renderS (dsem bs e sr) (w t) = some ((g' t, w (t + 1)), y t))
    (hwf : ∀ t < T, WF (g t)) (hd : ∀ t < T, HasDelay (g t) key a b dl t)
    (hord : ∀ t < T, a ∈ (ready (g t)).ordered ∧ b ∈ (ready (g t)).ordered)
    (hdl : ∀ t < T, Allowed (envOf e sr) cap (dl t)) :
    ∀ t < T, HasDelay (g' t) key a b dl (t + 1) ∧ inputAt (dsem bs e sr) (ready (g t), w t) a = some (gets (dsem bs e sr) (g t) (w t) a) ∧
      ∃ n z, (g' t).slot b = some n ∧ n.outputs = [z] ∧
        ∀ ins, ins = (List.range (if readerFirst (ready (g t)).ordered a b then t else t + 1)).map
            (fun u => framesOf e.N (gets (dsem bs e sr) (g u) (w u) a)) →
          ∀ i < e.N, ∀ j < layout ins, (framesOf e.N z i).getD j 0 =
            between (envOf e sr) (past (envOf e sr) ins) ((t * e.N + i : Nat) - delayFrames (envOf e sr)
              ((List.range (t + 1)).any fun u => readerFirst (ready (g u)).ordered a b) (delayAt (dl t) i)) j := by
  let rd : Nat → Round K := fun u => (readerFirst (ready (g u)).ordered a b, framesOf e.N (gets (dsem bs e sr) (g u) (w u) a), dl u)
  have main : ∀ t ≤ T, ∃ s, Inv (envOf e sr) cap ((List.range t).map rd) s ∧ (w t).get key = later (w 0).now s := by
    intro t
    induction t with
    | zero =>
      intro _
      refine ⟨St.new cap, Inv.new _ hcap, ?_⟩
      simp only [Mem.get, hnew, later, St.new, Nat.zero_add, Option.map_none]
    | succ t ih =>
      intro ht
      obtain ⟨s, h1, h2⟩ := ih (by omega)
      have htT : t < T := by omega
      obtain ⟨g1, s2, e1, w1, f1, _, r1⟩ := renderS_eq (dsem bs e sr) (hwf t htT) (w t)
      have hr : ready (g t) = g1 := by simp [ready, e1]
      have hm := hord t htT
      rw [hr] at hm
      obtain ⟨x, x1, x2⟩ := quantum_delay bs e sr w1 ((hd t htT).ordered (hwf t htT) e1) hm.1 hm.2 (w t)
      have hx : gets (dsem bs e sr) (g t) (w t) a = x := by simp [gets, hr, x1]
      have hfits : Fits (envOf e sr) cap (rd t).2.1 (rd t).2.2 := ⟨framesOf_uniform _ _, (hdl t htT).1, (hdl t htT).2⟩
      obtain ⟨o, l, t1, t2, _⟩ := h1.round hsr hN hcap (fun z hz => by
        obtain ⟨u, _, rfl⟩ := List.mem_map.1 hz
        exact framesOf_uniform _ _) (rd t) hfits
      have ht2 : ((w t).get key).turn (envOf e sr) (Round.turn (readerFirst g1.ordered a b, framesOf e.N x, dl t)) =
          some (o, true, later (w 0).now l) := by
        have : rd t = (readerFirst g1.ordered a b, framesOf e.N x, dl t) := by simp only [rd, hr, hx]
        rw [← this, h2, turn_later, t1]
        rfl
      obtain ⟨s2', f2, _, _, k⟩ := x2 _ _ _ ht2
      rw [f1] at f2; cases f2
      rw [hrun t htT] at r1
      have hw : w (t + 1) = (dsem bs e sr).tick s2.2 := by
        symm at r1
        rw [Option.bind_eq_some_iff] at r1
        obtain ⟨d, _, r1⟩ := r1
        rw [Option.map_eq_some_iff] at r1
        obtain ⟨_, _, r1⟩ := r1
        exact ((Prod.mk.inj (Prod.mk.inj r1).1).2).symm
      refine ⟨l, ?_, ?_⟩
      · rw [List.range_succ, List.map_append]
        exact t2
      · rw [hw, k]
  intro t htT
  obtain ⟨s, h1, h2⟩ := main t htT.le
  obtain ⟨g1, s2, e1, w1, f1, _, r1⟩ := renderS_eq (dsem bs e sr) (hwf t htT) (w t)
  have hr : ready (g t) = g1 := by simp [ready, e1]
  have hm := hord t htT
  rw [hr] at hm
  obtain ⟨x, x1, x2⟩ := quantum_delay bs e sr w1 ((hd t htT).ordered (hwf t htT) e1) hm.1 hm.2 (w t)
  have hx : gets (dsem bs e sr) (g t) (w t) a = x := by simp [gets, hr, x1]
  have hfits : Fits (envOf e sr) cap (rd t).2.1 (rd t).2.2 := ⟨framesOf_uniform _ _, (hdl t htT).1, (hdl t htT).2⟩
  obtain ⟨o, l, t1, t2, t3, t4⟩ := h1.round hsr hN hcap (fun z hz => by
    obtain ⟨u, _, rfl⟩ := List.mem_map.1 hz
    exact framesOf_uniform _ _) (rd t) hfits
  have ht2 : ((w t).get key).turn (envOf e sr) (Round.turn (readerFirst g1.ordered a b, framesOf e.N x, dl t)) =
      some (o, true, later (w 0).now l) := by
    have : rd t = (readerFirst g1.ordered a b, framesOf e.N x, dl t) := by simp only [rd, hr, hx]
    rw [← this, h2, turn_later, t1]
    rfl
  obtain ⟨s2', f2, hd2, ⟨n, n1, n2⟩, k⟩ := x2 _ _ _ ht2
  rw [f1] at f2; cases f2
  rw [hrun t htT] at r1
  have hslot : (g' t).slot = s2.1.slot := by
    symm at r1
    rw [Option.bind_eq_some_iff] at r1
    obtain ⟨d, _, r1⟩ := r1
    rw [Option.map_eq_some_iff] at r1
    obtain ⟨_, _, r1⟩ := r1
    rw [← (Prod.mk.inj (Prod.mk.inj r1).1).1]
  refine ⟨⟨hd2.ne, by rw [hslot]; exact hd2.writer, by rw [hslot]; exact hd2.reader, by rw [hslot]; exact hd2.others⟩,
    by rw [hr, x1, hx], n, ofFrames o, by rw [hslot]; exact n1, n2, ?_⟩
  intro ins hins i hi j hj
  obtain ⟨c, hc⟩ := turn_even t1
  rw [framesOf_ofFrames e.N hc hi]
  have hins' : ((if (rd t).1 then (List.range t).map rd else (List.range t).map rd ++ [rd t]).map (·.2.1)) = ins := by
    rw [hins]
    rw [show (rd t).1 = readerFirst (ready (g t)).ordered a b from rfl]
    split
    · rw [List.map_map]; rfl
    · rw [List.range_succ, List.map_append, List.map_append, List.map_map]; rfl
  rw [hins'] at t4
  have := t4 i hi j hj
  rw [this, List.length_map, List.length_range]
  have hany : ((List.range t).map rd ++ [rd t]).any (·.1) = (List.range (t + 1)).any fun u => readerFirst (ready (g u)).ordered a b := by
    rw [List.range_succ, List.any_append, List.any_append, List.any_map]
    rfl
  rw [hany]
  rfl

/-- **C120, the input.** What a node finds at its input when it is processed: what is there at the beginning of the quantum (silence) and the
sum of what the nodes before it in the order have sent to it in this quantum. -/
theorem C120_input {P W : Type} (sem : SemS P (Sig K) M W) (hadd : ∀ w v, (sem.base w).add = (sem.base v).add) {g : RGraph P (Sig K)}
    (wf : WF g) {a : Nat} (ha : a ∈ g.ordered) {n : Node P (Sig K)} (hn : g.slot a = some n) {x : Sig K} (hx : n.inputs = [x]) (w : W) :
    inputAt sem (g, w) a =
      some ((arrived (traceS sem (g.ordered.takeWhile (· ≠ a)) (g, w)) a 0).foldl ((sem.base w).add n.cfg) x) := by
  have hL := wf.nodup
  have inv0 := wf_loopInv wf
  have hsplit := split_at ha
  unfold inputAt
  simp only
  generalize hpre : g.ordered.takeWhile (· ≠ a) = pre at hsplit
  generalize (g.ordered.dropWhile (· ≠ a)).tail = rest at hsplit
  have hapre : a ∉ pre := by
    rw [← hpre]; intro h; have := List.mem_takeWhile_imp h; simp at this
  have hnd : (pre ++ a :: rest).Nodup := hsplit ▸ hL
  have hsubp : ∀ i ∈ pre, i ∈ g.ordered := fun i hi => by rw [hsplit]; simp [hi]
  have inv1 : LoopInv g.ordered (pre ++ a :: rest) g := by rw [← hsplit]; exact inv0
  obtain ⟨s1, f1, i1⟩ := loop_specS sem hL pre (a :: rest) (g, w) hsubp hnd inv1
  obtain ⟨n1, c1, c2, c3, c4, c5, c6⟩ := loop_inputsS sem hL pre (a :: rest) (g, w) s1 hsubp hnd inv1 f1 a hapre n hn hadd w
  rw [f1]
  simp only [Option.bind_some, c1]
  have := c6 0
  rw [hx] at this
  simpa [List.head?_eq_getElem?] using this

/-- **C120, a graph that is left alone.** As `C120_delay`, if nothing happens between the quanta; everything is only assumed of the first graph. -/
theorem C120_alone (bs : Sem B (Sig K) M) (e : Consts K) (hN : 0 < e.N) {sr : K} (hsr : 0 < sr) {cap : Nat} (hcap : 2 ≤ cap)
    {key a b : Nat} {dl : Nat → List K} {T : Nat} {g : Nat → RGraph (DProc B K) (Sig K)} {w : Nat → Mem K} {y : Nat → Sig K}
    (hnew : (w 0).line key = St.new cap)
    (hrun : ∀ t < T, (g t).renderS (dsem bs e sr) (w t) = some ((g (t + 1), w (t + 1)), y t))
    (hwf : WF (g 0)) (hd : HasDelay (g 0) key a b dl 0) (hord : a ∈ (ready (g 0)).ordered ∧ b ∈ (ready (g 0)).ordered)
    (hdl : ∀ t < T, Allowed (envOf e sr) cap (dl t)) :
    ∀ t < T, readerFirst (ready (g t)).ordered a b = readerFirst (ready (g 0)).ordered a b ∧
      ∃ n z, (g (t + 1)).slot b = some n ∧ n.outputs = [z] ∧
        ∀ ins, ins = (List.range (if readerFirst (ready (g 0)).ordered a b then t else t + 1)).map
            (fun u => framesOf e.N (gets (dsem bs e sr) (g u) (w u) a)) →
          ∀ i < e.N, ∀ j < layout ins, (framesOf e.N z i).getD j 0 =
            between (envOf e sr) (past (envOf e sr) ins) ((t * e.N + i : Nat) -
              delayFrames (envOf e sr) (readerFirst (ready (g 0)).ordered a b) (delayAt (dl t) i)) j := by
  have step : ∀ t ≤ T, WF (g t) ∧ HasDelay (g t) key a b dl t ∧ (a ∈ (ready (g t)).ordered ∧ b ∈ (ready (g t)).ordered) ∧
      readerFirst (ready (g t)).ordered a b = readerFirst (ready (g 0)).ordered a b := by
    intro t
    induction t using Nat.strong_induction_on with
    | _ t ih =>
      intro ht
      cases t with
      | zero => exact ⟨hwf, hd, hord, rfl⟩
      | succ t =>
        obtain ⟨i1, i2, i3, i4⟩ := ih t (by omega) (by omega)
        have hD := (C120_delay bs e hN hsr hcap (T := t + 1) (g := g) (g' := fun t => g (t + 1)) (w := w) (y := y) hnew
          (fun u hu => hrun u (by omega)) (fun u hu => (ih u (by omega) (by omega)).1) (fun u hu => (ih u (by omega) (by omega)).2.1)
          (fun u hu => (ih u (by omega) (by omega)).2.2.1) (fun u hu => hdl u (by omega)) t (by omega)).1
        obtain ⟨g1, s2, e1, w1, f1, l1, r1⟩ := renderS_eq (dsem bs e sr) i1 (w t)
        have hr : ready (g t) = g1 := by simp [ready, e1]
        rw [hrun t (by omega)] at r1
        have hg : g (t + 1) = { s2.1 with ordered := s2.1.ordered.filter fun i => (s2.1.slot i).isSome } := by
          symm at r1
          rw [Option.bind_eq_some_iff] at r1
          obtain ⟨d, _, r1⟩ := r1
          rw [Option.map_eq_some_iff] at r1
          obtain ⟨_, _, r1⟩ := r1
          exact ((Prod.mk.inj (Prod.mk.inj r1).1).1).symm
        obtain ⟨na, ha1, _⟩ := hD.writer
        obtain ⟨nb, hb1, _⟩ := hD.reader
        rw [hr] at i3 i4
        have ho2 : (g (t + 1)).ordered = g1.ordered.filter fun i => (s2.1.slot i).isSome := by rw [hg]; simp only [l1.ordered]
        have hsl : (g (t + 1)).slot = s2.1.slot := by rw [hg]
        rw [hsl] at ha1 hb1
        have hma : a ∈ (g (t + 1)).ordered := by rw [ho2]; simp [i3.1, ha1]
        have hmb : b ∈ (g (t + 1)).ordered := by rw [ho2]; simp [i3.2, hb1]
        have hready : ready (g (t + 1)) = g (t + 1) := by
          unfold ready orderedGraph
          rw [if_neg (fun h => by rw [h] at hma; simp at hma)]
          rfl
        have hwf' : WF (g (t + 1)) := by rw [hg]; exact prune_wf w1.nodup l1
        refine ⟨hwf', hD, by rw [hready]; exact ⟨hma, hmb⟩, ?_⟩
        rw [hready, ← i4, ho2]
        unfold readerFirst
        refine decide_eq_decide.2 ?_
        have hpa : (decide ((s2.1.slot a).isSome = true)) = true := by simp [ha1]
        have hL := w1.nodup
        generalize g1.ordered = L at i3
        clear * - ha1 hb1
        induction L with
        | nil => simp
        | cons c L ih =>
          by_cases hc : c = a
          · subst hc
            simp [ha1]
          · cases hs : (s2.1.slot c).isSome with
            | true =>
              rw [List.filter_cons_of_pos (by simpa using hs), List.takeWhile_cons_of_pos (by simpa using hc),
                List.takeWhile_cons_of_pos (by simpa using hc)]
              simp only [List.mem_cons, ih]
            | false =>
              rw [List.filter_cons_of_neg (by simp [hs]), List.takeWhile_cons_of_pos (l := L) (by simpa using hc)]
              refine ih.trans ?_
              simp only [List.mem_cons]
              constructor
              · exact Or.inr
              · rintro (h | h)
                · subst h; rw [hb1] at hs; simp at hs
                · exact h
  intro t ht
  obtain ⟨_, _, n, z, h1, h2, h3⟩ := C120_delay bs e hN hsr hcap (T := T) (g := g) (g' := fun t => g (t + 1)) (w := w) (y := y) hnew hrun
    (fun u hu => (step u hu.le).1) (fun u hu => (step u hu.le).2.1) (fun u hu => (step u hu.le).2.2.1) hdl t ht
  refine ⟨(step t ht.le).2.2.2, n, z, h1, h2, ?_⟩
  have hany : ((List.range (t + 1)).any fun u => readerFirst (ready (g u)).ordered a b) = readerFirst (ready (g 0)).ordered a b := by
    rw [Bool.eq_iff_iff, List.any_eq_true]
    constructor
    · rintro ⟨u, hu, h⟩
      rw [← (step u (by have := List.mem_range.1 hu; omega)).2.2.2]
      exact h
    · intro h
      exact ⟨0, by simp, h⟩
  rw [hany, (step t ht.le).2.2.2] at h3
  exact h3

end

/-! ### A graph that meets the hypotheses -/

/-- In quanta of two frames: a source that plays 8, 16 in the first quantum, a delay of three frames, the destination. -/
def delayDemo : RGraph (DProc (Proc ℚ) ℚ) (Sig ℚ) where
  cap := 4
  slot := fun i =>
    if i = 0 then some ⟨0, .base .destination, [[none]], [[none]], ⟨1, 2, 0⟩, [], false, false, false⟩
    else if i = 1 then some ⟨1, .base (.source (fun k => (if k = 0 then [some [8, 16]] else [none], true)) 0), [], [[none]], ⟨2, 0, 0⟩,
      [⟨0, 3, some 0⟩], false, false, false⟩
    else if i = 2 then some ⟨2, .reader 0 (fun _ => [3 / 100]) 0, [[none]], [[none]], ⟨2, 0, 0⟩, [⟨0, 0, some 0⟩], false, false, false⟩
    else if i = 3 then some ⟨3, .writer 0, [[none]], [[none]], ⟨2, 0, 0⟩, [⟨0, 2, some 0⟩], false, false, true⟩
    else none
  ordered := [1, 3, 2, 0]
  reclaimed := []

/-- a quantum; nothing happens if it fails -/
def quantumDemo (s : RGraph (DProc (Proc ℚ) ℚ) (Sig ℚ) × Mem ℚ) : RGraph (DProc (Proc ℚ) ℚ) (Sig ℚ) × Mem ℚ :=
  ((s.1.renderS (dsem (sem demoConsts) demoConsts 100) s.2).map (·.1)).getD s

/-- the states before the quanta -/
def statesDemo (t : Nat) : RGraph (DProc (Proc ℚ) ℚ) (Sig ℚ) × Mem ℚ := quantumDemo^[t] (delayDemo, Mem.new fun _ => 3)

/-- the sound of the quanta -/
def soundDemo (t : Nat) : Sig ℚ :=
  (((statesDemo t).1.renderS (dsem (sem demoConsts) demoConsts 100) (statesDemo t).2).map (·.2)).getD []

theorem delayDemo_wf : WF delayDemo := by
  refine ⟨⟨?_, ?_⟩, by decide, ?_, ?_⟩
  · intro i n hn
    simp only [delayDemo] at hn ⊢
    split at hn
    · omega
    · split at hn
      · omega
      · split at hn
        · omega
        · split at hn
          · omega
          · cases hn
  · intro i n hn e he
    simp only [delayDemo] at hn ⊢
    split at hn
    · cases hn; simp at he
    · split at hn
      · cases hn
        simp only [List.mem_singleton] at he
        subst he
        exact ⟨by decide, _, rfl, fun p hp => by cases hp; decide⟩
      · split at hn
        · cases hn
          simp only [List.mem_singleton] at he
          subst he
          exact ⟨by decide, _, rfl, fun p hp => by cases hp; decide⟩
        · split at hn
          · cases hn
            simp only [List.mem_singleton] at he
            subst he
            exact ⟨by decide, _, rfl, fun p hp => by cases hp; decide⟩
          · cases hn
  · intro i hi
    simp only [delayDemo, List.mem_cons, List.not_mem_nil, or_false] at hi
    rcases hi with rfl | rfl | rfl | rfl <;> exact ⟨_, rfl⟩
  · intro u hu v hv n hn ⟨e, he, hd⟩
    simp only [delayDemo, List.mem_cons, List.not_mem_nil, or_false] at hu hv
    rcases hu with rfl | rfl | rfl | rfl
    · cases hn
      simp only [List.mem_singleton] at he
      subst he
      subst hd
      exact ⟨[], [], [2, 0], rfl⟩
    · cases hn
      simp only [List.mem_singleton] at he
      subst he
      subst hd
      exact ⟨[1], [], [0], rfl⟩
    · cases hn
      simp only [List.mem_singleton] at he
      subst he
      subst hd
      exact ⟨[1, 3], [], [], rfl⟩
    · cases hn
      simp at he

theorem delayDemo_has : HasDelay delayDemo 0 3 2 (fun _ => [3 / 100]) 0 := by
  refine ⟨by decide, ⟨_, rfl, rfl, rfl, rfl, rfl⟩, ⟨_, rfl, rfl, rfl, rfl⟩, ?_⟩
  intro i h1 h2 n hn
  simp only [delayDemo] at hn
  split at hn
  · cases hn; simp [uses]
  · split at hn
    · cases hn; simp [uses]
    · simp [h1, h2] at hn

/-- The hypotheses of `C120_alone` for three quanta, and what is heard: 8, 16 begin three frames late. -/
example : (∀ t < 3, (statesDemo t).1.renderS (dsem (sem demoConsts) demoConsts 100) (statesDemo t).2 =
      some (((statesDemo (t + 1)).1, (statesDemo (t + 1)).2), soundDemo t)) ∧
    WF (statesDemo 0).1 ∧ HasDelay (statesDemo 0).1 0 3 2 (fun _ => [3 / 100]) 0 ∧ (statesDemo 0).2.line 0 = St.new 3 ∧
    (3 ∈ (ready (statesDemo 0).1).ordered ∧ 2 ∈ (ready (statesDemo 0).1).ordered) ∧
    (∀ t < 3, Allowed (envOf demoConsts 100) 3 ([3 / 100] : List ℚ)) ∧
    [soundDemo 0, soundDemo 1, soundDemo 2] = [[none], [some [0, 8]], [some [16, 0]]] := by
  refine ⟨?_, delayDemo_wf, delayDemo_has, rfl, ⟨by decide +kernel, by decide +kernel⟩, ?_, by decide +kernel⟩
  · intro t ht
    have hs : ((statesDemo t).1.renderS (dsem (sem demoConsts) demoConsts 100) (statesDemo t).2).isSome = true := by
      rcases (by omega : t = 0 ∨ t = 1 ∨ t = 2) with rfl | rfl | rfl <;> decide +kernel
    obtain ⟨r, hr⟩ := Option.isSome_iff_exists.1 hs
    have h1 : statesDemo (t + 1) = r.1 := by
      unfold statesDemo
      rw [Function.iterate_succ_apply']
      show quantumDemo (statesDemo t) = r.1
      unfold quantumDemo
      rw [hr]
      rfl
    have h2 : soundDemo t = r.2 := by
      unfold soundDemo
      rw [hr]
      rfl
    rw [hr, h1, h2]
  · intro t _
    refine ⟨.inl rfl, fun i hi => ?_⟩
    simp only [delayAt, envOf, demoConsts] at hi ⊢
    norm_num

end Verif.Engine
