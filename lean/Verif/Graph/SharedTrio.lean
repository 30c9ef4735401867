import Verif.Graph.Shared
import Verif.Graph.Trio

/-!
# Three renderings side by side, with shared memory

`Verif.Graph.HomOn` and `Verif.Graph.Trio` for processors that share memory (`Verif.Graph.Shared`; `/repo/src/render/graph.rs` l.490-591): a
relation between three renderings that is kept by processing, summing, messages and the memory holds for the sounds of three histories.
-/

namespace Verif.Render

variable {P S M W P' S' M' W' : Type}

/-- A translation of processors, signals, messages and memory under an invariant. -/
structure HomOnS (sem : SemS P S M W) (sem' : SemS P' S' M' W') where
  fP : P → P'
  fS : S → S'
  fM : M → M'
  fW : W → W'
  okP : Cfg → P → Prop
  okI : Cfg → S → Prop
  okO : S → Prop
  okM : M → Prop
  okC : Cfg → Prop
  okW : W → Prop
  process : ∀ w c p ins outs (ps : Nat → Option S), okW w → okP c p → (∀ x ∈ ins, okI c x) → (∀ x ∈ outs, okO x) →
    ((sem'.base (fW w)).process (fP p) (ins.map fS) (outs.map fS) (fun j => (ps j).map fS)).map (fun r => (r.1, r.2.1)) =
      ((sem.base w).process p ins outs ps).map fun r => (fP r.1, r.2.1.map fS)
  process_ok : ∀ w c p ins outs (ps : Nat → Option S) r, okW w → okP c p → (∀ x ∈ ins, okI c x) → (∀ x ∈ outs, okO x) →
    (sem.base w).process p ins outs ps = some r → okP c r.1 ∧ ∀ x ∈ r.2.1, okO x
  onmessage : ∀ w c p m, okW w → okP c p → okM m → (sem'.base (fW w)).onmessage (fP p) (fM m) = ((sem.base w).onmessage p m).map fP
  onmessage_ok : ∀ w c p m p', okW w → okP c p → okM m → (sem.base w).onmessage p m = some p' → okP c p'
  silence : ∀ w, okW w → (sem'.base (fW w)).silence = fS (sem.base w).silence
  silence_okI : ∀ w c, okW w → okI c (sem.base w).silence
  silence_okO : ∀ w, okW w → okO (sem.base w).silence
  okP_okC : ∀ c p, okP c p → okC c
  add : ∀ w c a b, okW w → okC c → okI c a → okO b → (sem'.base (fW w)).add c (fS a) (fS b) = fS ((sem.base w).add c a b)
  add_ok : ∀ w c a b, okW w → okC c → okI c a → okO b → okI c ((sem.base w).add c a b)
  memory : ∀ w c p ins outs (ps : Nat → Option S), okW w → okP c p → (∀ x ∈ ins, okI c x) → (∀ x ∈ outs, okO x) →
    sem'.memory (fW w) (fP p) (ins.map fS) (outs.map fS) (fun j => (ps j).map fS) = fW (sem.memory w p ins outs ps) ∧
      okW (sem.memory w p ins outs ps)
  dropped : ∀ w c p, okW w → okP c p → sem'.dropped (fW w) (fP p) = fW (sem.dropped w p) ∧ okW (sem.dropped w p)
  tick : ∀ w, okW w → sem'.tick (fW w) = fW (sem.tick w) ∧ okW (sem.tick w)

namespace HomOnS

variable {sem : SemS P S M W} {sem' : SemS P' S' M' W'} (h : HomOnS sem sem')

/-- the translation while the memory is `w`; what it does to graphs does not depend on `w` -/
def hom (w : W) (hw : h.okW w) : HomOn (sem.base w) (sem'.base (h.fW w)) where
  fP := h.fP
  fS := h.fS
  fM := h.fM
  okP := h.okP
  okI := h.okI
  okO := h.okO
  okM := h.okM
  okC := h.okC
  process c p ins outs ps := h.process w c p ins outs ps hw
  process_ok c p ins outs ps r := h.process_ok w c p ins outs ps r hw
  onmessage c p m := h.onmessage w c p m hw
  onmessage_ok c p m p' := h.onmessage_ok w c p m p' hw
  silence := h.silence w hw
  silence_okI c := h.silence_okI w c hw
  silence_okO := h.silence_okO w hw
  okP_okC := h.okP_okC
  add c a b := h.add w c a b hw
  add_ok c a b := h.add_ok w c a b hw

theorem renderNode_map (v : W) (hv : h.okW v) {s : RGraph P S × W} (hs : (h.hom v hv).okGraph s.1 ∧ h.okW s.2) (i : Nat) :
    RGraph.renderNodeS sem' ((h.hom v hv).graph s.1, h.fW s.2) i =
        (RGraph.renderNodeS sem s i).map (fun s => ((h.hom v hv).graph s.1, h.fW s.2)) ∧
      ∀ s', RGraph.renderNodeS sem s i = some s' → (h.hom v hv).okGraph s'.1 ∧ h.okW s'.2 := by
  obtain ⟨g, w⟩ := s
  obtain ⟨hg, hw⟩ := hs
  simp only at hg hw
  unfold RGraph.renderNodeS
  simp only
  rw [HomOn.graph_get]
  cases hn : g.get i with
  | none => exact ⟨rfl, fun s' hs' => by cases hs'⟩
  | some n =>
    simp only [Option.map_some]
    have hok : (h.hom w hw).okNode n := HomOn.ok_get (h.hom w hw) hg hn
    obtain ⟨hm, hm'⟩ := h.memory w n.cfg n.proc n.inputs n.outputs (g.params i) hw hok.2.1 hok.2.2.1 hok.2.2.2
    obtain ⟨hp1, _, hp3⟩ := HomOn.node_process (h.hom w hw) g i hok
    obtain ⟨hr1, hr2⟩ := HomOn.graph_renderNode (h.hom w hw) hg i
    obtain ⟨hd, hd'⟩ := h.dropped (sem.memory w n.proc n.inputs n.outputs (g.params i)) _ _ hm' hp3.2.1
    rw [show ((h.hom v hv).graph g).params i = fun j => (g.params i j).map h.fS from funext (HomOn.graph_params (h.hom v hv) g i),
      show ((h.hom v hv).node n).proc = h.fP n.proc from rfl, show ((h.hom v hv).node n).inputs = n.inputs.map h.fS from rfl,
      show ((h.hom v hv).node n).outputs = n.outputs.map h.fS from rfl, hm]
    rw [show ((h.hom v hv).graph g).renderNode (sem'.base (h.fW w)) i = ((g.renderNode (sem.base w) i).map (h.hom v hv).graph) from hr1,
      show (((h.hom v hv).graph g).process (sem'.base (h.fW w)) i ((h.hom v hv).node n)).1 =
        (h.hom v hv).node (g.process (sem.base w) i n).1 from hp1]
    constructor
    · rw [Option.map_map, Option.map_map]
      congr 1
      funext g'
      simp only [Function.comp_apply, Prod.mk.injEq, true_and]
      have hs : (((h.hom v hv).graph g').slot i).isSome = (g'.slot i).isSome := by
        show ((g'.slot i).map (h.hom v hv).node).isSome = _
        cases g'.slot i <;> rfl
      rw [hs]
      split
      · rfl
      · exact hd
    · intro s' hs'
      simp only [Option.map_eq_some_iff] at hs'
      obtain ⟨g', hg', rfl⟩ := hs'
      refine ⟨hr2 g' hg', ?_⟩
      simp only
      split
      · exact hm'
      · exact hd'

/-- one quantum -/
theorem render_map (v : W) (hv : h.okW v) {g : RGraph P S} (hg : (h.hom v hv).okGraph g) {w : W} (hw : h.okW w) :
    ((h.hom v hv).graph g).renderS sem' (h.fW w) =
        (g.renderS sem w).map (fun r => (((h.hom v hv).graph r.1.1, h.fW r.1.2), h.fS r.2)) ∧
      ∀ r, g.renderS sem w = some r → (h.hom v hv).okGraph r.1.1 ∧ h.okW r.1.2 ∧ h.okO r.2 := by
  unfold RGraph.renderS
  have h0 : (if ((h.hom v hv).graph g).ordered = [] then ((h.hom v hv).graph g).order else some ((h.hom v hv).graph g)) =
      (if g.ordered = [] then g.order else some g).map (h.hom v hv).graph := by
    rw [show ((h.hom v hv).graph g).ordered = g.ordered from rfl]
    split
    · exact HomOn.graph_order (h.hom v hv) g
    · rfl
  have h1 : ∀ g1, (if g.ordered = [] then g.order else some g) = some g1 → (h.hom v hv).okGraph g1 := by
    intro g1 hg1
    split at hg1
    · exact HomOn.ok_order (h.hom v hv) hg hg1
    · cases hg1; exact hg
  rw [h0]
  cases hc : (if g.ordered = [] then g.order else some g) with
  | none => exact ⟨rfl, fun g' hg' => by cases hg'⟩
  | some g1 =>
    obtain ⟨hf1, hf2⟩ := HomOn.foldOpt_map (fun s : RGraph P S × W => ((h.hom v hv).graph s.1, h.fW s.2))
      (fun s => (h.hom v hv).okGraph s.1 ∧ h.okW s.2) (RGraph.renderNodeS sem) (RGraph.renderNodeS sem')
      (fun b a hb => renderNode_map h v hv hb a) g1.ordered (g1, w) ⟨h1 g1 hc, hw⟩
    simp only [Option.map_some]
    rw [show ((h.hom v hv).graph g1).ordered = g1.ordered from rfl, hf1]
    cases hd : RGraph.foldOpt (RGraph.renderNodeS sem) g1.ordered (g1, w) with
    | none => exact ⟨rfl, fun g' hg' => by cases hg'⟩
    | some r =>
      obtain ⟨hg2, hw2⟩ := hf2 r hd
      obtain ⟨g2, w2⟩ := r
      simp only at hg2 hw2
      obtain ⟨ht, ht'⟩ := h.tick w2 hw2
      simp only [Option.map_some]
      have h3 : ({ (h.hom v hv).graph g2 with
            ordered := ((h.hom v hv).graph g2).ordered.filter fun i => (((h.hom v hv).graph g2).slot i).isSome } : RGraph P' S') =
          (h.hom v hv).graph { g2 with ordered := g2.ordered.filter fun i => (g2.slot i).isSome } := by
        simp [HomOn.graph]
      rw [h3, HomOn.graph_get]
      cases he : RGraph.get { g2 with ordered := g2.ordered.filter fun i => (g2.slot i).isSome } 0 with
      | none => exact ⟨rfl, fun g' hg' => by cases hg'⟩
      | some d =>
        have hd : (h.hom v hv).okNode d := by
          refine HomOn.ok_get (g := { g2 with ordered := g2.ordered.filter fun i => (g2.slot i).isSome }) (h.hom v hv) ?_ he
          exact hg2
        refine ⟨?_, fun r hr => ?_⟩
        · simp only [Option.map_some, HomOn.node, List.head?_map, Option.map_map, ht]
          rfl
        · simp only [Option.map_eq_some_iff] at hr
          obtain ⟨o, ho, rfl⟩ := hr
          exact ⟨hg2, ht', hd.2.2.2 o (List.mem_of_head? ho)⟩

/-- The sound of a translated history is the translated sound, and it meets the invariant of outputs. -/
theorem sound_map (v : W) (hv : h.okW v) (ops : List (Op P M)) (ho : ∀ op ∈ ops, (h.hom v hv).okOp op) :
    ∀ (s : Sys P S M) (w : W), (h.hom v hv).okSys s → h.okW w →
    Sys.soundS sem' ((h.hom v hv).sys s, h.fW w) (ops.map (h.hom v hv).op) =
        (Sys.soundS sem (s, w) ops).map (fun r => (((h.hom v hv).sys r.1.1, h.fW r.1.2), r.2.map h.fS)) ∧
      ∀ r, Sys.soundS sem (s, w) ops = some r → ∀ x ∈ r.2, h.okO x := by
  induction ops with
  | nil => intro s w _ _; exact ⟨rfl, fun r hr => by cases hr; simp⟩
  | cons o ops ih =>
    intro s w hs hw
    have ih := ih fun op hop => ho op (by simp [hop])
    by_cases hq : o = .quantum
    · subst hq
      have hm := render_map h v hv hs.1 hw
      simp only [List.map_cons, HomOn.op, Sys.soundS]
      rw [show ((h.hom v hv).sys s).g = (h.hom v hv).graph s.g from rfl, hm.1]
      cases hc : s.g.renderS sem w with
      | none => exact ⟨rfl, fun g' hg' => by cases hg'⟩
      | some r =>
        have hr := hm.2 r hc
        simp only [Option.map_some]
        have := ih { s with g := r.1.1 } r.1.2 ⟨hr.1, hs.2⟩ hr.2.1
        rw [show ({ (h.hom v hv).sys s with g := (h.hom v hv).graph r.1.1 } : Sys P' S' M') = (h.hom v hv).sys { s with g := r.1.1 } from rfl,
          this.1, Option.map_map, Option.map_map]
        refine ⟨rfl, fun r' hr' => ?_⟩
        simp only [Option.map_eq_some_iff] at hr'
        obtain ⟨r2, h2, rfl⟩ := hr'
        intro x hx
        rcases List.mem_cons.1 hx with rfl | hx
        · exact hr.2.2
        · exact this.2 r2 h2 x hx
    · have e1 : Sys.soundS sem (s, w) (o :: ops) = match s.step (sem.base w) o with
          | none => none
          | some s' => Sys.soundS sem (s', w) ops := by
        cases o <;> first | rfl | exact absurd rfl hq
      have e2 : Sys.soundS sem' ((h.hom v hv).sys s, h.fW w) ((o :: ops).map (h.hom v hv).op) =
          match ((h.hom v hv).sys s).step (sem'.base (h.fW w)) ((h.hom v hv).op o) with
          | none => none
          | some s' => Sys.soundS sem' (s', h.fW w) (ops.map (h.hom v hv).op) := by
        cases o <;> first | rfl | exact absurd rfl hq
      have hm := HomOn.sys_step (h.hom w hw) hs (ho o (by simp))
      rw [e1, e2, show ((h.hom v hv).sys s).step (sem'.base (h.fW w)) ((h.hom v hv).op o) = (s.step (sem.base w) o).map (h.hom v hv).sys from
        hm.1]
      cases hc : s.step (sem.base w) o with
      | none => exact ⟨rfl, fun g' hg' => by cases hg'⟩
      | some s' => exact ih s' w (hm.2 s' hc) hw

end HomOnS

/-- A relation between three renderings with shared memory. -/
structure TrioS (sem : SemS P S M W) where
  okP : Cfg → P → P → P → Prop
  okI : Cfg → S → S → S → Prop
  okO : S → S → S → Prop
  okM : M → M → M → Prop
  okC : Cfg → Prop
  okW : W → W → W → Prop
  okP_okC : ∀ c p q r, okP c p q r → okC c
  process : ∀ w w' w'' c p q r (ins outs : List (S × S × S)) (ps : Nat → Option (S × S × S)), okW w w' w'' → okP c p q r →
    (∀ x ∈ ins, okI c x.1 x.2.1 x.2.2) → (∀ x ∈ outs, okO x.1 x.2.1 x.2.2) →
    ((sem.base w).process p (ins.map (·.1)) (outs.map (·.1)) (fun j => (ps j).map (·.1)) = none ∧
      (sem.base w').process q (ins.map (·.2.1)) (outs.map (·.2.1)) (fun j => (ps j).map (·.2.1)) = none ∧
      (sem.base w'').process r (ins.map (·.2.2)) (outs.map (·.2.2)) (fun j => (ps j).map (·.2.2)) = none) ∨
    ∃ a b d, (sem.base w).process p (ins.map (·.1)) (outs.map (·.1)) (fun j => (ps j).map (·.1)) = some a ∧
      (sem.base w').process q (ins.map (·.2.1)) (outs.map (·.2.1)) (fun j => (ps j).map (·.2.1)) = some b ∧
      (sem.base w'').process r (ins.map (·.2.2)) (outs.map (·.2.2)) (fun j => (ps j).map (·.2.2)) = some d ∧
      okP c a.1 b.1 d.1 ∧ ∀ (k : Nat) x y z, a.2.1[k]? = some x → b.2.1[k]? = some y → d.2.1[k]? = some z → okO x y z
  onmessage : ∀ w w' w'' c p q r m m' m'', okW w w' w'' → okP c p q r → okM m m' m'' →
    ((sem.base w).onmessage p m = none ∧ (sem.base w').onmessage q m' = none ∧ (sem.base w'').onmessage r m'' = none) ∨
    ∃ a b d, (sem.base w).onmessage p m = some a ∧ (sem.base w').onmessage q m' = some b ∧ (sem.base w'').onmessage r m'' = some d ∧
      okP c a b d
  silence_okI : ∀ w w' w'' c, okW w w' w'' → okI c (sem.base w).silence (sem.base w').silence (sem.base w'').silence
  silence_okO : ∀ w w' w'', okW w w' w'' → okO (sem.base w).silence (sem.base w').silence (sem.base w'').silence
  add : ∀ w w' w'' c x y z x' y' z', okW w w' w'' → okC c → okI c x y z → okO x' y' z' →
    okI c ((sem.base w).add c x x') ((sem.base w').add c y y') ((sem.base w'').add c z z')
  memory : ∀ w w' w'' c p q r (ins outs : List (S × S × S)) (ps : Nat → Option (S × S × S)), okW w w' w'' → okP c p q r →
    (∀ x ∈ ins, okI c x.1 x.2.1 x.2.2) → (∀ x ∈ outs, okO x.1 x.2.1 x.2.2) →
    okW (sem.memory w p (ins.map (·.1)) (outs.map (·.1)) (fun j => (ps j).map (·.1)))
      (sem.memory w' q (ins.map (·.2.1)) (outs.map (·.2.1)) (fun j => (ps j).map (·.2.1)))
      (sem.memory w'' r (ins.map (·.2.2)) (outs.map (·.2.2)) (fun j => (ps j).map (·.2.2)))
  dropped : ∀ w w' w'' c p q r, okW w w' w'' → okP c p q r → okW (sem.dropped w p) (sem.dropped w' q) (sem.dropped w'' r)
  tick : ∀ w w' w'', okW w w' w'' → okW (sem.tick w) (sem.tick w') (sem.tick w'')

/-- the three renderings as one -/
def threeS (sem : SemS P S M W) : SemS (P × P × P) (S × S × S) (M × M × M) (W × W × W) where
  base w :=
    { process := fun p ins outs ps =>
        match (sem.base w.1).process p.1 (ins.map (·.1)) (outs.map (·.1)) (fun j => (ps j).map (·.1)),
            (sem.base w.2.1).process p.2.1 (ins.map (·.2.1)) (outs.map (·.2.1)) (fun j => (ps j).map (·.2.1)),
            (sem.base w.2.2).process p.2.2 (ins.map (·.2.2)) (outs.map (·.2.2)) (fun j => (ps j).map (·.2.2)) with
        | some a, some b, some d => some ((a.1, b.1, d.1), zip3 a.2.1 b.2.1 d.2.1, a.2.2)
        | _, _, _ => none
      process_len := by
        intro p ins outs ps p' outs' t h
        split at h
        · rename_i a b d ha hb hd
          simp only [Option.some.injEq, Prod.mk.injEq] at h
          have la := (sem.base w.1).process_len _ _ _ _ _ _ _ ha
          have lb := (sem.base w.2.1).process_len _ _ _ _ _ _ _ hb
          have ld := (sem.base w.2.2).process_len _ _ _ _ _ _ _ hd
          rw [List.length_map] at la lb ld
          rw [← h.2.1, zip3_length (by rw [lb, la]) (by rw [ld, la]), la]
        · cases h
      onmessage := fun p m =>
        match (sem.base w.1).onmessage p.1 m.1, (sem.base w.2.1).onmessage p.2.1 m.2.1, (sem.base w.2.2).onmessage p.2.2 m.2.2 with
        | some a, some b, some d => some (a, b, d)
        | _, _, _ => none
      sideEffects := fun p => (sem.base w.1).sideEffects p.1
      silence := ((sem.base w.1).silence, (sem.base w.2.1).silence, (sem.base w.2.2).silence)
      add := fun c x y => ((sem.base w.1).add c x.1 y.1, (sem.base w.2.1).add c x.2.1 y.2.1, (sem.base w.2.2).add c x.2.2 y.2.2) }
  memory w p ins outs ps :=
    (sem.memory w.1 p.1 (ins.map (·.1)) (outs.map (·.1)) (fun j => (ps j).map (·.1)),
      sem.memory w.2.1 p.2.1 (ins.map (·.2.1)) (outs.map (·.2.1)) (fun j => (ps j).map (·.2.1)),
      sem.memory w.2.2 p.2.2 (ins.map (·.2.2)) (outs.map (·.2.2)) (fun j => (ps j).map (·.2.2)))
  dropped w p := (sem.dropped w.1 p.1, sem.dropped w.2.1 p.2.1, sem.dropped w.2.2 p.2.2)
  tick w := (sem.tick w.1, sem.tick w.2.1, sem.tick w.2.2)

variable {sem : SemS P S M W}

theorem TrioS.three_process (t : TrioS sem) (w : W × W × W) (c : Cfg) (p : P × P × P) (ins outs : List (S × S × S))
    (ps : Nat → Option (S × S × S)) (hw : t.okW w.1 w.2.1 w.2.2) (hp : t.okP c p.1 p.2.1 p.2.2)
    (hi : ∀ x ∈ ins, t.okI c x.1 x.2.1 x.2.2) (ho : ∀ x ∈ outs, t.okO x.1 x.2.1 x.2.2) :
    (((sem.base w.1).process p.1 (ins.map (·.1)) (outs.map (·.1)) (fun j => (ps j).map (·.1))).map (fun r => (r.1, r.2.1)) =
        (((threeS sem).base w).process p ins outs ps).map (fun r => (r.1.1, r.2.1.map (·.1))) ∧
      ((sem.base w.2.1).process p.2.1 (ins.map (·.2.1)) (outs.map (·.2.1)) (fun j => (ps j).map (·.2.1))).map (fun r => (r.1, r.2.1)) =
        (((threeS sem).base w).process p ins outs ps).map (fun r => (r.1.2.1, r.2.1.map (·.2.1))) ∧
      ((sem.base w.2.2).process p.2.2 (ins.map (·.2.2)) (outs.map (·.2.2)) (fun j => (ps j).map (·.2.2))).map (fun r => (r.1, r.2.1)) =
        (((threeS sem).base w).process p ins outs ps).map (fun r => (r.1.2.2, r.2.1.map (·.2.2)))) ∧
    ∀ r, ((threeS sem).base w).process p ins outs ps = some r →
      t.okP c r.1.1 r.1.2.1 r.1.2.2 ∧ ∀ x ∈ r.2.1, t.okO x.1 x.2.1 x.2.2 := by
  simp only [threeS]
  rcases t.process w.1 w.2.1 w.2.2 c p.1 p.2.1 p.2.2 ins outs ps hw hp hi ho with ⟨h1, h2, h3⟩ | ⟨a, b, d, h1, h2, h3, hk, hok⟩
  · rw [h1, h2, h3]
    exact ⟨⟨rfl, rfl, rfl⟩, fun r hr => by cases hr⟩
  · rw [h1, h2, h3]
    have la := (sem.base w.1).process_len _ _ _ _ _ _ _ h1
    have lb := (sem.base w.2.1).process_len _ _ _ _ _ _ _ h2
    have ld := (sem.base w.2.2).process_len _ _ _ _ _ _ _ h3
    rw [List.length_map] at la lb ld
    have e1 : b.2.1.length = a.2.1.length := by rw [lb, la]
    have e2 : d.2.1.length = a.2.1.length := by rw [ld, la]
    simp only [Option.map_some, zip3_one e1 e2, zip3_two e1 e2, zip3_three e1 e2]
    refine ⟨⟨trivial, trivial, trivial⟩, fun r hr => ?_⟩
    cases hr
    refine ⟨hk, fun x hx => ?_⟩
    obtain ⟨k, h1, h2, h3⟩ := zip3_mem hx
    exact hok k _ _ _ h1 h2 h3

theorem TrioS.three_message (t : TrioS sem) (w : W × W × W) (c : Cfg) (p : P × P × P) (m : M × M × M) (hw : t.okW w.1 w.2.1 w.2.2)
    (hp : t.okP c p.1 p.2.1 p.2.2) (hm : t.okM m.1 m.2.1 m.2.2) :
    ((sem.base w.1).onmessage p.1 m.1 = (((threeS sem).base w).onmessage p m).map (·.1) ∧
      (sem.base w.2.1).onmessage p.2.1 m.2.1 = (((threeS sem).base w).onmessage p m).map (·.2.1) ∧
      (sem.base w.2.2).onmessage p.2.2 m.2.2 = (((threeS sem).base w).onmessage p m).map (·.2.2)) ∧
    ∀ r, ((threeS sem).base w).onmessage p m = some r → t.okP c r.1 r.2.1 r.2.2 := by
  simp only [threeS]
  rcases t.onmessage w.1 w.2.1 w.2.2 c p.1 p.2.1 p.2.2 _ _ _ hw hp hm with ⟨h1, h2, h3⟩ | ⟨a, b, d, h1, h2, h3, hok⟩
  · rw [h1, h2, h3]
    exact ⟨⟨rfl, rfl, rfl⟩, fun r hr => by cases hr⟩
  · rw [h1, h2, h3]
    exact ⟨⟨rfl, rfl, rfl⟩, fun r hr => by cases hr; exact hok⟩

/-- the first of the three -/
def TrioS.one (t : TrioS sem) : HomOnS (threeS sem) sem where
  fP := (·.1)
  fS := (·.1)
  fM := (·.1)
  fW := (·.1)
  okP c p := t.okP c p.1 p.2.1 p.2.2
  okI c x := t.okI c x.1 x.2.1 x.2.2
  okO x := t.okO x.1 x.2.1 x.2.2
  okM m := t.okM m.1 m.2.1 m.2.2
  okC := t.okC
  okW w := t.okW w.1 w.2.1 w.2.2
  process w c p ins outs ps hw hp hi ho := (t.three_process w c p ins outs ps hw hp hi ho).1.1
  process_ok w c p ins outs ps r hw hp hi ho := (t.three_process w c p ins outs ps hw hp hi ho).2 r
  onmessage w c p m hw hp hm := (t.three_message w c p m hw hp hm).1.1
  onmessage_ok w c p m p' hw hp hm := (t.three_message w c p m hw hp hm).2 p'
  silence _ _ := rfl
  silence_okI _ c hw := t.silence_okI _ _ _ c hw
  silence_okO _ hw := t.silence_okO _ _ _ hw
  okP_okC c p := t.okP_okC c _ _ _
  add _ _ _ _ _ _ _ _ := rfl
  add_ok _ c _ _ hw hc ha hb := t.add _ _ _ c _ _ _ _ _ _ hw hc ha hb
  memory _ c _ ins outs ps hw hp hi ho := ⟨rfl, t.memory _ _ _ c _ _ _ ins outs ps hw hp hi ho⟩
  dropped _ c _ hw hp := ⟨rfl, t.dropped _ _ _ c _ _ _ hw hp⟩
  tick _ hw := ⟨rfl, t.tick _ _ _ hw⟩

/-- the second of the three -/
def TrioS.two (t : TrioS sem) : HomOnS (threeS sem) sem where
  fP := (·.2.1)
  fS := (·.2.1)
  fM := (·.2.1)
  fW := (·.2.1)
  okP c p := t.okP c p.1 p.2.1 p.2.2
  okI c x := t.okI c x.1 x.2.1 x.2.2
  okO x := t.okO x.1 x.2.1 x.2.2
  okM m := t.okM m.1 m.2.1 m.2.2
  okC := t.okC
  okW w := t.okW w.1 w.2.1 w.2.2
  process w c p ins outs ps hw hp hi ho := (t.three_process w c p ins outs ps hw hp hi ho).1.2.1
  process_ok w c p ins outs ps r hw hp hi ho := (t.three_process w c p ins outs ps hw hp hi ho).2 r
  onmessage w c p m hw hp hm := (t.three_message w c p m hw hp hm).1.2.1
  onmessage_ok w c p m p' hw hp hm := (t.three_message w c p m hw hp hm).2 p'
  silence _ _ := rfl
  silence_okI _ c hw := t.silence_okI _ _ _ c hw
  silence_okO _ hw := t.silence_okO _ _ _ hw
  okP_okC c p := t.okP_okC c _ _ _
  add _ _ _ _ _ _ _ _ := rfl
  add_ok _ c _ _ hw hc ha hb := t.add _ _ _ c _ _ _ _ _ _ hw hc ha hb
  memory _ c _ ins outs ps hw hp hi ho := ⟨rfl, t.memory _ _ _ c _ _ _ ins outs ps hw hp hi ho⟩
  dropped _ c _ hw hp := ⟨rfl, t.dropped _ _ _ c _ _ _ hw hp⟩
  tick _ hw := ⟨rfl, t.tick _ _ _ hw⟩

/-- the third of the three -/
def TrioS.last (t : TrioS sem) : HomOnS (threeS sem) sem where
  fP := (·.2.2)
  fS := (·.2.2)
  fM := (·.2.2)
  fW := (·.2.2)
  okP c p := t.okP c p.1 p.2.1 p.2.2
  okI c x := t.okI c x.1 x.2.1 x.2.2
  okO x := t.okO x.1 x.2.1 x.2.2
  okM m := t.okM m.1 m.2.1 m.2.2
  okC := t.okC
  okW w := t.okW w.1 w.2.1 w.2.2
  process w c p ins outs ps hw hp hi ho := (t.three_process w c p ins outs ps hw hp hi ho).1.2.2
  process_ok w c p ins outs ps r hw hp hi ho := (t.three_process w c p ins outs ps hw hp hi ho).2 r
  onmessage w c p m hw hp hm := (t.three_message w c p m hw hp hm).1.2.2
  onmessage_ok w c p m p' hw hp hm := (t.three_message w c p m hw hp hm).2 p'
  silence _ _ := rfl
  silence_okI _ c hw := t.silence_okI _ _ _ c hw
  silence_okO _ hw := t.silence_okO _ _ _ hw
  okP_okC c p := t.okP_okC c _ _ _
  add _ _ _ _ _ _ _ _ := rfl
  add_ok _ c _ _ hw hc ha hb := t.add _ _ _ c _ _ _ _ _ _ hw hc ha hb
  memory _ c _ ins outs ps hw hp hi ho := ⟨rfl, t.memory _ _ _ c _ _ _ ins outs ps hw hp hi ho⟩
  dropped _ c _ hw hp := ⟨rfl, t.dropped _ _ _ c _ _ _ hw hp⟩
  tick _ hw := ⟨rfl, t.tick _ _ _ hw⟩

/-- Three steps that do the same to the graph, with related processors and messages, without drops and changes of channel configurations. -/
inductive TrioS.Ops (t : TrioS sem) : Op P M → Op P M → Op P M → Prop
  | acquire : t.Ops .acquire .acquire .acquire
  | recv : t.Ops .recv .recv .recv
  | quantum : t.Ops .quantum .quantum .quantum
  | breaker (x : Handle) : t.Ops (.breaker x) (.breaker x) (.breaker x)
  | connect (a b : Handle) (o i : Nat) : t.Ops (.connect a b o i) (.connect a b o i) (.connect a b o i)
  | connectHidden (a b : Handle) (adm : Bool) :
    t.Ops (.connectHidden a b adm) (.connectHidden a b adm) (.connectHidden a b adm)
  | disconnect (a : Handle) (o d i : Option Nat) :
    t.Ops (.disconnect a o d i) (.disconnect a o d i) (.disconnect a o d i)
  | register (id : Nat) (p q r : P) (nin nout : Nat) (c : Cfg) (h : t.okP c p q r) :
    t.Ops (.register id p nin nout c) (.register id q nin nout c) (.register id r nin nout c)
  | post (x : Handle) (m m' m'' : M) (h : t.okM m m' m'') : t.Ops (.post x m) (.post x m') (.post x m'')

theorem TrioS.ops_three (t : TrioS sem) (v : W × W × W) (hv : t.okW v.1 v.2.1 v.2.2) {x y z : Op P M} (h : t.Ops x y z) :
    ∃ w : Op (P × P × P) (M × M × M), (t.one.hom v hv).okOp w ∧ (t.one.hom v hv).op w = x ∧ (t.two.hom v hv).op w = y ∧
      (t.last.hom v hv).op w = z := by
  cases h with
  | acquire => exact ⟨.acquire, trivial, rfl, rfl, rfl⟩
  | recv => exact ⟨.recv, trivial, rfl, rfl, rfl⟩
  | quantum => exact ⟨.quantum, trivial, rfl, rfl, rfl⟩
  | breaker a => exact ⟨.breaker a, trivial, rfl, rfl, rfl⟩
  | connect a b o i => exact ⟨.connect a b o i, trivial, rfl, rfl, rfl⟩
  | connectHidden a b adm => exact ⟨.connectHidden a b adm, trivial, rfl, rfl, rfl⟩
  | disconnect a o d i => exact ⟨.disconnect a o d i, trivial, rfl, rfl, rfl⟩
  | register id p q r nin nout c h => exact ⟨.register id (p, q, r) nin nout c, h, rfl, rfl, rfl⟩
  | post a m m' m'' h => exact ⟨.post a (m, m', m''), h, rfl, rfl, rfl⟩

theorem TrioS.ops_list (t : TrioS sem) (v : W × W × W) (hv : t.okW v.1 v.2.1 v.2.2) (l : List (Op P M × Op P M × Op P M))
    (h : ∀ x ∈ l, t.Ops x.1 x.2.1 x.2.2) :
    ∃ ws : List (Op (P × P × P) (M × M × M)), (∀ w ∈ ws, (t.one.hom v hv).okOp w) ∧ ws.map (t.one.hom v hv).op = l.map (·.1) ∧
      ws.map (t.two.hom v hv).op = l.map (·.2.1) ∧ ws.map (t.last.hom v hv).op = l.map (·.2.2) := by
  induction l with
  | nil => exact ⟨[], by simp, rfl, rfl, rfl⟩
  | cons x l ih =>
    obtain ⟨w, h1, h2, h3, h4⟩ := t.ops_three v hv (h x (by simp))
    obtain ⟨ws, k1, k2, k3, k4⟩ := ih fun y hy => h y (by simp [hy])
    refine ⟨w :: ws, ?_, by simp [h2, k2], by simp [h3, k3], by simp [h4, k4]⟩
    intro v hv
    rcases List.mem_cons.1 hv with rfl | hv
    · exact h1
    · exact k1 v hv

/-- The sounds of three such histories: either all three panic, or they have the same number of quanta, related one by one. -/
theorem TrioS.sound (t : TrioS sem) {w w' w'' : W} (hw : t.okW w w' w'') {p q r : P} {cfg : Cfg} (hd : t.okP cfg p q r)
    (l : List (Op P M × Op P M × Op P M)) (h : ∀ x ∈ l, t.Ops x.1 x.2.1 x.2.2) :
    (Sys.soundS sem (Sys.init (sem.base w) p cfg, w) (l.map (·.1)) = none ∧
      Sys.soundS sem (Sys.init (sem.base w') q cfg, w') (l.map (·.2.1)) = none ∧
      Sys.soundS sem (Sys.init (sem.base w'') r cfg, w'') (l.map (·.2.2)) = none) ∨
    ∃ a b d, Sys.soundS sem (Sys.init (sem.base w) p cfg, w) (l.map (·.1)) = some a ∧
      Sys.soundS sem (Sys.init (sem.base w') q cfg, w') (l.map (·.2.1)) = some b ∧
      Sys.soundS sem (Sys.init (sem.base w'') r cfg, w'') (l.map (·.2.2)) = some d ∧
      b.2.length = a.2.length ∧ d.2.length = a.2.length ∧
      ∀ (k : Nat) x y z, a.2[k]? = some x → b.2[k]? = some y → d.2[k]? = some z → t.okO x y z := by
  obtain ⟨ws, h1, h2, h3, h4⟩ := t.ops_list (w, w', w'') hw l h
  have hi : (t.one.hom (w, w', w'') hw).okSys (Sys.init ((threeS sem).base (w, w', w'')) (p, q, r) cfg) :=
    HomOn.init_ok (t.one.hom (w, w', w'') hw) hd
  have i1 := HomOn.sys_init (t.one.hom (w, w', w'') hw) (p, q, r) cfg
  have i2 := HomOn.sys_init (t.two.hom (w, w', w'') hw) (p, q, r) cfg
  have i3 := HomOn.sys_init (t.last.hom (w, w', w'') hw) (p, q, r) cfg
  have s1 := HomOnS.sound_map t.one (w, w', w'') hw ws h1 _ (w, w', w'') hi hw
  have s2 := HomOnS.sound_map t.two (w, w', w'') hw ws h1 _ (w, w', w'') hi hw
  have s3 := HomOnS.sound_map t.last (w, w', w'') hw ws h1 _ (w, w', w'') hi hw
  rw [i1, h2] at s1
  rw [i2, h3] at s2
  rw [i3, h4] at s3
  have e1 := s1.1
  have e2 := s2.1
  have e3 := s3.1
  change Sys.soundS sem (Sys.init (sem.base w) p cfg, w) _ = _ at e1
  change Sys.soundS sem (Sys.init (sem.base w') q cfg, w') _ = _ at e2
  change Sys.soundS sem (Sys.init (sem.base w'') r cfg, w'') _ = _ at e3
  rw [e1, e2, e3]
  cases hc : Sys.soundS (threeS sem) (Sys.init ((threeS sem).base (w, w', w'')) (p, q, r) cfg, (w, w', w'')) ws with
  | none => exact .inl ⟨rfl, rfl, rfl⟩
  | some v =>
    refine .inr ⟨_, _, _, rfl, rfl, rfl, by simp, by simp, fun k x y z hx hy hz => ?_⟩
    simp only [List.getElem?_map, Option.map_eq_some_iff] at hx hy hz
    obtain ⟨u, hu, rfl⟩ := hx
    obtain ⟨u2, hu2, rfl⟩ := hy
    obtain ⟨u3, hu3, rfl⟩ := hz
    rw [hu] at hu2 hu3
    cases hu2
    cases hu3
    exact s1.2 v hc u (List.mem_of_getElem? hu)

end Verif.Render
