import Verif.Whole.Device

/-!
# Histories at another time

A translation of processors, signals and messages (as `Verif.Graph.Hom`) between processors that know the time
(`Verif.Whole.Timed`) where the clock of the one is ahead of that of the other.
-/

namespace Verif.Whole

open Verif

variable {P S M P' S' M' : Type}

/-- A translation such that at frame `f + m` the translated processor does what the processor does at frame `f`. -/
structure Shift (t : Timed P S M) (t' : Timed P' S' M') (m : Nat) where
  fP : P → P'
  fS : S → S'
  fM : M → M'
  process : ∀ f p ins outs (ps : Nat → Option S),
    t'.process (f + m) (fP p) (ins.map fS) (outs.map fS) (fun j => (ps j).map fS) =
      (t.process f p ins outs ps).map fun r => (fP r.1, r.2.1.map fS, r.2.2)
  onmessage : ∀ p x, t'.base.onmessage (fP p) (fM x) = (t.base.onmessage p x).map fP
  side : ∀ p, t'.base.sideEffects (fP p) = t.base.sideEffects p
  silence : t'.base.silence = fS t.base.silence
  add : ∀ c a b, t'.base.add c (fS a) (fS b) = fS (t.base.add c a b)

variable {t : Timed P S M} {t' : Timed P' S' M'} {m : Nat}

/-- the translation in the quantum at frame `f` -/
def Shift.at (h : Shift t t' m) (f : Nat) : Render.Hom (t.at f) (t'.at (f + m)) where
  fP := h.fP
  fS := h.fS
  fM := h.fM
  process := h.process f
  onmessage := h.onmessage
  side := h.side
  silence := h.silence
  add := h.add

/-- translated step of a history -/
def Shift.op (h : Shift t t' m) : Render.Op P M → Render.Op P' M' := (h.at 0).op

/-- translated system -/
def Shift.sys (h : Shift t t' m) : Render.Sys P S M → Render.Sys P' S' M' := (h.at 0).sys

theorem Shift.isOp (h : Shift t t' m) (o : Render.Op P M) : Whole.isOp (h.op o) = Whole.isOp o := by
  cases o <;> rfl

/-- The sound of the translated history, `m` frames later, is the translated sound. -/
theorem Shift.sound (h : Shift t t' m) (ops : List (Render.Op P M)) : ∀ (f : Nat) (s : Render.Sys P S M),
    soundAt t' (f + m) (h.sys s) (ops.map h.op) = (soundAt t f s ops).map fun r => (h.sys r.1, r.2.map h.fS) := by
  induction ops with
  | nil => intro f s; rfl
  | cons o ops ih =>
    intro f s
    by_cases ho : Whole.isOp o = true
    · rw [List.map_cons, sound_op t f s ho, sound_op t' (f + m) _ (by rw [h.isOp]; exact ho), ← step_base t f s ho,
        ← step_base t' (f + m) _ (by rw [h.isOp]; exact ho)]
      rw [show (h.sys s).step (t'.at (f + m)) (h.op o) = (s.step (t.at f) o).map h.sys from (h.at f).sys_step s o]
      cases s.step (t.at f) o with
      | none => rfl
      | some s' => exact ih f s'
    · have : o = .quantum := by cases o <;> first | rfl | exact absurd rfl ho
      subst this
      rw [List.map_cons, show h.op .quantum = .quantum from rfl]
      unfold soundAt
      rw [show (h.sys s).g.render (t'.at (f + m)) = (s.g.render (t.at f)).map fun r => ((h.at f).graph r.1, h.fS r.2) from
        (h.at f).graph_render s.g]
      cases s.g.render (t.at f) with
      | none => rfl
      | some r =>
        simp only [Option.map_some]
        have := ih (f + 128) { s with g := r.1 }
        rw [show f + 128 + m = f + m + 128 by omega] at this
        rw [show ({ h.sys s with g := (h.at f).graph r.1 } : Render.Sys P' S' M') = h.sys { s with g := r.1 } from rfl, this,
          Option.map_map, Option.map_map]
        rfl

theorem Shift.init (h : Shift t t' m) (dest : P) (cfg : Render.Cfg) :
    h.sys (Render.Sys.init t.base dest cfg) = Render.Sys.init t'.base (h.fP dest) cfg := (h.at 0).sys_init dest cfg

/-! ## Processors and messages with an invariant -/

/-- an invariant of processors and messages that processing and the handling of messages keep -/
structure Keeps (t : Timed P S M) (okP : P → Prop) (okM : M → Prop) : Prop where
  process : ∀ f p ins outs ps r, okP p → t.process f p ins outs ps = some r → okP r.1
  onmessage : ∀ p x p', okP p → okM x → t.base.onmessage p x = some p' → okP p'

/-- an optional value with a property -/
def withProp {α : Type} (ok : α → Prop) : (x : Option α) → (∀ a, x = some a → ok a) → Option { a : α // ok a }
  | none, _ => none
  | some a, h => some ⟨a, h a rfl⟩

theorem withProp_val {α : Type} {ok : α → Prop} {x : Option α} (h : ∀ a, x = some a → ok a) :
    (withProp ok x h).map Subtype.val = x := by
  cases x <;> rfl

/-- the processors that fulfil the invariant -/
def Timed.sub (t : Timed P S M) {okP : P → Prop} {okM : M → Prop} (k : Keeps t okP okM) : Timed { p // okP p } S { x // okM x } where
  base :=
    { process := fun p ins outs ps =>
        (withProp (fun r : P × List S × Bool => okP r.1) (t.process 0 p.1 ins outs ps) (fun r h => k.process 0 p.1 ins outs ps r p.2 h)).map
          fun r => (⟨r.1.1, r.2⟩, r.1.2.1, r.1.2.2)
      process_len := by
        intro p ins outs ps p' outs' tl h
        obtain ⟨r, hr, he⟩ := Option.map_eq_some_iff.1 h
        simp only [Prod.mk.injEq] at he
        have := congrArg (Option.map Subtype.val) hr
        rw [withProp_val] at this
        rw [← he.2.1]
        exact t.process_len 0 p.1 ins outs ps r.1.1 r.1.2.1 r.1.2.2 this
      onmessage := fun p x => withProp okP (t.base.onmessage p.1 x.1) (fun p' h => k.onmessage p.1 x.1 p' p.2 x.2 h)
      sideEffects := fun p => t.base.sideEffects p.1
      silence := t.base.silence
      add := t.base.add }
  process f p ins outs ps :=
    (withProp (fun r : P × List S × Bool => okP r.1) (t.process f p.1 ins outs ps) (fun r h => k.process f p.1 ins outs ps r p.2 h)).map
      fun r => (⟨r.1.1, r.2⟩, r.1.2.1, r.1.2.2)
  process_len := by
    intro f p ins outs ps p' outs' tl h
    obtain ⟨r, hr, he⟩ := Option.map_eq_some_iff.1 h
    simp only [Prod.mk.injEq] at he
    have := congrArg (Option.map Subtype.val) hr
    rw [withProp_val] at this
    rw [← he.2.1]
    exact t.process_len f p.1 ins outs ps r.1.1 r.1.2.1 r.1.2.2 this

/-- A translation that is correct where an invariant holds: of signals that stay the same. -/
structure ShiftOn (t t' : Timed P S M) (m : Nat) (okP : P → Prop) (okM : M → Prop) where
  fP : P → P
  fM : M → M
  process : ∀ f p ins outs ps, okP p →
    t'.process (f + m) (fP p) ins outs ps = (t.process f p ins outs ps).map fun r => (fP r.1, r.2)
  onmessage : ∀ p x, okP p → okM x → t'.base.onmessage (fP p) (fM x) = (t.base.onmessage p x).map fP
  side : ∀ p, t'.base.sideEffects (fP p) = t.base.sideEffects p
  silence : t'.base.silence = t.base.silence
  add : ∀ c a b, t'.base.add c a b = t.base.add c a b

/-- the processors that fulfil the invariant are processors -/
def incl (t : Timed P S M) {okP : P → Prop} {okM : M → Prop} (k : Keeps t okP okM) : Shift (t.sub k) t 0 where
  fP := Subtype.val
  fS := id
  fM := Subtype.val
  process := by
    intro f p ins outs ps
    simp only [List.map_id, Nat.add_zero, Option.map_id_fun, id_eq]
    show t.process f p.1 ins outs ps = ((withProp _ (t.process f p.1 ins outs ps) _).map _).map _
    rw [Option.map_map]
    conv_lhs => rw [← withProp_val (ok := fun r : P × List S × Bool => okP r.1) (fun r h => k.process f p.1 ins outs ps r p.2 h)]
    rfl
  onmessage := by
    intro p x
    exact (withProp_val _).symm
  side _ := rfl
  silence := rfl
  add _ _ _ := rfl

/-- the translation of processors that fulfil the invariant -/
def ShiftOn.sub {t t' : Timed P S M} {okP : P → Prop} {okM : M → Prop} (h : ShiftOn t t' m okP okM) (k : Keeps t okP okM) :
    Shift (t.sub k) t' m where
  fP p := h.fP p.1
  fS := id
  fM x := h.fM x.1
  process := by
    intro f p ins outs ps
    simp only [List.map_id, Option.map_id_fun, id_eq]
    rw [h.process f p.1 ins outs ps p.2]
    show (t.process f p.1 ins outs ps).map _ = ((withProp _ (t.process f p.1 ins outs ps) _).map _).map _
    rw [Option.map_map]
    conv_lhs => rw [← withProp_val (ok := fun r : P × List S × Bool => okP r.1) (fun r h => k.process f p.1 ins outs ps r p.2 h),
      Option.map_map]
    rfl
  onmessage := by
    intro p x
    rw [h.onmessage p.1 x.1 p.2 x.2]
    show (t.base.onmessage p.1 x.1).map _ = (withProp _ (t.base.onmessage p.1 x.1) _).map _
    conv_lhs => rw [← withProp_val (ok := okP) (fun p' h => k.onmessage p.1 x.1 p' p.2 x.2 h), Option.map_map]
    rfl
  side p := h.side p.1
  silence := h.silence
  add := h.add

/-- the processors and messages of a step of a history fulfil the invariant -/
def okOp (okP : P → Prop) (okM : M → Prop) : Render.Op P M → Prop
  | .register _ proc _ _ _ => okP proc
  | .post _ x => okM x
  | _ => True

/-- the same step with other processors and messages -/
def mapOp (fP : P → P') (fM : M → M') : Render.Op P M → Render.Op P' M'
  | .acquire => .acquire
  | .register id proc nin nout cfg => .register id (fP proc) nin nout cfg
  | .failCreate id => .failCreate id
  | .connect a b out inp => .connect a b out inp
  | .connectHidden a b admin => .connectHidden a b admin
  | .disconnect a out dst inp => .disconnect a out dst inp
  | .post x msg => .post x (fM msg)
  | .setCfg x c => .setCfg x c
  | .breaker x => .breaker x
  | .drop x => .drop x
  | .dropSend x => .dropSend x
  | .dropClear id => .dropClear id
  | .recv => .recv
  | .quantum => .quantum

theorem Shift.op_eq (h : Shift t t' m) : h.op = mapOp h.fP h.fM := by
  funext o
  cases o <;> rfl

/-- a history that fulfils the invariant comes from the processors that do -/
theorem lift_ops {okP : P → Prop} {okM : M → Prop} (ops : List (Render.Op P M)) (h : ∀ o ∈ ops, okOp okP okM o) :
    ∃ ops' : List (Render.Op { p // okP p } { x // okM x }), ops = ops'.map (mapOp Subtype.val Subtype.val) := by
  induction ops with
  | nil => exact ⟨[], rfl⟩
  | cons o ops ih =>
    obtain ⟨l, rfl⟩ := ih fun x hx => h x (by simp [hx])
    have ho := h o (by simp)
    have : ∃ o', o = mapOp (fun p : { p // okP p } => p.1) (fun x : { x // okM x } => x.1) o' := by
      cases o with
      | acquire => exact ⟨.acquire, rfl⟩
      | register id proc nin nout cfg => exact ⟨.register id ⟨proc, ho⟩ nin nout cfg, rfl⟩
      | failCreate id => exact ⟨.failCreate id, rfl⟩
      | connect a b out inp => exact ⟨.connect a b out inp, rfl⟩
      | connectHidden a b admin => exact ⟨.connectHidden a b admin, rfl⟩
      | disconnect a out dst inp => exact ⟨.disconnect a out dst inp, rfl⟩
      | post x msg => exact ⟨.post x ⟨msg, ho⟩, rfl⟩
      | setCfg x c => exact ⟨.setCfg x c, rfl⟩
      | breaker x => exact ⟨.breaker x, rfl⟩
      | drop x => exact ⟨.drop x, rfl⟩
      | dropSend x => exact ⟨.dropSend x, rfl⟩
      | dropClear id => exact ⟨.dropClear id, rfl⟩
      | recv => exact ⟨.recv, rfl⟩
      | quantum => exact ⟨.quantum, rfl⟩
    obtain ⟨o', rfl⟩ := this
    exact ⟨o' :: l, rfl⟩

/-- the sounds of a history -/
def sounds (t : Timed P S M) (f : Nat) (s : Render.Sys P S M) (ops : List (Render.Op P M)) : Option (List S) :=
  (soundAt t f s ops).map (·.2)

/-- The translated history, `m` frames later, sounds the same. -/
theorem ShiftOn.sounds {t t' : Timed P S M} {okP : P → Prop} {okM : M → Prop} (h : ShiftOn t t' m okP okM) (k : Keeps t okP okM)
    (f : Nat) (dest : P) (hd : okP dest) (cfg : Render.Cfg) (ops : List (Render.Op P M)) (ho : ∀ o ∈ ops, okOp okP okM o) :
    Whole.sounds t' (f + m) (Render.Sys.init t'.base (h.fP dest) cfg) (ops.map (mapOp h.fP h.fM)) =
      Whole.sounds t f (Render.Sys.init t.base dest cfg) ops := by
  obtain ⟨l, rfl⟩ := lift_ops ops ho
  have h1 := (incl t k).sound l f (Render.Sys.init (t.sub k).base ⟨dest, hd⟩ cfg)
  have h2 := (h.sub k).sound l f (Render.Sys.init (t.sub k).base ⟨dest, hd⟩ cfg)
  rw [Shift.init, Shift.op_eq] at h1 h2
  unfold Whole.sounds
  rw [List.map_map]
  have e : (mapOp h.fP h.fM ∘ mapOp (P := { p // okP p }) (M := { x // okM x }) Subtype.val Subtype.val) =
      mapOp (h.sub k).fP (h.sub k).fM := by
    funext o
    cases o <;> rfl
  rw [e]
  rw [show Render.Sys.init t'.base (h.fP dest) cfg = Render.Sys.init t'.base ((h.sub k).fP ⟨dest, hd⟩) cfg from rfl, h2]
  rw [show soundAt t f (Render.Sys.init t.base dest cfg) (l.map (mapOp Subtype.val Subtype.val)) = _ from h1]
  rw [Option.map_map, Option.map_map]
  rfl

/-- A quantum of a graph without anything but the destination is silent and changes nothing. -/
theorem render_idle (t : Timed P S M) (dest : P) (cfg : Render.Cfg) (f : Nat) (tail : Bool)
    (hd : ∀ ps, t.process f dest [t.base.silence] [t.base.silence] ps = some (dest, [t.base.silence], tail)) :
    (Render.Sys.init t.base dest cfg).g.render (t.at f) = some ((Render.Sys.init t.base dest cfg).g, t.base.silence) := by
  unfold Render.RGraph.render
  have h0 : (Render.Sys.init t.base dest cfg).g.ordered = [0] := rfl
  rw [if_neg (by rw [h0]; simp)]
  simp only [h0, Render.RGraph.foldOpt]
  have h1 : (Render.Sys.init t.base dest cfg).g.renderNode (t.at f) 0 = some (Render.Sys.init t.base dest cfg).g := by
    unfold Render.RGraph.renderNode
    have hg : (Render.Sys.init t.base dest cfg).g.get 0 = some ⟨0, dest, [t.base.silence], [t.base.silence], cfg, [], false, false, false⟩ := rfl
    rw [hg]
    have hp : (Render.Sys.init t.base dest cfg).g.process (t.at f) 0 ⟨0, dest, [t.base.silence], [t.base.silence], cfg, [], false, false, false⟩ =
        (⟨0, dest, [t.base.silence], [t.base.silence], cfg, [], false, false, false⟩, true, tail) := by
      unfold Render.RGraph.process
      simp only [Timed.at, hd]
    simp only [hp, Render.RGraph.foldOpt]
    rw [if_neg (by simp [Render.Node.canFree])]
    simp only [Option.some.injEq, Render.Sys.init, Render.RGraph.put, Render.RGraph.addNode, Render.RGraph.mk.injEq, true_and, and_true]
    funext j
    by_cases hj : j = 0 <;> simp [hj, Timed.at]
  rw [h1]
  rfl

/-- A context that waits is silent, and in the same state afterwards. -/
theorem sounds_idle (t : Timed P S M) (dest : P) (cfg : Render.Cfg) (tail : Bool)
    (hd : ∀ f ps, t.process f dest [t.base.silence] [t.base.silence] ps = some (dest, [t.base.silence], tail))
    (ops : List (Render.Op P M)) (k : Nat) : ∀ f,
    soundAt t f (Render.Sys.init t.base dest cfg) (List.replicate k .quantum ++ ops) =
      (soundAt t (f + k * 128) (Render.Sys.init t.base dest cfg) ops).map
        fun r => (r.1, List.replicate k t.base.silence ++ r.2) := by
  induction k with
  | zero => intro f; simp
  | succ k ih =>
    intro f
    rw [List.replicate_succ, List.cons_append, soundAt, render_idle t dest cfg f tail (hd f)]
    show (soundAt t (f + 128) (Render.Sys.init t.base dest cfg) _).map _ = _
    rw [ih, Option.map_map, show f + 128 + k * 128 = f + (k + 1) * 128 by ring]
    rfl

end Verif.Whole
