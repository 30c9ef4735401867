import Verif.Graph.Wiring

/-!
# C84: proofs
-/

namespace Verif.Wiring

/-- relation between the state of the code and the wires -/
structure Inv (w : World) (ws : List Wire) : Prop where
  bound : ∀ u a, w.obj u = some a → u < w.next
  ids : ∀ u v a b, w.obj u = some a → w.obj v = some b → a.ctx = b.ctx → u ≠ v → ∀ i ∈ a.ids, i ∉ b.ids
  one : ∀ u a, w.obj u = some a → 1 ∉ a.ids
  zero : ∀ u a, w.obj u = some a → a.kind ≠ .plain → 0 ∉ a.ids ∧ 10 < a.id
  delay : ∀ u a r, w.obj u = some a → a.kind = .delay r → a.id ≠ r ∧ 10 < r
  alive : ∀ x ∈ ws, ∃ a b, w.obj x.u = some a ∧ w.obj x.v = some b ∧ a.ctx = b.ctx ∧
    ⟨a.outNode, x.out, b.id, some x.inp⟩ ∈ (w.base a.ctx).conns
  back : ∀ c y, y ∈ (w.base c).conns →
    (∃ x ∈ ws, ∃ a b, w.obj x.u = some a ∧ w.obj x.v = some b ∧ a.ctx = c ∧ b.ctx = c ∧
      y = ⟨a.outNode, x.out, b.id, some x.inp⟩) ∨
    (∃ u a r, w.obj u = some a ∧ a.ctx = c ∧ a.kind = .delay r ∧ y = ⟨a.id, 0, r, some 0⟩) ∨
    (y.src = 1 ∧ y.inp = none ∧ (y.dst = 0 ∨ ∃ u a, w.obj u = some a ∧ a.ctx = c ∧ a.id = y.dst))
  inner : ∀ u a r, w.obj u = some a → a.kind = .delay r → ⟨a.id, 0, r, some 0⟩ ∈ (w.base a.ctx).conns
  hears : ∀ u a, w.obj u = some a → a.kind = .panner → ⟨1, 0, a.id, none⟩ ∈ (w.base a.ctx).conns
  nodup : ws.Nodup
  nodupc : ∀ c, (w.base c).conns.Nodup

theorem id_mem (o : Obj) : o.id ∈ o.ids := by
  unfold Obj.ids; split <;> simp

theorem outNode_mem (o : Obj) : o.outNode ∈ o.ids := by
  unfold Obj.ids Obj.outNode; split <;> simp

namespace Inv

variable {w : World} {ws : List Wire}

theorem same_out (h : Inv w ws) {u v : Nat} {a b : Obj} (hu : w.obj u = some a) (hv : w.obj v = some b)
    (hc : a.ctx = b.ctx) : a.outNode = b.outNode ↔ u = v := by
  constructor
  · intro e
    by_contra hne
    exact h.ids u v a b hu hv hc hne _ (outNode_mem a) (e ▸ outNode_mem b)
  · rintro rfl
    rw [hu] at hv; cases hv; rfl

theorem same_id (h : Inv w ws) {u v : Nat} {a b : Obj} (hu : w.obj u = some a) (hv : w.obj v = some b)
    (hc : a.ctx = b.ctx) : a.id = b.id ↔ u = v := by
  constructor
  · intro e
    by_contra hne
    exact h.ids u v a b hu hv hc hne _ (id_mem a) (e ▸ id_mem b)
  · rintro rfl
    rw [hu] at hv; cases hv; rfl

/-- the output of an object is not the writer of a delay -/
theorem out_ne_writer (h : Inv w ws) {u v : Nat} {a b : Obj} {r : Nat} (hu : w.obj u = some a) (hv : w.obj v = some b)
    (hc : a.ctx = b.ctx) (hr : b.kind = .delay r) : b.id ≠ a.outNode := by
  intro e
  by_cases hne : u = v
  · subst hne
    rw [hu] at hv; cases hv
    have := (h.delay _ _ _ hu hr).1
    simp [Obj.outNode, hr] at e
    exact this e
  · exact h.ids u v a b hu hv hc hne _ (outNode_mem a) (e ▸ id_mem b)

theorem out_ne_one (h : Inv w ws) {u : Nat} {a : Obj} (hu : w.obj u = some a) : a.outNode ≠ 1 := by
  intro e
  exact h.one u a hu (e ▸ outNode_mem a)

theorem id_ne_one (h : Inv w ws) {u : Nat} {a : Obj} (hu : w.obj u = some a) : a.id ≠ 1 := by
  intro e
  exact h.one u a hu (e ▸ id_mem a)

/-- the administration knows exactly the wires -/
theorem mem_iff (h : Inv w ws) {u v : Nat} {a b : Obj} (hu : w.obj u = some a) (hv : w.obj v = some b)
    (hc : a.ctx = b.ctx) (o i : Nat) :
    ⟨a.outNode, o, b.id, some i⟩ ∈ (w.base a.ctx).conns ↔ (⟨u, o, v, i⟩ : Wire) ∈ ws := by
  constructor
  · intro hm
    rcases h.back _ _ hm with ⟨x, hx, a', b', h1, h2, h3, h4, h5⟩ | ⟨u', a', r, h1, h2, h3, h4⟩ | ⟨h1, -⟩
    · simp only [Conn.mk.injEq, Option.some.injEq] at h5
      obtain ⟨e1, e2, e3, e4⟩ := h5
      have k1 := (h.same_out hu h1 h3.symm).1 e1
      have k2 := (h.same_id hv h2 (by rw [← hc, h4])).1 e3
      obtain ⟨xu, xo, xv, xi⟩ := x
      simp only at k1 k2 e2 e4
      rw [k1, k2, e2, e4]; exact hx
    · simp only [Conn.mk.injEq] at h4
      exact absurd h4.1.symm (h.out_ne_writer hu h1 h2.symm h3)
    · exact absurd h1 (h.out_ne_one hu)
  · intro hx
    obtain ⟨a', b', h1, h2, h3, h4⟩ := h.alive _ hx
    simp only at h1 h2 h4
    rw [hu] at h1; cases h1
    rw [hv] at h2; cases h2
    exact h4

/-- entries for a disconnection that removes the wires `P` from `u` -/
theorem cut (h : Inv w ws) {u : Nat} {a : Obj} (hu : w.obj u = some a) (o d i : Option Nat) (P : Wire → Prop)
    [DecidablePred P] (hP : ∀ x, P x → x.u = u)
    (hsel : ∀ x ∈ ws, x.u = u → ∀ b, w.obj x.v = some b → b.ctx = a.ctx →
      (Base.retain a.outNode o d i ⟨a.outNode, x.out, b.id, some x.inp⟩ = false ↔ P x)) :
    Inv { w with base := fun k => if k = a.ctx then ((w.base a.ctx).disconnect a.outNode o d i).1 else w.base k }
      (ws.filter fun x => ¬ P x) ∧
    ((w.base a.ctx).conns.filter fun c => !Base.retain a.outNode o d i c).Perm
      ((ws.filter fun x => P x).filterMap (connOf w.obj)) := by
  have hconns : ((w.base a.ctx).disconnect a.outNode o d i).1.conns =
      (w.base a.ctx).conns.filter (Base.retain a.outNode o d i) := by
    unfold Base.disconnect; dsimp only; split <;> rfl
  have hother : ∀ y : Conn, y.src ≠ a.outNode → Base.retain a.outNode o d i y = true := by
    intro y hy; simp [Base.retain, hy]
  have hkeep : ∀ x ∈ ws, ∀ a' b', w.obj x.u = some a' → w.obj x.v = some b' → a'.ctx = a.ctx → b'.ctx = a.ctx →
      (Base.retain a.outNode o d i ⟨a'.outNode, x.out, b'.id, some x.inp⟩ = true ↔ ¬ P x) := by
    intro x hx a' b' h1 h2 h3 h4
    by_cases hxu : x.u = u
    · have : a' = a := by
        rw [hxu, hu] at h1; exact (Option.some.inj h1).symm
      subst this
      rw [← hsel x hx hxu b' h2 h4]
      simp
    · have h5 : a'.outNode ≠ a.outNode := fun e => hxu ((h.same_out h1 hu h3).1 e)
      exact ⟨fun _ hp => hxu (hP x hp), fun _ => hother _ h5⟩
  constructor
  · refine ⟨h.bound, h.ids, h.one, h.zero, h.delay, ?_, ?_, ?_, ?_, h.nodup.filter _, ?_⟩
    · intro x hx
      simp only [List.mem_filter, decide_eq_true_eq] at hx
      obtain ⟨a', b', h1, h2, h3, h4⟩ := h.alive x hx.1
      refine ⟨a', b', h1, h2, h3, ?_⟩
      dsimp only
      split
      case isTrue hc =>
        rw [hconns, List.mem_filter]
        exact ⟨hc ▸ h4, (hkeep x hx.1 a' b' h1 h2 hc (h3 ▸ hc)).2 hx.2⟩
      case isFalse => exact h4
    · intro c y hy
      dsimp only at hy
      have hold : y ∈ (w.base c).conns := by
        split at hy
        case isTrue hc => subst hc; rw [hconns, List.mem_filter] at hy; exact hy.1
        case isFalse => exact hy
      rcases h.back c y hold with ⟨x, hx, a', b', h1, h2, h3, h4, h5⟩ | h2 | h3
      · refine Or.inl ⟨x, ?_, a', b', h1, h2, h3, h4, h5⟩
        simp only [List.mem_filter, decide_eq_true_eq]
        refine ⟨hx, ?_⟩
        split at hy
        case isTrue hc =>
          rw [hconns, List.mem_filter] at hy
          rw [h5] at hy
          exact (hkeep x hx a' b' h1 h2 (h3.trans hc) (h4.trans hc)).1 hy.2
        case isFalse hc =>
          intro hp
          have := hP x hp
          rw [this, hu] at h1
          cases h1
          exact hc h3.symm
      · exact Or.inr (Or.inl h2)
      · exact Or.inr (Or.inr h3)
    · intro v b r hv hr
      dsimp only
      split
      case isTrue hc =>
        rw [hconns, List.mem_filter]
        exact ⟨hc ▸ h.inner v b r hv hr, hother _ (h.out_ne_writer hu hv hc.symm hr)⟩
      case isFalse => exact h.inner v b r hv hr
    · intro v b hv hr
      dsimp only
      split
      case isTrue hc =>
        rw [hconns, List.mem_filter]
        exact ⟨hc ▸ h.hears v b hv hr, hother _ (fun e => h.out_ne_one hu e.symm)⟩
      case isFalse => exact h.hears v b hv hr
    · intro c
      dsimp only
      split
      · rw [hconns]; exact (h.nodupc _).filter _
      · exact h.nodupc c
  · rw [List.perm_ext_iff_of_nodup ((h.nodupc _).filter _)]
    · intro y
      simp only [List.mem_filter, List.mem_filterMap, decide_eq_true_eq, Bool.not_eq_true']
      constructor
      · rintro ⟨hy, hr⟩
        rcases h.back _ y hy with ⟨x, hx, a', b', h1, h2, h3, h4, rfl⟩ | ⟨v, b, r, h1, h2, h3, rfl⟩ | ⟨h1, h2, h3⟩
        · refine ⟨x, ⟨hx, ?_⟩, by simp [connOf, h1, h2]⟩
          by_contra hp
          rw [(hkeep x hx a' b' h1 h2 h3 h4).2 hp] at hr
          cases hr
        · rw [hother _ (h.out_ne_writer hu h1 h2.symm h3)] at hr; cases hr
        · rw [hother _ (by rw [h1]; exact fun e => h.out_ne_one hu e.symm)] at hr; cases hr
      · rintro ⟨x, ⟨hx, hp⟩, hc⟩
        obtain ⟨a', b', h1, h2, h3, h4⟩ := h.alive x hx
        have hxu := hP x hp
        have : a' = a := by
          rw [hxu, hu] at h1; exact (Option.some.inj h1).symm
        subst this
        simp only [connOf, h1, h2, Option.some.injEq] at hc
        subst hc
        refine ⟨h4, ?_⟩
        by_contra hr
        rw [Bool.not_eq_false] at hr
        exact (hkeep x hx a' b' h1 h2 rfl h3.symm).1 hr hp
    · unfold List.Nodup
      rw [List.pairwise_filterMap]
      refine (h.nodup.filter _).imp_of_mem ?_
      intro x x' hx hx' hne y hy y' hy' e
      subst e
      simp only [List.mem_filter, decide_eq_true_eq] at hx hx'
      obtain ⟨a1, b1, h1, h2, h3, h4⟩ := h.alive x hx.1
      obtain ⟨a2, b2, k1, k2, k3, k4⟩ := h.alive x' hx'.1
      have e1 := hP x hx.2
      have e2 := hP x' hx'.2
      simp only [connOf, h1, h2, k1, k2, Option.some.injEq] at hy hy'
      subst hy
      simp only [Conn.mk.injEq, Option.some.injEq] at hy'
      have e3 : a1 = a2 := by rw [e1, ← e2, k1] at h1; exact (Option.some.inj h1).symm
      subst e3
      have e4 := (h.same_id k2 h2 (k3.symm.trans h3)).1 hy'.2.2.1
      apply hne
      obtain ⟨xu, xo, xv, xi⟩ := x
      obtain ⟨yu, yo, yv, yi⟩ := x'
      simp only at e1 e2 e4 hy'
      rw [e1, e2, e4, hy'.2.1, hy'.2.2.2]

end Inv

/-- the five `disconnect` methods of all nodes -/
theorem step_disconnect (w : World) (u : Nat) (a : Obj) (hu : w.obj u = some a) :
    w.step (.disconnect u) = setBase w a.ctx ((w.base a.ctx).disconnect a.outNode none none none) := by
  simp only [World.step, hu]
  cases hk : a.kind <;> simp [Obj.outNode, hk, delayDisconnect, defaultDisconnect]

theorem step_disconnectDest (w : World) (u v : Nat) (a b : Obj) (hu : w.obj u = some a) (hv : w.obj v = some b) :
    w.step (.disconnectDest u v) = setBase w a.ctx (if a.ctx ≠ b.ctx then (w.base a.ctx, some .context)
      else (w.base a.ctx).disconnect a.outNode none (some b.id) none) := by
  simp only [World.step, hu, hv]
  cases hk : a.kind <;> simp [Obj.outNode, hk, delayDisconnectDest, defaultDisconnectDest]

theorem step_disconnectOutput (w : World) (u out : Nat) (a : Obj) (hu : w.obj u = some a) :
    w.step (.disconnectOutput u out) = setBase w a.ctx (if a.nout ≤ out then (w.base a.ctx, some .output)
      else (w.base a.ctx).disconnect a.outNode (some out) none none) := by
  simp only [World.step, hu]
  cases hk : a.kind <;> simp [Obj.outNode, hk, delayDisconnectOutput, defaultDisconnectOutput]

theorem step_disconnectDestFromOutput (w : World) (u v out : Nat) (a b : Obj) (hu : w.obj u = some a)
    (hv : w.obj v = some b) :
    w.step (.disconnectDestFromOutput u v out) = setBase w a.ctx (if a.ctx ≠ b.ctx then (w.base a.ctx, some .context)
      else if a.nout ≤ out then (w.base a.ctx, some .output)
      else (w.base a.ctx).disconnect a.outNode (some out) (some b.id) none) := by
  simp only [World.step, hu, hv]
  cases hk : a.kind <;> simp [Obj.outNode, hk, delayDisconnectDestFromOutput, defaultDisconnectDestFromOutput]

theorem step_disconnectDestFromOutputToInput (w : World) (u v out inp : Nat) (a b : Obj) (hu : w.obj u = some a)
    (hv : w.obj v = some b) :
    w.step (.disconnectDestFromOutputToInput u v out inp) = setBase w a.ctx
      (if a.ctx ≠ b.ctx then (w.base a.ctx, some .context)
      else if a.nout ≤ out then (w.base a.ctx, some .output)
      else if b.nin ≤ inp then (w.base a.ctx, some .input)
      else (w.base a.ctx).disconnect a.outNode (some out) (some b.id) (some inp)) := by
  simp only [World.step, hu, hv]
  cases hk : a.kind <;>
    simp [Obj.outNode, hk, delayDisconnectDestFromOutputToInput, defaultDisconnectDestFromOutputToInput]

theorem step_connect (w : World) (u v out inp : Nat) (a b : Obj) (hu : w.obj u = some a)
    (hv : w.obj v = some b) :
    w.step (.connect u v out inp) = setBase w a.ctx
      (if a.ctx ≠ b.ctx then (w.base a.ctx, some .context)
      else if a.nout ≤ out then (w.base a.ctx, some .output)
      else if b.nin ≤ inp then (w.base a.ctx, some .input)
      else ((w.base a.ctx).connect ⟨a.outNode, out, b.id, some inp⟩, none)) := by
  simp only [World.step, hu, hv]
  cases hk : a.kind <;> simp [Obj.outNode, hk, delayConnect, defaultConnect]

theorem setBase_same (w : World) (c : Nat) (e : Option Err) : setBase w c (w.base c, e) = (w, e) := by
  unfold setBase
  congr 1
  cases w
  simp only [World.mk.injEq, and_true]
  funext k
  split
  · next h => rw [h]
  · rfl

/-- What is proved about each call: the invariant, the refusal, no effect of refused calls and the messages. -/
structure Good (w : World) (ws : List Wire) (op : Op) : Prop where
  inv : Inv (w.step op).1 (wired w.obj ws op)
  err : (w.step op).2 = refused w.obj ws op
  same : (refused w.obj ws op).isSome → (w.step op).1 = w

/-- messages of a disconnection: one for each wire that is gone -/
def Cuts (w : World) (ws : List Wire) (op : Op) : Prop :=
  ∀ c, ∃ new, ((w.step op).1.base c).sent = (w.base c).sent ++ new ∧
    new.Perm (((ws.filter fun x => x ∉ wired w.obj ws op ∧ (w.obj x.u).map (·.ctx) = some c).filterMap
      (connOf w.obj)).map Msg.disconnect)

theorem cuts_same {w : World} {ws : List Wire} {op : Op} (h1 : ∀ c, ((w.step op).1.base c).sent = (w.base c).sent)
    (h2 : wired w.obj ws op = ws) : Cuts w ws op := by
  intro c
  refine ⟨[], by simp [h1], ?_⟩
  rw [h2, List.filter_eq_nil_iff.2 (by intro x hx; simp [hx])]
  simp

/-- all disconnections that are not refused by a check of the arguments -/
theorem good_cut {w : World} {ws : List Wire} (h : Inv w ws) {op : Op} {u : Nat} {a : Obj} (hu : w.obj u = some a)
    (o d i : Option Nat) (P : Wire → Prop) [DecidablePred P] (hP : ∀ x, P x → x.u = u)
    (hsel : ∀ x ∈ ws, x.u = u → ∀ b, w.obj x.v = some b → b.ctx = a.ctx →
      (Base.retain a.outNode o d i ⟨a.outNode, x.out, b.id, some x.inp⟩ = false ↔ P x))
    (hstep : w.step op = setBase w a.ctx ((w.base a.ctx).disconnect a.outNode o d i))
    (href : refused w.obj ws op = if d.isSome ∧ ∀ x ∈ ws, ¬ P x then some .unconnected else none)
    (hw : refused w.obj ws op = none → wired w.obj ws op = ws.filter fun x => ¬ P x) :
    Good w ws op ∧ Cuts w ws op := by
  obtain ⟨k1, k2⟩ := h.cut hu o d i P hP hsel
  have hnone : ((w.base a.ctx).conns.filter fun c => !Base.retain a.outNode o d i c) = [] ↔ ∀ x ∈ ws, ¬ P x := by
    constructor
    · intro e x hx hp
      rw [e] at k2
      have hnil := k2.symm.eq_nil
      obtain ⟨a', b', h1, h2, h3, h4⟩ := h.alive x hx
      have : ⟨a'.outNode, x.out, b'.id, some x.inp⟩ ∈ (ws.filter fun x => P x).filterMap (connOf w.obj) := by
        rw [List.mem_filterMap]
        exact ⟨x, by simp [hx, hp], by simp [connOf, h1, h2]⟩
      rw [hnil] at this; simp at this
    · intro e
      have e2 : (ws.filter fun x => P x) = [] := List.filter_eq_nil_iff.2 (by intro x hx; simpa using e x hx)
      rw [e2] at k2
      exact k2.eq_nil
  have hkeep : (∀ x ∈ ws, ¬ P x) → ((w.base a.ctx).disconnect a.outNode o d i).1 = w.base a.ctx := by
    intro e
    have e2 := hnone.2 e
    have e3 : (w.base a.ctx).conns.filter (Base.retain a.outNode o d i) = (w.base a.ctx).conns := by
      rw [List.filter_eq_self]
      intro y hy
      have := List.filter_eq_nil_iff.1 e2 y hy
      simpa using this
    simp only [Base.disconnect, e2, e3, List.map_nil, List.append_nil]
    split <;> rfl
  have herr : ((w.base a.ctx).disconnect a.outNode o d i).2 =
      if d.isSome ∧ ∀ x ∈ ws, ¬ P x then some .unconnected else none := by
    unfold Base.disconnect
    dsimp only
    by_cases e : ∀ x ∈ ws, ¬ P x
    · rw [hnone.2 e]
      by_cases hd : d.isSome = true
      · rw [if_pos (by simpa using hd), if_pos ⟨hd, e⟩]
      · rw [if_neg (by simpa using hd), if_neg (fun q => hd q.1)]
    · have hne : ¬ ((w.base a.ctx).conns.filter fun c => !Base.retain a.outNode o d i c) = [] := fun q => e (hnone.1 q)
      rw [if_neg (by simp only [Bool.and_eq_true, List.isEmpty_iff]; exact fun q => hne q.1), if_neg (fun q => e q.2)]
  have hsent : ((w.base a.ctx).disconnect a.outNode o d i).1.sent = (w.base a.ctx).sent ++
      ((w.base a.ctx).conns.filter fun c => !Base.retain a.outNode o d i c).map Msg.disconnect := by
    unfold Base.disconnect; dsimp only; split <;> rfl
  by_cases hr : refused w.obj ws op = none
  · have hw' := hw hr
    refine ⟨⟨?_, ?_, ?_⟩, ?_⟩
    · rw [hw', hstep]; exact k1
    · rw [hstep, href]; exact herr
    · rw [hr]; simp
    · intro c
      rw [hstep, hw']
      by_cases hc : c = a.ctx
      · subst hc
        refine ⟨_, by simp only [setBase, if_pos rfl]; exact hsent, ?_⟩
        refine List.Perm.map _ ?_
        have : (ws.filter fun x => x ∉ ws.filter (fun x => ¬ P x) ∧ (w.obj x.u).map (·.ctx) = some a.ctx) =
            ws.filter fun x => P x := by
          apply List.filter_congr
          intro x hx
          simp only [List.mem_filter, hx, decide_eq_true_eq, true_and, not_not, decide_eq_decide]
          constructor
          · exact fun q => q.1
          · intro q
            refine ⟨q, ?_⟩
            rw [hP x q, hu]; rfl
        rw [this]; exact k2
      · refine ⟨[], by simp [setBase, hc], ?_⟩
        rw [List.filter_eq_nil_iff.2]
        · simp
        · intro x hx
          simp only [List.mem_filter, hx, decide_eq_true_eq, true_and, not_not, not_and]
          intro q
          rw [hP x q, hu]
          simp only [Option.map_some, Option.some.injEq]
          exact fun q => hc q.symm
  · have hq : d.isSome ∧ ∀ x ∈ ws, ¬ P x := by
      by_contra q
      exact hr (by rw [href, if_neg q])
    have hw' : wired w.obj ws op = ws := by
      unfold wired
      rw [if_pos]
      rw [href, if_pos hq]; rfl
    have hb := hkeep hq.2
    have hs : w.step op = (w, some .unconnected) := by
      rw [hstep]
      have : (w.base a.ctx).disconnect a.outNode o d i = (w.base a.ctx, some .unconnected) := by
        rw [if_pos hq] at herr
        exact Prod.ext hb herr
      rw [this, setBase_same]
    refine ⟨⟨?_, ?_, ?_⟩, cuts_same ?_ hw'⟩
    · rw [hs, hw']; exact h
    · rw [hs, href, if_pos hq]
    · intro _; rw [hs]
    · intro c; rw [hs]

theorem good_refused {w : World} {ws : List Wire} (h : Inv w ws) {op : Op} (e : Option Err) (h1 : w.step op = (w, e))
    (h2 : refused w.obj ws op = e) (h3 : e = none → wired w.obj ws op = ws) : Good w ws op ∧ Cuts w ws op := by
  have h4 : wired w.obj ws op = ws := by
    cases e with
    | none => exact h3 rfl
    | some e => unfold wired; rw [if_pos]; rw [h2]; rfl
  refine ⟨⟨?_, ?_, ?_⟩, cuts_same ?_ h4⟩
  · rw [h4, h1]; exact h
  · rw [h1, h2]
  · intro _; rw [h1]
  · intro c; rw [h1]

/-- the calls that disconnect -/
def Op.cuts : Op → Bool
  | .disconnect _ | .disconnectDest _ _ | .disconnectOutput _ _ | .disconnectDestFromOutput _ _ _
  | .disconnectDestFromOutputToInput _ _ _ _ => true
  | _ => false

theorem good_disconnect {w : World} {ws : List Wire} (h : Inv w ws) (op : Op) (hop : op.cuts = true) :
    Good w ws op ∧ Cuts w ws op := by
  have filter_gone : ∀ (P : Wire → Prop) [DecidablePred P], (∀ x ∈ ws, ¬ P x) → ws.filter (fun x => ¬ P x) = ws := by
    intro P _ hP
    rw [List.filter_eq_self]
    intro x hx
    simpa using hP x hx
  have gone_u : ∀ u, w.obj u = none → ∀ x ∈ ws, ¬ x.u = u := by
    intro u hu x hx e
    obtain ⟨a, b, h1, -⟩ := h.alive x hx
    rw [e, hu] at h1; cases h1
  have gone_v : ∀ u, w.obj u = none → ∀ x ∈ ws, ¬ x.v = u := by
    intro u hu x hx e
    obtain ⟨a, b, -, h1, -⟩ := h.alive x hx
    rw [e, hu] at h1; cases h1
  cases op with
  | disconnect u =>
    cases hu : w.obj u with
    | none =>
      refine good_refused h none (by simp [World.step, hu]) rfl (fun _ => ?_)
      simp only [wired, refused, Option.isSome_none, Bool.false_eq_true, if_false]
      exact filter_gone (fun x => x.u = u) (gone_u u hu)
    | some a =>
      refine good_cut h hu none none none (fun x => x.u = u) (fun _ hx => hx) ?_ (step_disconnect w u a hu)
        (by simp [refused]) (fun _ => by simp [wired, refused])
      intro x hx hxu b hb hc
      simp [Base.retain, hxu]
  | disconnectDest u v =>
    cases hu : w.obj u with
    | none =>
      refine good_refused h none (by simp [World.step, hu]) (by simp [refused, hu]) (fun _ => ?_)
      simp only [wired, refused, hu, Option.isSome_none, Bool.false_eq_true, if_false]
      exact filter_gone (fun x => x.u = u ∧ x.v = v) (fun x hx q => gone_u u hu x hx q.1)
    | some a =>
    cases hv : w.obj v with
    | none =>
      refine good_refused h none (by simp [World.step, hu, hv]) (by simp [refused, hu, hv]) (fun _ => ?_)
      simp only [wired, refused, hu, hv, Option.isSome_none, Bool.false_eq_true, if_false]
      exact filter_gone (fun x => x.u = u ∧ x.v = v) (fun x hx q => gone_v v hv x hx q.2)
    | some b =>
    have hs := step_disconnectDest w u v a b hu hv
    by_cases hc : a.ctx ≠ b.ctx
    · rw [if_pos hc, setBase_same] at hs
      exact good_refused h _ hs (by simp [refused, hu, hv, hc]) (by simp)
    · rw [if_neg hc] at hs
      rw [not_not] at hc
      refine good_cut h hu none (some b.id) none (fun x => x.u = u ∧ x.v = v) (fun _ hx => hx.1) ?_ hs
        (by simp [refused, hu, hv, hc]) (fun hr => by simp [wired, hr])
      intro x hx hxu b' hb' hc'
      have := h.same_id hb' hv (hc'.trans hc)
      simp [Base.retain, hxu, this]
  | disconnectOutput u out =>
    cases hu : w.obj u with
    | none =>
      refine good_refused h none (by simp [World.step, hu]) (by simp [refused, hu]) (fun _ => ?_)
      simp only [wired, refused, hu, Option.isSome_none, Bool.false_eq_true, if_false]
      exact filter_gone (fun x => x.u = u ∧ x.out = out) (fun x hx q => gone_u u hu x hx q.1)
    | some a =>
    have hs := step_disconnectOutput w u out a hu
    by_cases ho : a.nout ≤ out
    · rw [if_pos ho, setBase_same] at hs
      exact good_refused h _ hs (by simp [refused, hu, ho]) (by simp)
    · rw [if_neg ho] at hs
      refine good_cut h hu (some out) none none (fun x => x.u = u ∧ x.out = out) (fun _ hx => hx.1) ?_ hs
        (by simp [refused, hu, ho]) (fun hr => by simp [wired, hr])
      intro x hx hxu b' hb' hc'
      simp [Base.retain, hxu]
  | disconnectDestFromOutput u v out =>
    cases hu : w.obj u with
    | none =>
      refine good_refused h none (by simp [World.step, hu]) (by simp [refused, hu]) (fun _ => ?_)
      simp only [wired, refused, hu, Option.isSome_none, Bool.false_eq_true, if_false]
      exact filter_gone (fun x => x.u = u ∧ x.v = v ∧ x.out = out) (fun x hx q => gone_u u hu x hx q.1)
    | some a =>
    cases hv : w.obj v with
    | none =>
      refine good_refused h none (by simp [World.step, hu, hv]) (by simp [refused, hu, hv]) (fun _ => ?_)
      simp only [wired, refused, hu, hv, Option.isSome_none, Bool.false_eq_true, if_false]
      exact filter_gone (fun x => x.u = u ∧ x.v = v ∧ x.out = out) (fun x hx q => gone_v v hv x hx q.2.1)
    | some b =>
    have hs := step_disconnectDestFromOutput w u v out a b hu hv
    by_cases hc : a.ctx ≠ b.ctx
    · rw [if_pos hc, setBase_same] at hs
      exact good_refused h _ hs (by simp [refused, hu, hv, hc]) (by simp)
    · rw [if_neg hc] at hs
      rw [not_not] at hc
      by_cases ho : a.nout ≤ out
      · rw [if_pos ho, setBase_same] at hs
        exact good_refused h _ hs (by simp [refused, hu, hv, hc, ho]) (by simp)
      rw [if_neg ho] at hs
      refine good_cut h hu (some out) (some b.id) none (fun x => x.u = u ∧ x.v = v ∧ x.out = out) (fun _ hx => hx.1) ?_ hs
        (by simp [refused, hu, hv, hc, ho]) (fun hr => by simp [wired, hr])
      intro x hx hxu b' hb' hc'
      have := h.same_id hb' hv (hc'.trans hc)
      simp only [Base.retain, hxu, Option.getD_some, ne_eq, not_true_eq_false, decide_false, Bool.false_or, Bool.or_false,
        Bool.or_eq_false_iff, decide_eq_false_iff_not, not_not, true_and, this]
      exact and_comm
  | disconnectDestFromOutputToInput u v out inp =>
    cases hu : w.obj u with
    | none =>
      refine good_refused h none (by simp [World.step, hu]) (by simp [refused, hu]) (fun _ => ?_)
      simp only [wired, refused, hu, Option.isSome_none, Bool.false_eq_true, if_false]
      exact filter_gone (fun x => x = ⟨u, out, v, inp⟩) (fun x hx q => gone_u u hu x hx (by rw [q]))
    | some a =>
    cases hv : w.obj v with
    | none =>
      refine good_refused h none (by simp [World.step, hu, hv]) (by simp [refused, hu, hv]) (fun _ => ?_)
      simp only [wired, refused, hu, hv, Option.isSome_none, Bool.false_eq_true, if_false]
      exact filter_gone (fun x => x = ⟨u, out, v, inp⟩) (fun x hx q => gone_v v hv x hx (by rw [q]))
    | some b =>
    have hs := step_disconnectDestFromOutputToInput w u v out inp a b hu hv
    by_cases hc : a.ctx ≠ b.ctx
    · rw [if_pos hc, setBase_same] at hs
      exact good_refused h _ hs (by simp [refused, hu, hv, hc]) (by simp)
    · rw [if_neg hc] at hs
      rw [not_not] at hc
      by_cases ho : a.nout ≤ out
      · rw [if_pos ho, setBase_same] at hs
        exact good_refused h _ hs (by simp [refused, hu, hv, hc, ho]) (by simp)
      rw [if_neg ho] at hs
      by_cases hi : b.nin ≤ inp
      · rw [if_pos hi, setBase_same] at hs
        exact good_refused h _ hs (by simp [refused, hu, hv, hc, ho, hi]) (by simp)
      rw [if_neg hi] at hs
      refine good_cut h hu (some out) (some b.id) (some inp) (fun x => x = ⟨u, out, v, inp⟩) (fun _ hx => by rw [hx]) ?_ hs
        ?_ (fun hr => by simp [wired, hr])
      · intro x hx hxu b' hb' hc'
        have := h.same_id hb' hv (hc'.trans hc)
        obtain ⟨xu, xo, xv, xi⟩ := x
        simp only at hxu this hb' ⊢
        subst hxu
        simp only [Base.retain, this, Wire.mk.injEq, Option.getD_some, ne_eq, not_true_eq_false, decide_false,
          Bool.false_or, Bool.or_eq_false_iff, decide_eq_false_iff_not, not_not, Option.some.injEq, true_and]
        tauto
      · simp only [refused, hu, hv, hc, ne_eq, not_true_eq_false, if_false, ho, hi, Option.isSome_some, true_and]
        congr 1
        rw [eq_iff_iff]
        exact ⟨fun q x hx e => q (e ▸ hx), fun q hx => q _ hx rfl⟩
  | _ => cases hop

/-- an additional connection -/
theorem mem_connect (b : Base) (c y : Conn) : y ∈ (b.connect c).conns ↔ y ∈ b.conns ∨ y = c := by
  simp only [Base.connect, Base.send]
  split
  · next hc => exact ⟨Or.inl, fun h => h.elim id (fun e => e ▸ hc)⟩
  · simp

theorem nodup_connect (b : Base) (c : Conn) (h : b.conns.Nodup) : (b.connect c).conns.Nodup := by
  simp only [Base.connect, Base.send]
  split
  · exact h
  · next hc =>
    rw [List.nodup_append]
    exact ⟨h, by simp, fun x hx y hy e => by simp at hy; subst hy; subst e; exact hc hx⟩

theorem good_connect {w : World} {ws : List Wire} (h : Inv w ws) (u v out inp : Nat) : Good w ws (.connect u v out inp) := by
  cases hu : w.obj u with
  | none => exact (good_refused h none (by simp [World.step, hu]) (by simp [refused, hu]) (by simp [wired, refused, hu])).1
  | some a =>
  cases hv : w.obj v with
  | none =>
    exact (good_refused h none (by simp [World.step, hu, hv]) (by simp [refused, hu, hv])
      (by simp [wired, refused, hu, hv])).1
  | some b =>
  have hs := step_connect w u v out inp a b hu hv
  by_cases hc : a.ctx ≠ b.ctx
  · rw [if_pos hc, setBase_same] at hs
    exact (good_refused h _ hs (by simp [refused, hu, hv, hc]) (by simp)).1
  rw [if_neg hc] at hs
  rw [not_not] at hc
  by_cases ho : a.nout ≤ out
  · rw [if_pos ho, setBase_same] at hs
    exact (good_refused h _ hs (by simp [refused, hu, hv, hc, ho]) (by simp)).1
  rw [if_neg ho] at hs
  by_cases hi : b.nin ≤ inp
  · rw [if_pos hi, setBase_same] at hs
    exact (good_refused h _ hs (by simp [refused, hu, hv, hc, ho, hi]) (by simp)).1
  rw [if_neg hi] at hs
  have href : refused w.obj ws (.connect u v out inp) = none := by simp [refused, hu, hv, hc, ho, hi]
  have hw : wired w.obj ws (.connect u v out inp) =
      if (⟨u, out, v, inp⟩ : Wire) ∈ ws then ws else ws ++ [⟨u, out, v, inp⟩] := by
    simp [wired, href, hu, hv]
  have hmem : ∀ x, x ∈ wired w.obj ws (.connect u v out inp) ↔ x ∈ ws ∨ x = ⟨u, out, v, inp⟩ := by
    intro x
    rw [hw]
    split
    · next hc => exact ⟨Or.inl, fun h => h.elim id (fun e => e ▸ hc)⟩
    · simp
  refine ⟨?_, by rw [hs, href]; rfl, by simp [href]⟩
  rw [hs]
  simp only [setBase]
  refine ⟨h.bound, h.ids, h.one, h.zero, h.delay, ?_, ?_, ?_, ?_, ?_, ?_⟩
  · intro x hx
    rw [hmem] at hx
    rcases hx with hx | rfl
    · obtain ⟨a', b', h1, h2, h3, h4⟩ := h.alive x hx
      refine ⟨a', b', h1, h2, h3, ?_⟩
      dsimp only
      split
      · next e => rw [mem_connect]; exact Or.inl (e ▸ h4)
      · exact h4
    · exact ⟨a, b, hu, hv, hc, by dsimp only; rw [if_pos rfl, mem_connect]; exact Or.inr rfl⟩
  · intro c y hy
    dsimp only at hy
    have hold : y ∈ (w.base c).conns ∨ c = a.ctx ∧ y = ⟨a.outNode, out, b.id, some inp⟩ := by
      split at hy
      · next e => subst e; rw [mem_connect] at hy; exact hy.imp id (fun q => ⟨rfl, q⟩)
      · exact Or.inl hy
    rcases hold with hold | ⟨rfl, rfl⟩
    · rcases h.back c y hold with ⟨x, hx, r⟩ | r | r
      · exact Or.inl ⟨x, (hmem x).2 (Or.inl hx), r⟩
      · exact Or.inr (Or.inl r)
      · exact Or.inr (Or.inr r)
    · exact Or.inl ⟨_, (hmem _).2 (Or.inr rfl), a, b, hu, hv, rfl, hc.symm, rfl⟩
  · intro v b r hv hr
    dsimp only
    split
    · next e => rw [mem_connect]; exact Or.inl (e ▸ h.inner v b r hv hr)
    · exact h.inner v b r hv hr
  · intro v b hv hr
    dsimp only
    split
    · next e => rw [mem_connect]; exact Or.inl (e ▸ h.hears v b hv hr)
    · exact h.hears v b hv hr
  · rw [hw]
    split
    · exact h.nodup
    · next hn =>
      rw [List.nodup_append]
      exact ⟨h.nodup, by simp, fun x hx y hy e => by simp at hy; subst hy; subst e; exact hn hx⟩
  · intro c
    dsimp only
    split
    · exact nodup_connect _ _ (h.nodupc _)
    · exact h.nodupc c

theorem mem_ensure (b : Base) (y : Conn) : y ∈ b.ensureListener.conns → y ∈ b.conns ∨ y = ⟨1, 0, 0, none⟩ := by
  unfold Base.ensureListener
  split
  · exact Or.inl
  · dsimp only
    rw [mem_connect]; exact id

theorem ensure_mem (b : Base) (y : Conn) (h : y ∈ b.conns) : y ∈ b.ensureListener.conns := by
  unfold Base.ensureListener
  split
  · exact h
  · dsimp only
    rw [mem_connect]; exact Or.inl h

theorem nodup_ensure (b : Base) (h : b.conns.Nodup) : b.ensureListener.conns.Nodup := by
  unfold Base.ensureListener
  split
  · exact h
  · exact nodup_connect _ _ h

theorem good_listener {w : World} {ws : List Wire} (h : Inv w ws) (c : Nat) : Good w ws (.listener c) := by
  refine ⟨?_, rfl, by simp [refused]⟩
  simp only [World.step, setBase, wired, refused, Option.isSome_none, Bool.false_eq_true, if_false]
  refine ⟨h.bound, h.ids, h.one, h.zero, h.delay, ?_, ?_, ?_, ?_, h.nodup, ?_⟩
  · intro x hx
    obtain ⟨a', b', h1, h2, h3, h4⟩ := h.alive x hx
    refine ⟨a', b', h1, h2, h3, ?_⟩
    dsimp only
    split
    · next e => exact ensure_mem _ _ (e ▸ h4)
    · exact h4
  · intro k y hy
    dsimp only at hy
    have hold : y ∈ (w.base k).conns ∨ y = ⟨1, 0, 0, none⟩ := by
      split at hy
      · next e => subst e; exact mem_ensure _ _ hy
      · exact Or.inl hy
    rcases hold with hold | rfl
    · exact h.back k y hold
    · exact Or.inr (Or.inr ⟨rfl, rfl, Or.inl rfl⟩)
  · intro v b r hv hr
    dsimp only
    split
    · next e => exact ensure_mem _ _ (e ▸ h.inner v b r hv hr)
    · exact h.inner v b r hv hr
  · intro v b hv hr
    dsimp only
    split
    · next e => exact ensure_mem _ _ (e ▸ h.hears v b hv hr)
    · exact h.hears v b hv hr
  · intro k
    dsimp only
    split
    · exact nodup_ensure _ (h.nodupc _)
    · exact h.nodupc k

/-- connections after the construction of an object -/
theorem mem_construct (b : Base) (o : Obj) (y : Conn) (h : y ∈ (construct b o).conns) :
    y ∈ b.conns ∨ (∃ r, o.kind = .delay r ∧ y = ⟨o.id, 0, r, some 0⟩) ∨
      (y.src = 1 ∧ y.inp = none ∧ (y.dst = 0 ∨ y.dst = o.id)) := by
  unfold construct at h
  split at h
  · exact Or.inl h
  · rw [mem_connect] at h
    rcases h with h | rfl
    · rcases mem_ensure _ _ h with h | rfl
      · exact Or.inl h
      · exact Or.inr (Or.inr ⟨rfl, rfl, Or.inl rfl⟩)
    · exact Or.inr (Or.inr ⟨rfl, rfl, Or.inr rfl⟩)
  · next r hk =>
    rw [mem_connect] at h
    rcases h with h | rfl
    · exact Or.inl h
    · exact Or.inr (Or.inl ⟨r, hk, rfl⟩)

theorem construct_mem (b : Base) (o : Obj) (y : Conn) (h : y ∈ b.conns) : y ∈ (construct b o).conns := by
  unfold construct
  split
  · exact h
  · rw [mem_connect]; exact Or.inl (ensure_mem _ _ h)
  · rw [mem_connect]; exact Or.inl h

theorem nodup_construct (b : Base) (o : Obj) (h : b.conns.Nodup) : (construct b o).conns.Nodup := by
  unfold construct
  split
  · exact h
  · exact nodup_connect _ _ (nodup_ensure _ h)
  · exact nodup_connect _ _ h

theorem good_create {w : World} {ws : List Wire} (h : Inv w ws) (o : Obj) : Good w ws (.create o) := by
  by_cases hf : w.Fresh o
  swap
  · exact (good_refused h none (by simp [World.step, hf]) rfl (by simp [wired, refused])).1
  refine ⟨?_, by simp [World.step, hf, refused], by simp [refused]⟩
  have hnew : ∀ u a, w.obj u = some a → u ≠ w.next := fun u a hu => Nat.ne_of_lt (h.bound u a hu)
  have hfr : ∀ u a, w.obj u = some a → a.ctx = o.ctx → ∀ i ∈ o.ids, i ∉ a.ids := fun u a hu hc i hi =>
    (hf.1 i hi).2 u (h.bound u a hu) a hu hc
  have hbig : ∀ i ∈ o.ids, 10 < i := fun i hi => (hf.1 i hi).1
  simp only [World.step, if_pos hf, wired, refused, Option.isSome_none, Bool.false_eq_true, if_false]
  refine ⟨?_, ?_, ?_, ?_, ?_, ?_, ?_, ?_, ?_, h.nodup, ?_⟩
  · intro u a hu
    dsimp only at hu ⊢
    split at hu
    · next e => omega
    · have := h.bound u a hu; omega
  · intro u v a b hu hv hc hne i hi
    dsimp only at hu hv
    split at hu <;> split at hv
    · next e1 e2 => exact absurd (e1.trans e2.symm) hne
    · cases hu; exact hfr v b hv hc.symm i hi
    · cases hv; intro hi'; exact hfr u a hu hc i hi' hi
    · exact h.ids u v a b hu hv hc hne i hi
  · intro u a hu
    dsimp only at hu
    split at hu
    · cases hu; intro h1; have := hbig 1 h1; omega
    · exact h.one u a hu
  · intro u a hu hk
    dsimp only at hu
    split at hu
    · cases hu; exact ⟨fun h0 => absurd (hbig 0 h0) (by omega), hbig _ (id_mem _)⟩
    · exact h.zero u a hu hk
  · intro u a r hu hr
    dsimp only at hu
    split at hu
    · cases hu; exact ⟨hf.2 r hr, hbig r (by simp [Obj.ids, hr])⟩
    · exact h.delay u a r hu hr
  · intro x hx
    obtain ⟨a, b, h1, h2, h3, h4⟩ := h.alive x hx
    refine ⟨a, b, by simp [hnew _ _ h1, h1], by simp [hnew _ _ h2, h2], h3, ?_⟩
    dsimp only
    split
    · next e => exact construct_mem _ _ _ h4
    · exact h4
  · intro c y hy
    dsimp only at hy
    have hold : y ∈ (w.base c).conns ∨ c = o.ctx ∧ ((∃ r, o.kind = .delay r ∧ y = ⟨o.id, 0, r, some 0⟩) ∨
      (y.src = 1 ∧ y.inp = none ∧ (y.dst = 0 ∨ y.dst = o.id))) := by
      split at hy
      · next e => exact (mem_construct _ _ _ hy).imp id (fun q => ⟨e, q⟩)
      · exact Or.inl hy
    rcases hold with hold | ⟨rfl, ⟨r, hr, rfl⟩ | ⟨h1, h2, h3⟩⟩
    · rcases h.back c y hold with ⟨x, hx, a, b, h1, h2, r⟩ | ⟨u, a, r, h1, r'⟩ | ⟨h1, h2, h3⟩
      · exact Or.inl ⟨x, hx, a, b, by simp [hnew _ _ h1, h1], by simp [hnew _ _ h2, h2], r⟩
      · exact Or.inr (Or.inl ⟨u, a, r, by simp [hnew _ _ h1, h1], r'⟩)
      · refine Or.inr (Or.inr ⟨h1, h2, h3.imp id ?_⟩)
        rintro ⟨u, a, k1, k2⟩
        exact ⟨u, a, by simp [hnew _ _ k1, k1], k2⟩
    · exact Or.inr (Or.inl ⟨w.next, o, r, by simp, rfl, hr, rfl⟩)
    · exact Or.inr (Or.inr ⟨h1, h2, h3.imp id (fun e => ⟨w.next, o, by simp, rfl, e.symm⟩)⟩)
  · intro v b r hv hr
    dsimp only at hv ⊢
    split at hv
    · cases hv
      rw [if_pos rfl]
      unfold construct
      simp only [hr]
      rw [mem_connect]; exact Or.inr rfl
    · split
      · next e => exact construct_mem _ _ _ (h.inner v b r hv hr)
      · exact h.inner v b r hv hr
  · intro v b hv hr
    dsimp only at hv ⊢
    split at hv
    · cases hv
      rw [if_pos rfl]
      unfold construct
      simp only [hr]
      rw [mem_connect]; exact Or.inr rfl
    · split
      · next e => exact construct_mem _ _ _ (h.hears v b hv hr)
      · exact h.hears v b hv hr
  · intro c
    dsimp only
    split
    · exact nodup_construct _ _ (h.nodupc _)
    · exact h.nodupc c

/-- connections after the drop of an object -/
theorem mem_discard (b : Base) (o : Obj) (hbig : ∀ i ∈ o.ids, 10 < i) (y : Conn) :
    y ∈ (discard b o).conns ↔ y ∈ b.conns ∧ y.src ∉ o.ids ∧ y.dst ∉ o.ids := by
  have h1 : ∀ (b : Base) (i : Nat), 10 < i → (b.markDropped i).conns = b.conns.filter fun c => c.src ≠ i && c.dst ≠ i := by
    intro b i hi
    unfold Base.markDropped
    rw [if_neg (by omega)]
  unfold discard
  unfold Obj.ids at hbig ⊢
  split
  · next r hr =>
    rw [hr] at hbig
    simp only [List.mem_cons, List.not_mem_nil, or_false, forall_eq_or_imp, forall_eq] at hbig
    rw [h1 _ _ hbig.1, h1 _ _ hbig.2]
    simp
    tauto
  · next hr =>
    have : 10 < o.id := hbig o.id (by split <;> simp)
    rw [h1 _ _ this]
    cases hk : o.kind with
    | delay r => exact absurd hk (hr r)
    | plain => simp
    | panner => simp

theorem nodup_discard (b : Base) (o : Obj) (h : b.conns.Nodup) : (discard b o).conns.Nodup := by
  have h1 : ∀ (b : Base) (i : Nat), b.conns.Nodup → (b.markDropped i).conns.Nodup := by
    intro b i hb
    unfold Base.markDropped
    split
    · exact hb
    · exact hb.filter _
  unfold discard
  split
  · exact h1 _ _ (h1 _ _ h)
  · exact h1 _ _ h

theorem good_drop {w : World} {ws : List Wire} (h : Inv w ws) (u : Nat) : Good w ws (.drop u) := by
  cases hu : w.obj u with
  | none => exact (good_refused h none (by simp [World.step, hu]) rfl (by simp [wired, refused, hu])).1
  | some a =>
  by_cases ha : a.id ≤ 10
  · have hk : a.kind = .plain := by
      by_contra hk
      have := (h.zero u a hu hk).2
      omega
    have hd : ∀ b, discard b a = b := by
      intro b
      simp [discard, hk, Base.markDropped, ha]
    have hs : w.step (.drop u) = (w, none) := by
      simp only [World.step, hu, if_pos ha, hd, ite_self]
    exact (good_refused h none hs rfl (by simp [wired, refused, hu, ha])).1
  have hbig : ∀ i ∈ a.ids, 10 < i := by
    unfold Obj.ids
    split
    · next r hr =>
      have := (h.delay u a r hu hr).2
      simp; omega
    · simp; omega
  refine ⟨?_, by simp [World.step, hu, refused, ha], by simp [refused]⟩
  simp only [World.step, hu, if_neg ha, wired, refused, Option.isSome_none, Bool.false_eq_true, if_false]
  have hlive : ∀ {v b}, (if v = u then none else w.obj v) = some b → v ≠ u ∧ w.obj v = some b := by
    intro v b hv
    split at hv
    · cases hv
    · next e => exact ⟨e, hv⟩
  have hids : ∀ v b, v ≠ u → w.obj v = some b → b.ctx = a.ctx → ∀ i ∈ b.ids, i ∉ a.ids := fun v b hv hb hc =>
    h.ids v u b a hb hu hc hv
  refine ⟨?_, ?_, ?_, ?_, ?_, ?_, ?_, ?_, ?_, h.nodup.filter _, ?_⟩
  · intro v b hv
    exact h.bound v b (hlive hv).2
  · intro v v' b b' hv hv'
    exact h.ids v v' b b' (hlive hv).2 (hlive hv').2
  · intro v b hv
    exact h.one v b (hlive hv).2
  · intro v b hv
    exact h.zero v b (hlive hv).2
  · intro v b r hv
    exact h.delay v b r (hlive hv).2
  · intro x hx
    simp only [List.mem_filter, decide_eq_true_eq, not_or] at hx
    obtain ⟨a', b', h1, h2, h3, h4⟩ := h.alive x hx.1
    refine ⟨a', b', by simp [hx.2.1, h1], by simp [hx.2.2, h2], h3, ?_⟩
    dsimp only
    split
    · next e =>
      rw [mem_discard _ _ hbig]
      exact ⟨h4, hids _ _ hx.2.1 h1 e _ (outNode_mem _), hids _ _ hx.2.2 h2 (h3 ▸ e) _ (id_mem _)⟩
    · exact h4
  · intro c y hy
    dsimp only at hy
    have hold : y ∈ (w.base c).conns ∧ (c = a.ctx → y.src ∉ a.ids ∧ y.dst ∉ a.ids) := by
      split at hy
      · rw [mem_discard _ _ hbig] at hy; exact ⟨hy.1, fun _ => hy.2⟩
      · next e => exact ⟨hy, fun q => absurd q e⟩
    rcases h.back c y hold.1 with ⟨x, hx, a', b', h1, h2, h3, h4, rfl⟩ | ⟨v, b, r, h1, h2, h3, rfl⟩ | ⟨h1, h2, h3⟩
    · have hxu : x.u ≠ u := by
        intro e
        rw [e, hu] at h1; cases h1
        exact (hold.2 h3.symm).1 (outNode_mem _)
      have hxv : x.v ≠ u := by
        intro e
        rw [e, hu] at h2; cases h2
        exact (hold.2 h4.symm).2 (id_mem _)
      refine Or.inl ⟨x, ?_, a', b', by simp [hxu, h1], by simp [hxv, h2], h3, h4, rfl⟩
      simp only [List.mem_filter, decide_eq_true_eq, not_or]
      exact ⟨hx, hxu, hxv⟩
    · have hv : v ≠ u := by
        intro e
        rw [e, hu] at h1; cases h1
        exact (hold.2 h2.symm).1 (id_mem _)
      exact Or.inr (Or.inl ⟨v, b, r, by simp [hv, h1], h2, h3, rfl⟩)
    · refine Or.inr (Or.inr ⟨h1, h2, h3.imp id ?_⟩)
      rintro ⟨v, b, k1, k2, k3⟩
      have hv : v ≠ u := by
        intro e
        rw [e, hu] at k1; cases k1
        exact (hold.2 k2.symm).2 (k3 ▸ id_mem _)
      exact ⟨v, b, by simp [hv, k1], k2, k3⟩
  · intro v b r hv hr
    obtain ⟨hv1, hv2⟩ := hlive hv
    dsimp only
    split
    · next e =>
      rw [mem_discard _ _ hbig]
      refine ⟨h.inner v b r hv2 hr, hids v b hv1 hv2 e _ (id_mem _), hids v b hv1 hv2 e r (by simp [Obj.ids, hr])⟩
    · exact h.inner v b r hv2 hr
  · intro v b hv hr
    obtain ⟨hv1, hv2⟩ := hlive hv
    dsimp only
    split
    · next e =>
      rw [mem_discard _ _ hbig]
      refine ⟨h.hears v b hv2 hr, fun q => absurd (hbig 1 q) (by omega), hids v b hv1 hv2 e _ (id_mem _)⟩
    · exact h.hears v b hv2 hr
  · intro c
    dsimp only
    split
    · exact nodup_discard _ _ (h.nodupc _)
    · exact h.nodupc c

theorem good {w : World} {ws : List Wire} (h : Inv w ws) (op : Op) : Good w ws op := by
  cases op with
  | create o => exact good_create h o
  | connect u v out inp => exact good_connect h u v out inp
  | drop u => exact good_drop h u
  | listener c => exact good_listener h c
  | disconnect u => exact (good_disconnect h _ rfl).1
  | disconnectDest u v => exact (good_disconnect h _ rfl).1
  | disconnectOutput u out => exact (good_disconnect h _ rfl).1
  | disconnectDestFromOutput u v out => exact (good_disconnect h _ rfl).1
  | disconnectDestFromOutputToInput u v out inp => exact (good_disconnect h _ rfl).1

theorem inv_init (n : Nat) : Inv (World.init n) [] := by
  have hobj : ∀ u a, (World.init n).obj u = some a →
      u < 10 * n ∧ a = ⟨u / 10, if u % 10 = 0 then 0 else u % 10 + 1, 1, 1, .plain⟩ := by
    intro u a hu
    simp only [World.init] at hu
    split at hu
    · next e => exact ⟨e, (Option.some.inj hu).symm⟩
    · cases hu
  refine ⟨?_, ?_, ?_, ?_, ?_, by simp, by simp [World.init], ?_, ?_, by simp, by simp [World.init]⟩
  · intro u a hu; exact (hobj u a hu).1
  · intro u v a b hu hv hc hne i hi hj
    obtain ⟨-, rfl⟩ := hobj u a hu
    obtain ⟨-, rfl⟩ := hobj v b hv
    simp only [Obj.ids, List.mem_singleton] at hi hj hc
    rw [hi] at hj
    apply hne
    split at hj <;> split at hj <;> omega
  · intro u a hu
    obtain ⟨-, rfl⟩ := hobj u a hu
    simp only [Obj.ids, List.mem_singleton]
    split <;> omega
  · intro u a hu hk
    obtain ⟨-, rfl⟩ := hobj u a hu
    exact absurd rfl hk
  · intro u a r hu hk
    obtain ⟨-, rfl⟩ := hobj u a hu
    cases hk
  · intro u a r hu hk
    obtain ⟨-, rfl⟩ := hobj u a hu
    cases hk
  · intro u a hu hk
    obtain ⟨-, rfl⟩ := hobj u a hu
    cases hk

theorem inv_run {w : World} {ws : List Wire} (h : Inv w ws) (ops : List Op) : Inv (w.run ops) (wiring w ops ws) := by
  induction ops generalizing w ws with
  | nil => exact h
  | cons op ops ih => exact ih (good h op).inv

/-- C84: for all histories of calls in any number of contexts, with delays, panners and reused ids: the connections
that the code administers between objects that are alive are exactly the wires of the specification, the delay keeps
its inner connection and the panner the one from the listener. -/
theorem C84_wiring (n : Nat) (ops : List Op) :
    (∀ u v a b, ((World.init n).run ops).obj u = some a → ((World.init n).run ops).obj v = some b → a.ctx = b.ctx →
      ∀ o i, ⟨a.outNode, o, b.id, some i⟩ ∈ (((World.init n).run ops).base a.ctx).conns ↔
        (⟨u, o, v, i⟩ : Wire) ∈ wiring (World.init n) ops []) ∧
    (∀ u a r, ((World.init n).run ops).obj u = some a → a.kind = .delay r →
      ⟨a.id, 0, r, some 0⟩ ∈ (((World.init n).run ops).base a.ctx).conns) ∧
    (∀ u a, ((World.init n).run ops).obj u = some a → a.kind = .panner →
      ⟨1, 0, a.id, none⟩ ∈ (((World.init n).run ops).base a.ctx).conns) :=
  have h := inv_run (inv_init n) ops
  ⟨fun _ _ _ _ hu hv hc o i => h.mem_iff hu hv hc o i, h.inner, h.hears⟩

/-- C84: a call panics exactly for the documented reasons, and then nothing changes: no connection, no message. -/
theorem C84_refused (n : Nat) (ops : List Op) (op : Op) :
    (((World.init n).run ops).step op).2 =
      refused ((World.init n).run ops).obj (wiring (World.init n) ops []) op ∧
    ((((World.init n).run ops).step op).2.isSome →
      (((World.init n).run ops).step op).1 = (World.init n).run ops) := by
  have h := good (inv_run (inv_init n) ops) op
  exact ⟨h.err, fun e => h.same (h.err ▸ e)⟩

/-- C84: what the render thread is told. For a connection that is not refused: one message, for the node with the
outputs of the source and the node with the inputs of the destination. For the `disconnect` methods: one message for
each wire that the call removes, and no other. -/
theorem C84_messages (n : Nat) (ops : List Op) (op : Op) :
    (∀ u v out inp, op = .connect u v out inp →
      refused ((World.init n).run ops).obj (wiring (World.init n) ops []) op = none →
      ∀ a b, ((World.init n).run ops).obj u = some a → ((World.init n).run ops).obj v = some b →
      ∀ c, ((((World.init n).run ops).step op).1.base c).sent = (((World.init n).run ops).base c).sent ++
        if c = a.ctx then [.connect ⟨a.outNode, out, b.id, some inp⟩] else []) ∧
    (op.cuts = true → Cuts ((World.init n).run ops) (wiring (World.init n) ops []) op) := by
  have h := inv_run (inv_init n) ops
  refine ⟨?_, fun hop => (good_disconnect h op hop).2⟩
  rintro u v out inp rfl hr a b hu hv c
  rw [step_connect _ u v out inp a b hu hv]
  simp only [refused, hu, hv] at hr
  split at hr
  · cases hr
  split at hr
  · cases hr
  split at hr
  · cases hr
  next h1 h2 h3 =>
  rw [if_neg h1, if_neg h2, if_neg h3]
  simp only [setBase]
  by_cases e : c = a.ctx
  · subst e
    rw [if_pos rfl, if_pos rfl]
    rfl
  · rw [if_neg e, if_neg e, List.append_nil]

/-! ### Examples -/

/-- a gain, a delay in a loop with itself, its destruction and a new node with the id of the writer -/
noncomputable def demo : List Op :=
  [.create ⟨0, 11, 1, 1, .plain⟩, .create ⟨0, 12, 1, 1, .delay 13⟩, .connect 10 11 0 0, .connect 11 11 0 0,
    .connect 11 0 0 0, .disconnectDest 11 11]

/-- the loop is gone, the output of the delay and its inner connection stay -/
example : (((World.init 1).run demo).base 0).conns = [⟨12, 0, 13, some 0⟩, ⟨11, 0, 12, some 0⟩, ⟨13, 0, 0, some 0⟩] ∧
    wiring (World.init 1) demo [] = [⟨10, 0, 11, 0⟩, ⟨11, 0, 0, 0⟩] := by
  have f1 : (World.init 1).Fresh ⟨0, 11, 1, 1, .plain⟩ := by
    refine ⟨?_, by simp⟩
    intro i hi
    simp only [Obj.ids, List.mem_singleton] at hi
    subst hi
    refine ⟨by omega, ?_⟩
    intro u hu p hp _
    simp only [World.init] at hp
    split at hp
    · cases hp; simp [Obj.ids]; split <;> omega
    · cases hp
  have f2 : ((World.init 1).step (.create ⟨0, 11, 1, 1, .plain⟩)).1.Fresh ⟨0, 12, 1, 1, .delay 13⟩ := by
    refine ⟨?_, by simp⟩
    intro i hi
    simp only [World.step, if_pos f1]
    simp only [Obj.ids, List.mem_cons, List.not_mem_nil, or_false] at hi
    refine ⟨by omega, ?_⟩
    intro u hu p hp _
    by_cases e : u = (World.init 1).next
    · rw [if_pos e] at hp
      cases hp; simp [Obj.ids]; omega
    rw [if_neg e] at hp
    simp only [World.init] at hp
    split at hp
    · cases hp; simp [Obj.ids]; split <;> omega
    · cases hp
  have s1 : (World.init 1).step (.create ⟨0, 11, 1, 1, .plain⟩) = _ := if_pos f1
  rw [s1] at f2
  simp only [demo, World.run, wiring, List.foldl_cons, List.foldl_nil]
  rw [s1]
  simp only []
  have s2 : World.step _ (.create ⟨0, 12, 1, 1, .delay 13⟩) = _ := if_pos f2
  rw [s2]
  decide +kernel

end Verif.Wiring
