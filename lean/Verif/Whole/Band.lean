import Verif.Whole.Tones

/-!
# C112: a band that is set up once and then only gets messages

The notes are in the graph at the beginning, and their handles are kept. From then on only messages to processors arrive (start,
stop, automation events, …; `/repo/src/render/thread.rs` l.205-213). Then nothing has to be assumed about later graphs.
-/

namespace Verif.Whole

open Verif Verif.Render Verif.Engine

section
variable {P S M : Type}

/-- only messages to processors of nodes `ids` -/
def Posts (ids : Nat → Prop) (b : List (Msg P M)) : Prop := ∀ m ∈ b, ∃ i tag x, m = .post i tag x ∧ ids i

theorem Posts.spares {ids : Nat → Prop} {b : List (Msg P M)} (h : Posts ids b) (i : Nat) : Spares i b := by
  intro id tag proc nin nout cfg hm
  obtain ⟨_, _, _, h, _⟩ := h _ hm
  cases h

/-- messages change nothing but processors -/
theorem posts_keep {sem : Sem P S M} {ids : Nat → Prop} : ∀ (b : List (Msg P M)) {g g' : RGraph P S}, Posts ids b →
    RGraph.foldOpt (RGraph.handle sem) b g = some g' →
    g'.ordered = g.ordered ∧ (WF g → WF g') ∧ (∀ i, g.slot i = none → g'.slot i = none) ∧
    ∀ i n, g.slot i = some n → ∃ p, g'.slot i = some { n with proc := p } ∧
      RGraph.foldOpt sem.onmessage (mail i b) n.proc = some p := by
  intro b
  induction b with
  | nil =>
    intro g g' _ h
    simp only [RGraph.foldOpt, Option.some.injEq] at h
    subst h
    exact ⟨rfl, id, fun i h => h, fun i n hn => ⟨n.proc, hn, rfl⟩⟩
  | cons m b ih =>
    intro g g' hb h
    obtain ⟨j, tag, x, rfl, -⟩ := hb m (by simp)
    simp only [RGraph.foldOpt] at h
    cases hm : g.handle sem (.post j tag x) with
    | none => rw [hm] at h; cases h
    | some g1 =>
      rw [hm] at h
      obtain ⟨i1, i2, i3, i4⟩ := ih (fun m hm => hb m (by simp [hm])) h
      simp only [RGraph.handle, RGraph.routeMessage, Option.bind_eq_some_iff, Option.map_eq_some_iff] at hm
      obtain ⟨k, hk, p, hp, rfl⟩ := hm
      have hk' := get_some hk
      refine ⟨i1, fun w => i2 (RGraph.put_wf w hk' rfl rfl rfl), fun i hi => ?_, fun i n hn => ?_⟩
      · refine i3 i ?_
        have : i ≠ j := by rintro rfl; rw [hk'] at hi; cases hi
        simp [RGraph.put, this, hi]
      · by_cases hij : i = j
        · subst hij
          rw [hk'] at hn; cases hn
          obtain ⟨p', q1, q2⟩ := i4 i { k with proc := p } (by simp [RGraph.put])
          refine ⟨p', q1, ?_⟩
          rw [mail_cons, show mail i [(.post i tag x : Msg P M)] = [x] by simp [mail]]
          simp only [List.cons_append, List.nil_append, RGraph.foldOpt, hp]
          exact q2
        · obtain ⟨p', q1, q2⟩ := i4 i n (by simp [RGraph.put, hij, hn])
          refine ⟨p', q1, ?_⟩
          rw [mail_cons, show mail i [(.post j tag x : Msg P M)] = [] by simp [mail, Ne.symm hij]]
          exact q2

/-- the messages can be handled if every node can handle its own -/
theorem posts_ok {sem : Sem P S M} {ids : Nat → Prop} : ∀ (b : List (Msg P M)) {g : RGraph P S}, Posts ids b →
    (∀ i n, g.slot i = some n → i < g.cap) → (∀ i, ids i → ∃ n, g.slot i = some n ∧
      (RGraph.foldOpt sem.onmessage (mail i b) n.proc).isSome) →
    ∃ g', RGraph.foldOpt (RGraph.handle sem) b g = some g' := by
  intro b
  induction b with
  | nil => intro g _ _ _; exact ⟨g, rfl⟩
  | cons m b ih =>
    intro g hb hcap hid
    obtain ⟨j, tag, x, rfl, hj⟩ := hb m (by simp)
    obtain ⟨n, hn, hs⟩ := hid j hj
    rw [mail_cons, show mail j [(.post j tag x : Msg P M)] = [x] by simp [mail]] at hs
    simp only [List.cons_append, List.nil_append, RGraph.foldOpt] at hs
    cases hp : sem.onmessage n.proc x with
    | none => rw [hp] at hs; cases hs
    | some p =>
      rw [hp] at hs
      have hh : g.handle sem (.post j tag x) = some (g.put j (some { n with proc := p })) := by
        simp only [RGraph.handle, RGraph.routeMessage, RGraph.get_eq_slot' hcap, hn, Option.bind_some, hp, Option.map_some]
      simp only [RGraph.foldOpt, hh]
      refine ih (fun m hm => hb m (by simp [hm])) ?_ ?_
      · intro i k hk
        by_cases hij : i = j
        · subst hij; exact hcap i n hn
        · simp only [RGraph.put, hij, if_false] at hk
          exact hcap i k hk
      · intro i hi
        by_cases hij : i = j
        · subst hij
          exact ⟨{ n with proc := p }, by simp [RGraph.put], hs⟩
        · obtain ⟨k, hk, hks⟩ := hid i hi
          rw [mail_cons, show mail i [(.post j tag x : Msg P M)] = [] by simp [mail, Ne.symm hij]] at hks
          exact ⟨k, by simp [RGraph.put, hij, hk], hks⟩

/-- processors do not read more and more parameters -/
structure Stable (sem : Sem P S M) (reads : P → Nat → Prop) : Prop where
  process : ∀ p ins outs ps x, sem.process p ins outs ps = some x → ∀ j, reads x.1 j → reads p j
  onmessage : ∀ p m p', sem.onmessage p m = some p' → ∀ j, reads p' j → reads p j

theorem Stable.batch {sem : Sem P S M} {reads : P → Nat → Prop} (h : Stable sem reads) : ∀ (l : List M) {p p' : P},
    RGraph.foldOpt sem.onmessage l p = some p' → ∀ j, reads p' j → reads p j := by
  intro l
  induction l with
  | nil => intro p p' hp j hj; simp only [RGraph.foldOpt, Option.some.injEq] at hp; exact hp ▸ hj
  | cons m l ih =>
    intro p p' hp j hj
    simp only [RGraph.foldOpt] at hp
    cases hm : sem.onmessage p m with
    | none => rw [hm] at hp; cases hp
    | some p1 => rw [hm] at hp; exact h.onmessage p m p1 hm j (ih hp j hj)

/-- One quantum and messages to processors: the graph stays in order, nodes that do not leave keep their connections. -/
theorem posts_quantum {t : Timed P S M} {reads : P → Nat → Prop} (hreads : ∀ f, Reads (t.at f) reads)
    (hst : ∀ f, Stable (t.at f) reads) {f : Nat} {g g1 g2 : RGraph P S} {o : S} {ks : List Nat} {r : Results P S}
    {ids : Nat → Prop} {b : List (Msg P M)} (fg : Fit reads g) (hl : Lists g ks) (hs : Solves (t.at f) g ks r)
    (hslot : g1.slot = afterwards (t.at f) g ks r) (h1 : g.render (t.at f) = some (g1, o))
    (h2 : RGraph.foldOpt (RGraph.handle t.base) b g1 = some g2) (hb : Posts ids b) :
    Fit reads g2 ∧ (∀ i, leaves (t.at f) g ks r i = false → ∀ u, into g2 u i = into g u i ∨ g2.slot u = none) ∧
    ∀ i n x, g.slot i = some n → r i = some x → leaves (t.at f) g ks r i = false →
      ∃ p, g2.slot i = some { n with proc := p, outputs := x.2.1, inputs := n.inputs.map fun _ => t.base.silence, hasInputs := false,
                                     edges := n.edges.filter fun e => !leaves (t.at f) g ks r e.dst } ∧
        RGraph.foldOpt t.base.onmessage (mail i b) x.1 = some p := by
  obtain ⟨p1, p2, p3, p4⟩ := posts_keep b hb h2
  have hw1 : WF g1 := by
    obtain ⟨_, g', _, _, _, _, hw, hr⟩ := RGraph.render_spec (t.at f) fg.wf
    rw [h1] at hr
    have hr := hr.symm
    simp only [Option.bind_eq_some_iff, Option.map_eq_some_iff, Prod.mk.injEq] at hr
    obtain ⟨_, _, _, _, h, _⟩ := hr
    rw [← h]
    exact hw
  obtain ⟨_, _, _, _, _, _, hc⟩ := C05_every_node_processed_partial (t.at f) fg.wf fg.complete fg.acyclic
  have hc1 := (hc g1 o h1).2
  have hback : ∀ i n2, g2.slot i = some n2 → ∃ n x, g.slot i = some n ∧ r i = some x ∧ leaves (t.at f) g ks r i = false ∧
      n2 = { n with proc := n2.proc, outputs := x.2.1, inputs := n.inputs.map fun _ => t.base.silence, hasInputs := false,
                    edges := n.edges.filter fun e => !leaves (t.at f) g ks r e.dst } ∧
      RGraph.foldOpt t.base.onmessage (mail i b) x.1 = some n2.proc := by
    intro i n2 hn2
    cases hi : g1.slot i with
    | none => rw [p3 i hi] at hn2; cases hn2
    | some n1 =>
      obtain ⟨p, q1, q2⟩ := p4 i n1 hi
      rw [hn2] at q1
      simp only [Option.some.injEq] at q1
      rw [hslot] at hi
      unfold afterwards at hi
      split at hi
      · rename_i n x hn hx
        split at hi
        · cases hi
        · rename_i hlv
          simp only [Option.some.injEq] at hi
          subst hi
          subst q1
          exact ⟨n, x, hn, hx, by simpa using hlv, rfl, q2⟩
      · cases hi
  have hforth : ∀ i n x, g.slot i = some n → r i = some x → leaves (t.at f) g ks r i = false →
      ∃ p, g2.slot i = some { n with proc := p, outputs := x.2.1, inputs := n.inputs.map fun _ => t.base.silence, hasInputs := false,
                                     edges := n.edges.filter fun e => !leaves (t.at f) g ks r e.dst } ∧
        RGraph.foldOpt t.base.onmessage (mail i b) x.1 = some p := by
    intro i n x hn hx hlv
    have hi : g1.slot i = some { n with proc := x.1, outputs := x.2.1, inputs := n.inputs.map fun _ => (t.at f).silence, hasInputs := false, edges := n.edges.filter fun e => !leaves (t.at f) g ks r e.dst } := by
      rw [hslot]
      unfold afterwards
      rw [hn, hx, hlv]
      rfl
    exact p4 i _ hi
  have hinto : ∀ i, leaves (t.at f) g ks r i = false → ∀ u, into g2 u i = into g u i ∨ g2.slot u = none := by
    intro i hi u
    cases hu : g2.slot u with
    | none => exact .inr rfl
    | some n2 =>
      left
      obtain ⟨n, x, hn, _, _, hnn, _⟩ := hback u n2 hu
      simp only [into, hu, hn]
      rw [hnn]
      dsimp only
      rw [List.filter_filter]
      refine List.filter_congr fun ed _ => ?_
      by_cases hd : ed.dst = i
      · simp [hd, hi]
      · simp [hd]
  refine ⟨⟨p2 hw1, ?_, ?_, ?_⟩, hinto, hforth⟩
  · rcases hc1 with h | h
    · exact .inl (p1.trans h)
    · refine .inr fun i hi => ?_
      rw [p1]
      refine h i ?_
      by_contra hno
      rw [p3 i (by simpa using hno)] at hi
      cases hi
  · intro i hcy
    refine fg.acyclic i (Relation.TransGen.mono ?_ i i hcy)
    rintro u v ⟨n2, hn2, ed, hed, hv⟩
    obtain ⟨n, x, hn, _, _, hnn, _⟩ := hback u n2 hn2
    rw [hnn] at hed
    exact ⟨n, hn, ed, (List.mem_filter.1 hed).1, hv⟩
  · intro i n2 hn2 j hj hjs
    obtain ⟨n, x, hn, hx, hlv, _, hm⟩ := hback i n2 hn2
    obtain ⟨m2, hm2⟩ := Option.isSome_iff_exists.1 hjs
    obtain ⟨m, y, hmn, hy, hlvj, hmm, _⟩ := hback j m2 hm2
    have hr := hs.eq i n hn
    rw [hx] at hr
    have hread : reads n.proc j := (hst f).process _ _ _ _ _ hr.symm j ((hst f).batch (mail i b) hm j hj)
    rcases fg.wired i n hn j hread (by rw [hmn]; rfl) with h | ⟨m', hm', ed, hed, hd⟩
    · exact .inl h
    · rw [hmn] at hm'; cases hm'
      refine .inr ⟨m2, hm2, ed, ?_, hd⟩
      rw [hmm]
      exact List.mem_filter.2 ⟨hed, by rw [hd, hlv]; rfl⟩

end

section
variable {K : Type} [Field K] [LinearOrder K] [IsStrictOrderedRing K] [FloorRing K]
variable {Q X : Type}

theorem Studio.stable (e : Studio K Q X) {ir : Q → Nat → Prop} (h : Stable e.inner ir) (f : Nat) :
    Stable (e.timed.at f) (sreads ir) where
  process := by
    intro p ins outs ps x hx j hj
    have hx : e.process f p ins outs ps = some x := hx
    unfold Studio.process at hx
    split at hx
    any_goals
      simp only [Option.map_eq_some_iff, Option.bind_eq_some_iff, Option.some.injEq] at hx
    · rw [← hx] at hj; exact hj
    · obtain ⟨_, _, _, _, rfl⟩ := hx; exact hj
    · obtain ⟨_, _, _, _, _, _, _, _, rfl⟩ := hx; exact hj
    · obtain ⟨_, _, _, _, _, _, _, _, rfl⟩ := hx; exact hj
    · obtain ⟨_, _, _, _, rfl⟩ := hx; exact hj
    · obtain ⟨_, _, rfl⟩ := hx; exact hj
    · obtain ⟨r, hr, rfl⟩ := hx; exact h.process _ _ _ _ _ hr j hj
    · cases hx
  onmessage := by
    intro p m p' hp j hj
    have hp : e.onmessage p m = some p' := hp
    cases p with
    | other q =>
      cases m with
      | other x =>
        simp only [Studio.onmessage, Option.map_eq_some_iff] at hp
        obtain ⟨q', hq, rfl⟩ := hp
        exact h.onmessage q x q' hq j hj
      | _ => cases hp; exact hj
    | param d mn mx p =>
      cases m with
      | event ev =>
        simp only [Studio.onmessage, Option.map_eq_some_iff] at hp
        obtain ⟨q', hq, rfl⟩ := hp
        exact hj
      | _ => cases hp; exact hj
    | _ => cases m <;> cases hp <;> exact hj

/-- the destination plays what arrives -/
theorem dest_stays (e : Studio K Q X) {f : Nat} {g : RGraph (SProc K Q) (MSig K e.c.N)} {ks : List Nat}
    {r : Results (SProc K Q) (MSig K e.c.N)} (hs : Solves (e.timed.at f) g ks r) {gains : List Nat} (hd : DestIn g gains) :
    ∃ y, r 0 = some (.destination, [y], true) := by
  obtain ⟨n, hn, h1, h2, h3, _⟩ := hd
  obtain ⟨a, ha⟩ := List.length_eq_one_iff.1 h2
  obtain ⟨o, ho⟩ := List.length_eq_one_iff.1 h3
  have hin : ∃ x, inputsOf (e.timed.at f) g ks r 0 n = [x] := by
    unfold inputsOf
    rw [ha]
    exact ⟨_, rfl⟩
  obtain ⟨x, hin⟩ := hin
  have hr := hs.eq 0 n hn
  rw [h1, hin, ho, show (e.timed.at f).process = e.process f from rfl] at hr
  exact ⟨x, hr⟩

/-- A note of a band, with its wave and its level in the present quantum. -/
structure Joins (e : Studio K Q X) (ir : Q → Nat → Prop) (f : Nat) (g : RGraph (SProc K Q) (MSig K e.c.N))
    (bs : List (List (Msg (SProc K Q) (SMsg K X)))) (v : Note K Q) (z : MSig K e.c.N) (l : List K) : Prop where
  begins : v.Begins ir g
  sits : v.Sits g
  params : ∀ a ∈ v.params, (a.values e f (bs.map (mail a.id))).isSome
  wave : v.wave e f bs = some z
  level : v.level e f bs = some l
  mono : z.q.length = 1

/-- what a source can play to the end it can play up to each quantum before -/
theorem played_prefix (e : Studio K Q X) {vals vals' : Nat → Nat → List K} : ∀ (bs bs' : List (List (SMsg K X))) {f k : Nat}
    {p : SProc K Q}, (∀ i, i ≤ k + bs.length → vals i = vals' i) → (e.played vals f k p (bs ++ bs')).isSome →
    (e.played vals' f k p bs).isSome := by
  intro bs bs'
  induction bs with
  | nil =>
    intro f k p hv h
    have hk := hv k (by simp)
    have key : (e.plays f (vals k) p).isSome := by
      cases bs' with
      | nil => simpa [Studio.played] using h
      | cons b bs' =>
        simp only [List.nil_append, Studio.played] at h
        cases hp : e.plays f (vals k) p with
        | some x => rfl
        | none => rw [hp] at h; cases h
    simpa [Studio.played, ← hk] using key
  | cons b bs ih =>
    intro f k p hv h
    have hk := hv k (by simp)
    simp only [List.cons_append, Studio.played] at h ⊢
    rw [← hk]
    cases hp : e.plays f (vals k) p with
    | none => rw [hp] at h; cases h
    | some x =>
      rw [hp] at h
      simp only [Option.bind_some] at h ⊢
      cases hm : RGraph.foldOpt e.onmessage b x.1 with
      | none => rw [hm] at h; cases h
      | some p' =>
        rw [hm] at h
        exact ih (fun i hi => hv i (by simp only [List.length_cons]; omega)) h

/-- events that a parameter takes alone it takes in the graph -/
theorem param_mail (e : Studio K Q X) {dflt mn mx : K} : ∀ (l : List (SMsg K X)) {p : Param.Proc K K} {fr : Nat} {ops : List (Param.Op K K)}
    {s : Param.Sys K K}, Param.run (e.A mn mx) e.dt e.c.N ⟨p, fr⟩ (l.filterMap SMsg.paramOp ++ ops) = .ok s →
    (RGraph.foldOpt e.onmessage l (.param dflt mn mx p : SProc K Q)).isSome := by
  intro l
  induction l with
  | nil => intro p fr ops s _; rfl
  | cons m l ih =>
    intro p fr ops s h
    cases m with
    | event ev =>
      simp only [List.filterMap_cons, SMsg.paramOp, List.cons_append, Param.run, Param.step] at h
      simp only [RGraph.foldOpt, Studio.onmessage]
      cases hh : Param.handle p ev with
      | ok p1 =>
        rw [hh] at h
        simp only [resOpt, Option.map_some]
        exact ih h
      | panic => rw [hh] at h; cases h
      | fuel => rw [hh] at h; cases h
    | rate a =>
      simp only [List.filterMap_cons, SMsg.paramOp, List.cons_append, Param.run, Param.step, Param.Res.bind] at h
      exact ih h
    | _ => exact ih h

/-- A band stays together: whatever messages the nodes of its notes get, the notes stay in the graph as they are. -/
theorem band_stays (e : Studio K Q X) (hsr : 0 < e.sr) (hN : e.c.N = 128) (h0 : 0 ≤ e.c.thr) {ir : Q → Nat → Prop}
    (hin : Reads e.inner ir) (hstb : Stable e.inner ir) {f : Nat} {g : RGraph (SProc K Q) (MSig K e.c.N)}
    {bs : List (List (Msg (SProc K Q) (SMsg K X)))} (hq : Quiet e.timed g) (hf : Fit (sreads ir) g)
    {vs : List (Note K Q × MSig K e.c.N × List K)} (hv : ∀ s ∈ vs, Joins e ir f g bs s.1 s.2.1 s.2.2)
    (hb : ∀ b ∈ bs, Posts (fun i => ∃ s ∈ vs, i ∈ s.1.ids) b) {gains : List Nat}
    (hg : ∀ i ∈ gains, ∃ s ∈ vs, s.1.gain = i) (hd : DestIn g gains) : ∀ bs', bs' <+: bs → ∀ pre, pre <+: bs' →
    ∃ g', stage e.timed f g pre = some g' ∧ Fit (sreads ir) g' ∧ (∀ s ∈ vs, s.1.Sits g') ∧ DestIn g' gains := by
  intro bs'
  induction bs' using List.reverseRecOn with
  | nil =>
    intro _ pre hp
    rw [List.prefix_nil.1 hp]
    exact ⟨g, rfl, hf, fun s hs => (hv s hs).sits, hd⟩
  | append_singleton bs' b ih =>
    intro hpre pre hp
    have hpre' : bs' <+: bs := (List.prefix_append bs' [b]).trans hpre
    have ih := ih hpre'
    rcases List.prefix_concat_iff.1 hp with rfl | hp
    swap
    · exact ih pre hp
    obtain ⟨gm, hst, fm, sm, dm⟩ := ih bs' (List.prefix_refl _)
    have hthr : Throughout e.timed f g bs' fun g' => Fit (sreads ir) g' ∧ ∀ s ∈ vs, s.1.Sits g' := by
      intro p' g' h1 h2
      obtain ⟨g'', k1, k2, k3, _⟩ := ih p' h1
      rw [h2] at k1; cases k1
      exact ⟨k2, k3⟩
    have hbs' : ∀ b' ∈ bs', ∀ i, Spares i b' := fun b' hb' i => (hb b' (hpre'.subset hb')).spares i
    have hbp := hb b (hpre.subset (by simp))
    obtain ⟨ks, r, hl, hs, _, o, rec, he⟩ := C111_equations (e.reads hin (f + 128 * bs'.length)) fm
    have htake : ∀ i, i ≤ bs'.length → bs.take i = bs'.take i := by
      intro i hi
      obtain ⟨l, rfl⟩ := hpre'
      rw [List.take_append_of_le_length hi]
    have hvals : ∀ v : Note K Q, ∀ i, i ≤ bs'.length → v.vals e f bs i = v.vals e f bs' i := by
      intro v i hi
      funext j
      unfold Note.vals
      rw [htake i hi]
    have hnote : ∀ s ∈ vs, (∃ w, r s.1.gain = some (.gain s.1.env.id, [w], false)) ∧
        (∃ z ps tail, r s.1.src = some (ps, [z], tail) ∧ (RGraph.foldOpt e.onmessage (mail s.1.src b) ps).isSome) ∧
        ∀ a ∈ s.1.env :: s.1.params, ∃ p y, r a.id = some (.param a.dflt a.mn a.mx p, [y], true) ∧
          (RGraph.foldOpt e.onmessage (mail a.id b) (.param a.dflt a.mn a.mx p : SProc K Q)).isSome := by
      intro s hs'
      have J := hv s hs'
      have hw : (e.played (s.1.vals e f bs') f 0 s.1.proc (bs'.map (mail s.1.src))).isSome := by
        obtain ⟨l, hl⟩ := hpre'
        refine played_prefix e (vals := s.1.vals e f bs) _ (l.map (mail s.1.src)) (fun i hi => hvals s.1 i (by simpa using hi)) ?_
        rw [← List.map_append, hl, show e.played (s.1.vals e f bs) f 0 s.1.proc (bs.map (mail s.1.src)) = some s.2.1 from J.wave]
        rfl
      obtain ⟨z, hz⟩ := Option.isSome_iff_exists.1 hw
      obtain ⟨_, _, hlv⟩ := Par.values_prefix (e := e) (a := s.1.env) (f := f) (hpre'.map (mail s.1.env.id))
        (by rw [show s.1.env.values e f (bs.map (mail s.1.env.id)) = some s.2.2 from J.level]; rfl)
      have hall : ∀ a ∈ s.1.env :: s.1.params, (a.values e f (bs.map (mail a.id))).isSome := by
        intro a ha
        rcases List.mem_cons.1 ha with rfl | ha
        · rw [show s.1.env.values e f (bs.map (mail s.1.env.id)) = some s.2.2 from J.level]; rfl
        · exact J.params a ha
      obtain ⟨⟨w, w1, _⟩, ⟨ps, tail, p1, p2⟩, pa⟩ := note_at e hsr hN h0 hin hq (hthr.mono fun g h => ⟨h.1, h.2 s hs'⟩)
        (fun b' hb' i _ => hbs' b' hb' i) J.begins hst
        (fun a ha => by
          obtain ⟨_, _, h⟩ := Par.values_prefix (e := e) (a := a) (f := f) (hpre'.map (mail a.id)) (J.params a ha)
          rw [h]; rfl) hz hlv hl hs
      refine ⟨⟨w, w1⟩, ⟨z, ps, tail, p1, p2 _ (s.1.vals e f bs) (fun i hi => hvals s.1 i hi) ?_⟩, fun a ha => ?_⟩
      · obtain ⟨l, hl⟩ := hpre
        have h2 : (e.played (s.1.vals e f bs) f 0 s.1.proc (bs.map (mail s.1.src))).isSome := by
          rw [show e.played (s.1.vals e f bs) f 0 s.1.proc (bs.map (mail s.1.src)) = some s.2.1 from J.wave]
          rfl
        have h3 : bs.map (mail s.1.src) = (bs'.map (mail s.1.src) ++ [mail s.1.src b]) ++ l.map (mail s.1.src) := by
          rw [← hl]; simp
        rw [h3] at h2
        exact played_prefix e _ _ (fun i _ => rfl) h2
      · obtain ⟨t, y, t1, t2⟩ := pa a ha
        refine ⟨t.p, y, t1, ?_⟩
        obtain ⟨u, hu, _⟩ := Par.values_prefix (e := e) (a := a) (f := f) (hpre.map (mail a.id)) (hall a ha)
        rw [List.map_append, paramOps_append, Param.run_append, t2] at hu
        simp only [Param.Res.bind, List.map_cons, List.map_nil, List.flatMap_cons, List.flatMap_nil, List.append_nil] at hu
        exact param_mail e (mail a.id b) (fr := t.frame) hu
    obtain ⟨y, hy⟩ := dest_stays e hs dm
    have hlv : ∀ i n x, gm.slot i = some n → r i = some x → n.dropped = false →
        leaves (e.timed.at (f + 128 * bs'.length)) gm ks r i = false := by
      intro i n x h1 h2 h3
      simp [leaves, h1, h2, h3]
    -- the quantum
    have hgm := dm
    obtain ⟨nd, nd1, nd2, nd3, nd4, nd5, nd6, nd7⟩ := dm
    have hr : gm.render (e.timed.at (f + 128 * bs'.length)) =
        some ({ cap := gm.cap, slot := afterwards (e.timed.at (f + 128 * bs'.length)) gm ks r, ordered := o, reclaimed := rec }, y) := by
      rw [he]
      simp only [afterwards, nd1, hy, hlv 0 nd _ nd1 hy nd5]
      rfl
    generalize hg1 : ({ cap := gm.cap, slot := afterwards (e.timed.at (f + 128 * bs'.length)) gm ks r, ordered := o, reclaimed := rec } : RGraph (SProc K Q) (MSig K e.c.N)) = g1 at hr
    have hslot : g1.slot = afterwards (e.timed.at (f + 128 * bs'.length)) gm ks r := by rw [← hg1]
    have hcap : g1.cap = gm.cap := by rw [← hg1]
    have hafter : ∀ i n x, gm.slot i = some n → r i = some x → n.dropped = false → ∃ n', g1.slot i = some n' ∧ n'.proc = x.1 := by
      intro i n x h1 h2 h3
      rw [hslot]
      simp only [afterwards, h1, h2, hlv i n x h1 h2 h3]
      exact ⟨_, rfl, rfl⟩
    -- the messages
    obtain ⟨g2, hg2⟩ : ∃ g2, RGraph.foldOpt (RGraph.handle e.timed.base) b g1 = some g2 := by
      refine posts_ok b hbp ?_ ?_
      · intro i n hn
        rw [hslot] at hn
        rw [hcap]
        cases hi : gm.slot i with
        | some m => exact fm.wf.bound i m hi
        | none => simp [afterwards, hi] at hn
      · rintro i ⟨s, hs', hi⟩
        obtain ⟨⟨w, k1⟩, ⟨z, ps, tail, k2, k3⟩, k4⟩ := hnote s hs'
        have hsit := sm s hs'
        unfold Note.ids at hi
        rcases List.mem_cons.1 hi with rfl | hi
        · obtain ⟨n, hn, _, hd'⟩ := hsit.source
          obtain ⟨n', h1, h2⟩ := hafter _ n _ hn k2 hd'
          exact ⟨n', h1, by rw [h2]; exact k3⟩
        rcases List.mem_cons.1 hi with rfl | hi
        · obtain ⟨n, hn, _, _, hd', _⟩ := hsit.gain
          obtain ⟨n', h1, h2⟩ := hafter _ n _ hn k1 hd'
          refine ⟨n', h1, ?_⟩
          rw [h2]
          have : ∀ l : List (SMsg K X), RGraph.foldOpt e.onmessage l (.gain s.1.env.id : SProc K Q) = some (.gain s.1.env.id) := by
            intro l
            induction l with
            | nil => rfl
            | cons a l ihl => exact ihl
          show (RGraph.foldOpt e.onmessage _ (.gain s.1.env.id : SProc K Q)).isSome
          rw [this]
          rfl
        · obtain ⟨a, ha, rfl⟩ := List.mem_map.1 hi
          obtain ⟨n, hn, _, _, hd', _⟩ := hsit.params a ha
          obtain ⟨p, y, h3, h4⟩ := k4 a ha
          obtain ⟨n', h1, h2⟩ := hafter _ n _ hn h3 hd'
          exact ⟨n', h1, by rw [h2]; exact h4⟩
    have hstage : stage e.timed f g (bs' ++ [b]) = some g2 := by
      rw [stage_append, hst]
      simp only [Option.bind_some, stage, hr, hg2]
    obtain ⟨f2, hinto, hforth⟩ := posts_quantum (e.reads hin) (e.stable hstb) fm hl hs hslot hr hg2 hbp
    refine ⟨g2, hstage, f2, fun s hs' => ⟨?_, ?_, ?_⟩, ?_⟩
    · obtain ⟨_, ⟨z, ps, tail, k2, _⟩, _⟩ := hnote s hs'
      obtain ⟨n, hn, h1, hd'⟩ := (sm s hs').source
      obtain ⟨p, h2, _⟩ := hforth _ n _ hn k2 (hlv _ n _ hn k2 hd')
      exact ⟨_, h2, rfl, hd'⟩
    · obtain ⟨⟨w, k1⟩, ⟨z, ps, tail, k2, _⟩, _⟩ := hnote s hs'
      obtain ⟨n, hn, h1, h2, hd', h3, h4⟩ := (sm s hs').gain
      obtain ⟨p, h5, _⟩ := hforth _ n _ hn k1 (hlv _ n _ hn k1 hd')
      refine ⟨_, h5, by simpa using h1, rfl, hd', h3, fun u => ?_⟩
      rcases hinto s.1.gain (hlv _ n _ hn k1 hd') u with h | h
      · rw [h, h4]
      · by_cases hu : u = s.1.src
        · obtain ⟨m, hm, _, hdm⟩ := (sm s hs').source
          obtain ⟨q, h6, _⟩ := hforth _ m _ hm k2 (hlv _ m _ hm k2 hdm)
          rw [hu, h6] at h; cases h
        · rw [if_neg hu]
          simp [into, h]
    · intro a ha
      obtain ⟨_, _, k4⟩ := hnote s hs'
      obtain ⟨n, hn, h1, h2, hd', h3⟩ := (sm s hs').params a ha
      obtain ⟨p, y, k5, _⟩ := k4 a ha
      obtain ⟨q, h5, _⟩ := hforth _ n _ hn k5 (hlv _ n _ hn k5 hd')
      refine ⟨_, h5, by simpa using h1, rfl, hd', fun u => ?_⟩
      rcases hinto a.id (hlv _ n _ hn k5 hd') u with h | h
      · rw [h, h3]
      · simp [into, h]
    · obtain ⟨p, h5, h6⟩ := hforth 0 nd _ nd1 hy (hlv 0 nd _ nd1 hy nd5)
      have hp : p = .destination := by
        have : ∀ l : List (SMsg K X), RGraph.foldOpt e.onmessage l (.destination : SProc K Q) = some .destination := by
          intro l
          induction l with
          | nil => rfl
          | cons a l ihl => exact ihl
        have h6 : RGraph.foldOpt e.onmessage (mail 0 b) (.destination : SProc K Q) = some p := h6
        rw [this] at h6
        exact (Option.some.inj h6).symm
      refine ⟨_, h5, hp, by simpa using nd3, rfl, nd5, nd6, fun u => ?_⟩
      rcases hinto 0 (hlv 0 nd _ nd1 hy nd5) u with h | h
      · rw [h, nd7]
      · by_cases hu : u ∈ gains
        · obtain ⟨s, hs', rfl⟩ := hg u hu
          obtain ⟨⟨w, k1⟩, _⟩ := hnote s hs'
          obtain ⟨n, hn, _, _, hd', _⟩ := (sm s hs').gain
          obtain ⟨q, h7, _⟩ := hforth _ n _ hn k1 (hlv _ n _ hn k1 hd')
          rw [h7] at h; cases h
        · rw [if_neg hu]
          simp [into, h]

/-- C112 for a band that is set up once: the notes are in the graph at the beginning (and possibly other nodes), connected to the
destination; from then on nodes of the notes get messages, nothing else happens. Then no message and no quantum makes the render
thread panic, and in the quantum after the messages both channels of the output are, at every frame, the sum over the notes of
what the source of the note plays there times the value of its envelope there. Nothing is assumed about the graph but at the
beginning. -/
theorem C112_band (e : Studio K Q X) (hsr : 0 < e.sr) (hN : e.c.N = 128) (h0 : 0 ≤ e.c.thr) {ir : Q → Nat → Prop}
    (hin : Reads e.inner ir) (hstb : Stable e.inner ir) {f : Nat} {g : RGraph (SProc K Q) (MSig K e.c.N)}
    {bs : List (List (Msg (SProc K Q) (SMsg K X)))} (hq : Quiet e.timed g) (hf : Fit (sreads ir) g)
    {vs : List (Note K Q × MSig K e.c.N × List K)} (hv : ∀ s ∈ vs, Joins e ir f g bs s.1 s.2.1 s.2.2)
    (hb : ∀ b ∈ bs, Posts (fun i => ∃ s ∈ vs, i ∈ s.1.ids) b) (hd : DestIn g (vs.map fun s => s.1.gain))
    (hnd : (vs.map fun s => s.1.gain).Nodup) :
    ∃ gk g' y, stage e.timed f g bs = some gk ∧ gk.render (e.timed.at (f + 128 * bs.length)) = some (g', y) ∧
      ∀ k j, k < 2 → j < e.c.N →
        |Node.sample y.q k j - (vs.map fun s => Node.sample s.2.1.q 0 j * Node.gainAt s.2.2 j).sum| ≤
          e.c.thr * (vs.map fun s => |Node.sample s.2.1.q 0 j|).sum := by
  have hall := band_stays e hsr hN h0 hin hstb hq hf hv hb (gains := vs.map fun s => s.1.gain)
    (fun i hi => by simpa using hi) hd bs (List.prefix_refl _)
  obtain ⟨gk, h1, _, _, h2⟩ := hall bs (List.prefix_refl _)
  have hthr : Throughout e.timed f g bs fun g' => Fit (sreads ir) g' ∧ ∀ s ∈ vs, s.1.Sits g' := by
    intro p' g' h1 h2
    obtain ⟨g'', k1, k2, k3, _⟩ := hall p' h1
    rw [h2] at k1; cases k1
    exact ⟨k2, k3⟩
  obtain ⟨g', y, h3, h4⟩ := C112_score e hsr hN h0 hin hq (hthr.mono fun _ h => h.1) h1
    (vs := vs.map fun s => (s.1, 0, s.2.1, s.2.2)) (fun s hs => by
      obtain ⟨s0, hs0, rfl⟩ := List.mem_map.1 hs
      have J := hv s0 hs0
      exact ⟨⟨by simp, g, rfl, J.begins, by simpa using hthr.mono fun _ h => h.2 s0 hs0⟩,
        fun b hb' i _ => (hb b (by simpa using hb')).spares i, by simpa using J.params, by simpa using J.wave,
        by simpa using J.level, J.mono⟩)
    (by simpa [Function.comp_def] using h2) (by simpa [Function.comp_def] using hnd)
  refine ⟨gk, g', y, h1, h3, fun k j hk hj => ?_⟩
  simpa [Function.comp_def] using h4 k j hk hj

/-- constant sources play whatever messages they get -/
theorem const_plays_on (e : Studio K Q X) (hdt : 0 < e.dt) {vals : Nat → Nat → List K} {o : Nat} :
    ∀ (bs : List (List (SMsg K X))) {f k : Nat} {s : Source.Const K},
    (∀ k', k' ≤ k + bs.length → (vals k' o).length = 1 ∨ (vals k' o).length = e.c.N) →
    (e.played vals f k (.const s o : SProc K Q) bs).isSome := by
  have hout : ∀ (f k : Nat) (s : Source.Const K), ((vals k o).length = 1 ∨ (vals k o).length = e.c.N) →
      ∃ q, outOf e.c.N (mono (({ s with frame := f } : Source.Const K).process e.dt e.c.N (vals k o)).1) = some q := by
    intro f k s h
    obtain ⟨p1, _⟩ := const_process hdt ({ s with frame := f } : Source.Const K) h
    generalize (({ s with frame := f } : Source.Const K).process e.dt e.c.N (vals k o)).1 = out at p1
    unfold mono
    split
    · exact ⟨_, rfl⟩
    · rename_i hne
      simp only [outOf]
      rw [dif_pos (by simpa using p1.resolve_left hne)]
      exact ⟨_, rfl⟩
  have hmail : ∀ (b : List (SMsg K X)) (s : Source.Const K), ∃ s', RGraph.foldOpt e.onmessage b (.const s o : SProc K Q) = some (.const s' o) := by
    intro b
    induction b with
    | nil => intro s; exact ⟨s, rfl⟩
    | cons m b ih => intro s; cases m <;> exact ih _
  intro bs
  induction bs with
  | nil =>
    intro f k s hv
    obtain ⟨q, hq⟩ := hout f k s (hv k (by simp))
    simp only [Studio.played, Studio.plays, hq]
    rfl
  | cons b bs ih =>
    intro f k s hv
    obtain ⟨q, hq⟩ := hout f k s (hv k (by simp))
    simp only [Studio.played, Studio.plays, hq, Option.map_some, Option.bind_some]
    obtain ⟨s', hs'⟩ := hmail b { (({ s with frame := f } : Source.Const K).process e.dt e.c.N (vals k o)).2.1 with frame := 0 }
    rw [hs']
    exact ih fun k' hk' => hv k' (by simp only [List.length_cons]; omega)

/-- A note of a constant source: state of the source, offset parameter, values of the offset and of the envelope in the present
quantum. -/
structure Tone (K Q : Type) where
  note : Note K Q
  source : Source.Const K
  offset : Par K
  values : List K
  level : List K

/-- what is heard of a tone at frame `j` of the quantum after the messages -/
noncomputable def Tone.at (e : Studio K Q X) (f : Nat) (bs : List (List (Msg (SProc K Q) (SMsg K X)))) (t : Tone K Q) (j : Nat) : K :=
  constAt (schedule (t.source.start, t.source.stop) (bs.flatMap (mail t.note.src))) (Node.gainAt t.values j)
    ((f + 128 * bs.length + j : Nat) * e.dt)

/-- C112 for tones of constant sources: the output at every frame is the sum over the tones of offset times envelope, each tone from
its start time to its stop time, with the times of the messages so far. -/
theorem C112_tones (e : Studio K Q X) (hsr : 0 < e.sr) (hN : e.c.N = 128) (h0 : 0 ≤ e.c.thr) {ir : Q → Nat → Prop}
    (hin : Reads e.inner ir) (hstb : Stable e.inner ir) {f : Nat} {g : RGraph (SProc K Q) (MSig K e.c.N)}
    {bs : List (List (Msg (SProc K Q) (SMsg K X)))} (hq : Quiet e.timed g) (hf : Fit (sreads ir) g) {ts : List (Tone K Q)}
    (hproc : ∀ t ∈ ts, t.note.proc = .const t.source t.offset.id ∧ t.note.params = [t.offset])
    (hbeg : ∀ t ∈ ts, t.note.Begins ir g ∧ t.note.Sits g)
    (hvals : ∀ t ∈ ts, t.offset.values e f (bs.map (mail t.offset.id)) = some t.values)
    (hlev : ∀ t ∈ ts, t.note.env.values e f (bs.map (mail t.note.env.id)) = some t.level)
    (hb : ∀ b ∈ bs, Posts (fun i => ∃ t ∈ ts, i ∈ t.note.ids) b) (hd : DestIn g (ts.map fun t => t.note.gain))
    (hnd : (ts.map fun t => t.note.gain).Nodup) :
    ∃ gk g' y, stage e.timed f g bs = some gk ∧ gk.render (e.timed.at (f + 128 * bs.length)) = some (g', y) ∧
      ∀ k j, k < 2 → j < e.c.N →
        |Node.sample y.q k j - (ts.map fun t => t.at e f bs j * Node.gainAt t.level j).sum| ≤
          e.c.thr * (ts.map fun t => |t.at e f bs j|).sum := by
  have hdt : 0 < e.dt := one_div_pos.2 hsr
  have hwave : ∀ t ∈ ts, (t.note.wave e f bs).isSome := by
    intro t ht
    unfold Note.wave
    rw [(hproc t ht).1]
    refine const_plays_on e hdt _ fun k hk => ?_
    have : t.note.vals e f bs k t.offset.id = (t.offset.values e f ((bs.take k).map (mail t.offset.id))).getD [] := by
      simp [Note.vals, (hproc t ht).2]
    rw [this]
    obtain ⟨_, _, hl⟩ := Par.values_prefix (e := e) (a := t.offset) (f := f) ((List.take_prefix k bs).map (mail t.offset.id))
      (by rw [hvals t ht]; rfl)
    rw [hl]
    exact Par.values_length hdt hl
  have hz : ∀ t ∈ ts, ∀ z, t.note.wave e f bs = some z → z.q.length = 1 ∧ ∀ j, j < e.c.N → Node.sample z.q 0 j = t.at e f bs j :=
    fun t ht z h => C112_constant e hsr (hproc t ht).1 (hproc t ht).2 (hvals t ht) h
  obtain ⟨gk, g', y, h1, h2, h3⟩ := C112_band e hsr hN h0 hin hstb hq hf
    (vs := ts.map fun t => (t.note, (t.note.wave e f bs).getD e.timed.base.silence, t.level)) (fun s hs => by
      obtain ⟨t, ht, rfl⟩ := List.mem_map.1 hs
      obtain ⟨z, hw⟩ := Option.isSome_iff_exists.1 (hwave t ht)
      dsimp only
      rw [hw]
      exact ⟨(hbeg t ht).1, (hbeg t ht).2, fun a ha => by
        rw [(hproc t ht).2, List.mem_singleton] at ha
        rw [ha, hvals t ht]; rfl, hw, hlev t ht, (hz t ht z hw).1⟩)
    (fun b hb' m hm => by
      obtain ⟨i, tag, x, h, t, ht, hi⟩ := hb b hb' m hm
      exact ⟨i, tag, x, h, _, List.mem_map.2 ⟨t, ht, rfl⟩, hi⟩)
    (by simpa [Function.comp_def] using hd) (by simpa [Function.comp_def] using hnd)
  refine ⟨gk, g', y, h1, h2, fun k j hk hj => ?_⟩
  have hval : ∀ t ∈ ts, Node.sample ((t.note.wave e f bs).getD e.timed.base.silence).q 0 j = t.at e f bs j := by
    intro t ht
    obtain ⟨z, hw⟩ := Option.isSome_iff_exists.1 (hwave t ht)
    rw [hw]
    exact (hz t ht z hw).2 j hj
  have h4 := h3 k j hk hj
  rw [List.map_map, List.map_map] at h4
  have e1 : ts.map ((fun s : Note K Q × MSig K e.c.N × List K => Node.sample s.2.1.q 0 j * Node.gainAt s.2.2 j) ∘ fun t => (t.note, (t.note.wave e f bs).getD e.timed.base.silence, t.level)) = ts.map fun t => t.at e f bs j * Node.gainAt t.level j :=
    List.map_congr_left fun t ht => by simp only [Function.comp_apply, hval t ht]
  have e2 : ts.map ((fun s : Note K Q × MSig K e.c.N × List K => |Node.sample s.2.1.q 0 j|) ∘ fun t => (t.note, (t.note.wave e f bs).getD e.timed.base.silence, t.level)) = ts.map fun t => |t.at e f bs j| :=
    List.map_congr_left fun t ht => by simp only [Function.comp_apply, hval t ht]
  rw [← e1, ← e2]
  exact h4

end

/-! ## An example -/

/-- A tone: offset (1), constant source (2), gain (3) of the gain node (4); the gain node is connected to the destination. -/
def stand : RGraph (SProc ℚ Empty) (MSig ℚ studio.c.N) where
  cap := 64
  slot := fun i =>
    if i = 0 then some ⟨0, .destination, [studio.timed.base.silence], [studio.timed.base.silence], ⟨2, 2, 0⟩, [], false, false, false⟩
    else if i = 1 then some ⟨1, .param 1 (-100) 100 { intrinsic := 2, current := 2 }, [studio.timed.base.silence],
      [studio.timed.base.silence], ⟨1, 2, 0⟩, [⟨0, 2, none⟩], false, false, false⟩
    else if i = 2 then some ⟨2, .const {} 1, [], [studio.timed.base.silence], ⟨2, 0, 0⟩, [⟨0, 4, some 0⟩], false, false, false⟩
    else if i = 3 then some ⟨3, .param 1 (-100) 100 { intrinsic := 0, current := 0 }, [studio.timed.base.silence],
      [studio.timed.base.silence], ⟨1, 2, 0⟩, [⟨0, 4, none⟩], false, false, false⟩
    else if i = 4 then some ⟨4, .gain 3, [studio.timed.base.silence], [studio.timed.base.silence], ⟨2, 0, 0⟩, [⟨0, 0, some 0⟩],
      false, false, false⟩
    else none
  ordered := []
  reclaimed := []

theorem stand_cases {i : Nat} {n : Render.Node (SProc ℚ Empty) (MSig ℚ studio.c.N)} (h : stand.slot i = some n) :
    (i = 0 ∧ n = ⟨0, .destination, [studio.timed.base.silence], [studio.timed.base.silence], ⟨2, 2, 0⟩, [], false, false, false⟩) ∨
    (i = 1 ∧ n = ⟨1, .param 1 (-100) 100 { intrinsic := 2, current := 2 }, [studio.timed.base.silence],
      [studio.timed.base.silence], ⟨1, 2, 0⟩, [⟨0, 2, none⟩], false, false, false⟩) ∨
    (i = 2 ∧ n = ⟨2, .const {} 1, [], [studio.timed.base.silence], ⟨2, 0, 0⟩, [⟨0, 4, some 0⟩], false, false, false⟩) ∨
    (i = 3 ∧ n = ⟨3, .param 1 (-100) 100 { intrinsic := 0, current := 0 }, [studio.timed.base.silence],
      [studio.timed.base.silence], ⟨1, 2, 0⟩, [⟨0, 4, none⟩], false, false, false⟩) ∨
    (i = 4 ∧ n = ⟨4, .gain 3, [studio.timed.base.silence], [studio.timed.base.silence], ⟨2, 0, 0⟩, [⟨0, 0, some 0⟩],
      false, false, false⟩) := by
  simp only [stand] at h
  split at h
  · cases h; exact .inl ⟨by assumption, rfl⟩
  split at h
  · cases h; exact .inr (.inl ⟨by assumption, rfl⟩)
  split at h
  · cases h; exact .inr (.inr (.inl ⟨by assumption, rfl⟩))
  split at h
  · cases h; exact .inr (.inr (.inr (.inl ⟨by assumption, rfl⟩)))
  split at h
  · cases h; exact .inr (.inr (.inr (.inr ⟨by assumption, rfl⟩)))
  · simp at h

theorem stand_quiet : Quiet studio.timed stand := by
  intro i n hn s hs
  rcases stand_cases hn with ⟨_, rfl⟩ | ⟨_, rfl⟩ | ⟨_, rfl⟩ | ⟨_, rfl⟩ | ⟨_, rfl⟩ <;> simp_all

theorem stand_fit : Fit (sreads fun _ _ => False) stand := by
  refine ⟨⟨⟨fun i n hn => ?_, fun i n hn e he => ?_⟩, List.nodup_nil, by simp [stand], by simp [stand]⟩, .inl rfl,
    fun i hc => ?_, fun i n hn j hj _ => ?_⟩
  · rcases stand_cases hn with ⟨rfl, _⟩ | ⟨rfl, _⟩ | ⟨rfl, _⟩ | ⟨rfl, _⟩ | ⟨rfl, _⟩ <;> simp [stand]
  · rcases stand_cases hn with ⟨rfl, rfl⟩ | ⟨rfl, rfl⟩ | ⟨rfl, rfl⟩ | ⟨rfl, rfl⟩ | ⟨rfl, rfl⟩ <;> simp at he <;>
      subst he <;> simp [stand]
  · -- the rank of a node decreases along connections
    let rank : Nat → Nat := fun i => if i = 0 then 0 else if i = 4 then 1 else if i = 1 then 3 else 2
    have step : ∀ u v, (∃ n, stand.slot u = some n ∧ ∃ e ∈ n.edges, e.dst = v) → rank v < rank u := by
      rintro u v ⟨n, hn, e, he, rfl⟩
      rcases stand_cases hn with ⟨rfl, rfl⟩ | ⟨rfl, rfl⟩ | ⟨rfl, rfl⟩ | ⟨rfl, rfl⟩ | ⟨rfl, rfl⟩ <;> simp at he <;>
        subst he <;> simp [rank]
    have hdec : ∀ u v, Relation.TransGen (fun u v => ∃ n, stand.slot u = some n ∧ ∃ e ∈ n.edges, e.dst = v) u v →
        rank v < rank u := by
      intro u v h
      induction h with
      | single h => exact step _ _ h
      | tail _ h ih => exact (step _ _ h).trans ih
    exact Nat.lt_irrefl _ (hdec i i hc)
  · rcases stand_cases hn with ⟨rfl, rfl⟩ | ⟨rfl, rfl⟩ | ⟨rfl, rfl⟩ | ⟨rfl, rfl⟩ | ⟨rfl, rfl⟩ <;> simp [sreads] at hj
    · subst hj; exact .inr ⟨_, rfl, ⟨0, 2, none⟩, by simp, rfl⟩
    · subst hj; exact .inr ⟨_, rfl, ⟨0, 4, none⟩, by simp, rfl⟩

/-- the tone of `stand` -/
def standNote : Note ℚ Empty where
  src := 2
  gain := 4
  proc := .const {} 1
  params := [⟨1, 1, -100, 100, { intrinsic := 2, current := 2 }⟩]
  env := ⟨3, 1, -100, 100, { intrinsic := 0, current := 0 }⟩

/-- after the first quantum: the source is to start at 1.5 seconds, the gain goes to 4 at 3 seconds -/
def standMail : List (List (Render.Msg (SProc ℚ Empty) (SMsg ℚ Empty))) :=
  [[.post 2 2 (.start (3 / 2) 0 ⊤), .post 3 3 (.event { kind := .linear, value := 4, time := 3 })]]

theorem stand_sits : standNote.Sits stand where
  source := ⟨_, rfl, rfl, rfl⟩
  gain := ⟨_, rfl, rfl, rfl, rfl, rfl, fun u => by
    simp only [into, standNote, stand]
    by_cases h0 : u = 0 <;> by_cases h1 : u = 1 <;> by_cases h2 : u = 2 <;> by_cases h3 : u = 3 <;> by_cases h4 : u = 4 <;>
      simp_all⟩
  params := by
    intro a ha
    simp only [standNote, List.mem_cons, List.not_mem_nil, or_false] at ha
    rcases ha with rfl | rfl <;> refine ⟨_, rfl, rfl, rfl, rfl, fun u => ?_⟩ <;> simp only [into, stand] <;>
    by_cases h0 : u = 0 <;> by_cases h1 : u = 1 <;> by_cases h2 : u = 2 <;> by_cases h3 : u = 3 <;> by_cases h4 : u = 4 <;>
      simp_all

theorem stand_begins : standNote.Begins (fun _ _ => False) stand where
  source := by rintro n hn; cases hn; rfl
  gain := by rintro n hn; cases hn; rfl
  params := by
    intro a ha n hn
    simp only [standNote, List.mem_cons, List.not_mem_nil, or_false] at ha
    rcases ha with rfl | rfl <;> cases hn <;> rfl
  reads := fun j hj => ⟨_, List.mem_singleton.2 rfl, by simpa [standNote, sreads] using hj.symm⟩

theorem stand_dest : DestIn stand [4] := by
  refine ⟨_, rfl, rfl, rfl, rfl, rfl, rfl, fun u => ?_⟩
  simp only [into, stand]
  by_cases h0 : u = 0 <;> by_cases h1 : u = 1 <;> by_cases h2 : u = 2 <;> by_cases h3 : u = 3 <;> by_cases h4 : u = 4 <;>
    simp_all

/-- the gain in the second quantum: a line from 0 at 1 second to 4 at 3 seconds -/
example : (standNote.env.values studio 0 (standMail.map (mail 3))).map (fun l => [0, 1, 64, 127].map fun j => l.getD j 0) =
    some [0, 1 / 64, 1, 127 / 64] := by decide +kernel

/-- The tone is heard from 1.5 seconds on, as loud as its envelope: the theorem applies to the second quantum. -/
example : ∃ gk g' y, stage studio.timed 0 stand standMail = some gk ∧ gk.render (studio.timed.at 128) = some (g', y) ∧
    (∀ k, k < 2 → ∀ j, j < 64 → Node.sample y.q k j = 0) ∧
    ∀ k, k < 2 → |Node.sample y.q k 64 - 2| ≤ 2 / 1000000 ∧ |Node.sample y.q k 127 - 127 / 32| ≤ 2 / 1000000 := by
  have hl : (standNote.env.values studio 0 (standMail.map (mail 3))).isSome := by decide +kernel
  obtain ⟨l, hl⟩ := Option.isSome_iff_exists.1 hl
  have hv : standNote.params.map (fun a => a.values studio 0 (standMail.map (mail a.id))) = [some [2]] := by decide +kernel
  have hl64 : l.getD 64 0 = 1 ∧ l.getD 127 0 = 127 / 64 ∧ l.length = 128 := by
    have : (standNote.env.values studio 0 (standMail.map (mail 3))).map (fun l => (l.getD 64 0, l.getD 127 0, l.length)) =
        some (1, 127 / 64, 128) := by decide +kernel
    rw [hl] at this
    simpa using this
  obtain ⟨gk, g', y, h1, h2, h3⟩ := C112_tones studio (ir := fun _ _ => False) (by show (0 : ℚ) < 128; norm_num) rfl
    (by show (0 : ℚ) ≤ 1 / 1000000; norm_num) (fun p => nomatch p) ⟨(fun p => nomatch p), (fun p => nomatch p)⟩
    (f := 0) (bs := standMail) stand_quiet stand_fit
    (ts := [⟨standNote, {}, ⟨1, 1, -100, 100, { intrinsic := 2, current := 2 }⟩, [2], l⟩])
    (by simp [standNote]) (by simpa using ⟨stand_begins, stand_sits⟩) (by simpa [standNote] using hv)
    (by intro t ht; rw [List.mem_singleton.1 ht]; exact hl)
    (by
      intro b hb m hm
      simp only [standMail, List.mem_singleton] at hb
      subst hb
      simp only [List.mem_cons, List.not_mem_nil, or_false] at hm
      rcases hm with rfl | rfl <;> exact ⟨_, _, _, rfl, _, List.mem_singleton.2 rfl, by simp [Note.ids, standNote]⟩)
    stand_dest (by simp)
  have hat : ∀ j, Tone.at studio 0 standMail ⟨standNote, {}, ⟨1, 1, -100, 100, { intrinsic := 2, current := 2 }⟩, [2], l⟩ j =
      if 64 ≤ j then 2 else 0 := by
    intro j
    have hs : schedule ((⊤ : WithTop ℚ), (⊤ : WithTop ℚ)) (standMail.flatMap (mail standNote.src)) = (((3 / 2 : ℚ) : WithTop ℚ), ⊤) := rfl
    have ht : ((0 + 128 * standMail.length + j : Nat) : ℚ) * studio.dt = 1 + j / 128 := by
      show ((0 + 128 * 1 + j : Nat) : ℚ) * (1 / 128) = _
      push_cast; ring
    simp only [Tone.at]
    rw [show (({} : Source.Const ℚ).start, ({} : Source.Const ℚ).stop) = ((⊤ : WithTop ℚ), (⊤ : WithTop ℚ)) from rfl, hs, ht]
    simp only [constAt, WithTop.coe_le_coe, WithTop.coe_lt_top, and_true, Node.gainAt]
    refine if_congr ⟨fun h => ?_, fun h => ?_⟩ rfl rfl
    · have : (64 : ℚ) ≤ j := by linarith
      exact_mod_cast this
    · have : (64 : ℚ) ≤ j := by exact_mod_cast h
      linarith
  have hthr : studio.c.thr = 1 / 1000000 := rfl
  have hg : ∀ j, Node.gainAt l j = l.getD j 0 := fun j => by simp [Node.gainAt, hl64.2.2]
  simp only [List.map_cons, List.map_nil, List.sum_cons, List.sum_nil, add_zero, hat, hthr, hg] at h3
  refine ⟨gk, g', y, h1, h2, fun k hk j hj => ?_, fun k hk => ⟨?_, ?_⟩⟩
  · have := h3 k j hk (Nat.lt_of_lt_of_le hj (by decide))
    simpa [show ¬ 64 ≤ j by omega] using this
  · have := h3 k 64 hk (by decide)
    rw [hl64.1] at this
    norm_num at this ⊢
    exact this
  · have := h3 k 127 hk (by decide)
    rw [hl64.2.1] at this
    norm_num at this ⊢
    exact this

/-- The hypotheses of `C112_envelope` hold for its gain. -/
example : paramOps (standMail.map (mail standNote.env.id)) =
      List.replicate 1 .block ++ (.event { kind := .linear, value := 4, time := 3 } :: [] ++ [.block]) ∧
    Param.Envelope (Param.start standNote.env.proc.intrinsic ((0 + 1 * 128 : Nat) * (1 / 128 : ℚ)) ::
      { kind := .linear, value := 4, time := 3 } :: Param.scheduled []) ∧
    Param.Timely (1 / 128 : ℚ) 128 (0 + 1 * 128) [] ∧ standNote.env.proc.last = none ∧ standNote.env.proc.aRate = true :=
  ⟨rfl, ⟨by simp [Param.scheduled, Param.start, Param.Ev.isRamp, standNote], by simp [Param.scheduled, Param.start],
    by norm_num [Param.scheduled, Param.start, Param.Sorted], by simp [Param.scheduled, Param.start, Param.Ev.Targets, Param.Ev.isRamp]⟩,
    by norm_num [Param.Timely], rfl, rfl⟩

end Verif.Whole
