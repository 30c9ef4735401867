import Verif.Whole.Device
import Verif.Graph.Equations

/-!
# Histories of a graph, quantum by quantum, and what a single node gets of them

Between two quanta the render thread handles the messages that have arrived (`/repo/src/render/thread.rs` l.136-252, l.351-439),
then the graph is rendered (`/repo/src/render/graph.rs` l.490-591) at the next frame. Here the graph is followed from the start of
one quantum to the start of a later one, and a single node with the messages that are addressed to it.
-/

namespace Verif.Whole

open Verif Verif.Render

variable {P S M : Type}

/-- The graph at the start of the quantum after the given batches of messages: the quantum at frame `f` is rendered, the first
batch is handled, the next quantum is rendered, and so on; `none` if the render thread panics. -/
def stage (t : Timed P S M) : Nat → RGraph P S → List (List (Msg P M)) → Option (RGraph P S)
  | _, g, [] => some g
  | f, g, b :: bs => (g.render (t.at f)).bind fun r =>
      (RGraph.foldOpt (RGraph.handle t.base) b r.1).bind fun g' => stage t (f + 128) g' bs

/-- the messages to node `i` -/
def mail (i : Nat) (b : List (Msg P M)) : List M :=
  b.filterMap fun m => match m with
    | .post id _ x => if id = i then some x else none
    | _ => none

/-- node `i` is not created -/
def Spares (i : Nat) (b : List (Msg P M)) : Prop :=
  ∀ id tag proc nin nout cfg, (.register id tag proc nin nout cfg : Msg P M) ∈ b → id ≠ i

/-- `Q` holds at the start of every quantum -/
def Throughout (t : Timed P S M) (f : Nat) (g : RGraph P S) (bs : List (List (Msg P M))) (Q : RGraph P S → Prop) : Prop :=
  ∀ bs' g', bs' <+: bs → stage t f g bs' = some g' → Q g'

/-- nothing waits at the inputs -/
def Quiet (t : Timed P S M) (g : RGraph P S) : Prop :=
  ∀ i n, g.slot i = some n → ∀ s ∈ n.inputs, s = t.base.silence

theorem Throughout.head {t : Timed P S M} {f : Nat} {g : RGraph P S} {bs : List (List (Msg P M))} {Q : RGraph P S → Prop}
    (h : Throughout t f g bs Q) : Q g := h [] g (List.nil_prefix) rfl

theorem Throughout.tail {t : Timed P S M} {f : Nat} {g g1 g2 : RGraph P S} {o : S} {b : List (Msg P M)}
    {bs : List (List (Msg P M))} {Q : RGraph P S → Prop} (h : Throughout t f g (b :: bs) Q)
    (h1 : g.render (t.at f) = some (g1, o)) (h2 : RGraph.foldOpt (RGraph.handle t.base) b g1 = some g2) :
    Throughout t (f + 128) g2 bs Q := by
  intro bs' g' hp hs
  refine h (b :: bs') g' (List.cons_prefix_cons.2 ⟨rfl, hp⟩) ?_
  simp only [stage, h1, h2, Option.bind_some, hs]

/-- histories one after the other -/
theorem stage_append (t : Timed P S M) (bs bs' : List (List (Msg P M))) : ∀ (f : Nat) (g : RGraph P S),
    stage t f g (bs ++ bs') = (stage t f g bs).bind fun g' => stage t (f + 128 * bs.length) g' bs' := by
  induction bs with
  | nil => intro f g; simp [stage]
  | cons b bs ih =>
    intro f g
    simp only [List.cons_append, stage]
    cases g.render (t.at f) with
    | none => rfl
    | some r =>
      simp only [Option.bind_some]
      cases RGraph.foldOpt (RGraph.handle t.base) b r.1 with
      | none => rfl
      | some g' =>
        simp only [Option.bind_some, ih]
        have : f + 128 + 128 * bs.length = f + 128 * (b :: bs).length := by simp; omega
        rw [this]

/-! ## Messages -/

theorem get_some {g : RGraph P S} {i : Nat} {n : Node P S} (h : g.get i = some n) : g.slot i = some n := by
  unfold RGraph.get at h
  split at h
  · exact h
  · cases h

/-- a message changes a node only as far as it is addressed to it -/
theorem handle_own {sem : Sem P S M} {m : Msg P M} {g g' : RGraph P S} (h : g.handle sem m = some g') {i : Nat}
    (hs : Spares i [m]) {n : Node P S} (hn : g.slot i = some n) :
    ∃ n', g'.slot i = some n' ∧ n'.inputs = n.inputs ∧ n'.outputs = n.outputs ∧
      RGraph.foldOpt sem.onmessage (mail i [m]) n.proc = some n'.proc := by
  have keep : ∀ {j : Nat} {k k' : Node P S}, g.slot j = some k → k'.inputs = k.inputs → k'.outputs = k.outputs →
      k'.proc = k.proc → ∃ n', (g.put j (some k')).slot i = some n' ∧ n'.inputs = n.inputs ∧ n'.outputs = n.outputs ∧
        n'.proc = n.proc := by
    intro j k k' hk h1 h2 h3
    by_cases hj : i = j
    · subst hj
      rw [hn] at hk; cases hk
      exact ⟨k', by simp [RGraph.put], h1, h2, h3⟩
    · exact ⟨n, by simp [RGraph.put, hj, hn], rfl, rfl, rfl⟩
  have done : ∀ {g1 : RGraph P S}, mail i [m] = [] → (∃ n', g1.slot i = some n' ∧ n'.inputs = n.inputs ∧ n'.outputs = n.outputs ∧
      n'.proc = n.proc) → ∃ n', g1.slot i = some n' ∧ n'.inputs = n.inputs ∧ n'.outputs = n.outputs ∧
      RGraph.foldOpt sem.onmessage (mail i [m]) n.proc = some n'.proc := by
    rintro g1 he ⟨n', a, b, c, d⟩
    exact ⟨n', a, b, c, by rw [he, d]; rfl⟩
  cases m with
  | register id tag proc nin nout cfg =>
    have hne : i ≠ id := fun hc => hs id tag proc nin nout cfg (by simp) hc.symm
    simp only [RGraph.handle, Option.some.injEq] at h
    subst h
    exact done rfl ⟨n, by simp [RGraph.addNode, hne, hn], rfl, rfl, rfl⟩
  | connect src stag e dtag =>
    simp only [RGraph.handle, RGraph.addEdge] at h
    cases hk : g.get src with
    | none => rw [hk] at h; cases h
    | some k =>
      rw [hk] at h
      simp only [Option.some.injEq] at h
      subst h
      exact done rfl (keep (get_some hk) rfl rfl rfl)
  | disconnect src stag e =>
    simp only [RGraph.handle, RGraph.removeEdge] at h
    cases hk : g.get src with
    | none => rw [hk] at h; cases h
    | some k =>
      rw [hk] at h
      simp only [Option.some.injEq] at h
      subst h
      exact done rfl (keep (get_some hk) rfl rfl rfl)
  | dropped id tag =>
    simp only [RGraph.handle, RGraph.markDropped] at h
    split at h
    · cases hk : g.slot id with
      | none =>
        rw [hk] at h
        simp only [Option.some.injEq] at h
        subst h
        exact done rfl ⟨n, hn, rfl, rfl, rfl⟩
      | some k =>
        rw [hk] at h
        simp only [Option.some.injEq] at h
        subst h
        exact done rfl (keep hk rfl rfl rfl)
    · cases h
  | breaker id tag =>
    simp only [RGraph.handle, RGraph.markBreaker, Option.map_eq_some_iff] at h
    obtain ⟨k, hk, rfl⟩ := h
    exact done rfl (keep (get_some hk) rfl rfl rfl)
  | post id tag x =>
    simp only [RGraph.handle, RGraph.routeMessage, Option.bind_eq_some_iff, Option.map_eq_some_iff] at h
    obtain ⟨k, hk, p, hp, rfl⟩ := h
    by_cases hi : id = i
    · subst hi
      have hk' := get_some hk
      rw [hn] at hk'; cases hk'
      exact ⟨{ n with proc := p }, by simp [RGraph.put], rfl, rfl, by simp [mail, RGraph.foldOpt, hp]⟩
    · exact done (by simp [mail, hi]) ⟨n, by simp [RGraph.put, Ne.symm hi, hn], rfl, rfl, rfl⟩
  | setCfg id tag c =>
    simp only [RGraph.handle, RGraph.setCfg, Option.map_eq_some_iff] at h
    obtain ⟨k, hk, rfl⟩ := h
    exact done rfl (keep (get_some hk) rfl rfl rfl)

theorem mail_cons (i : Nat) (m : Msg P M) (b : List (Msg P M)) : mail i (m :: b) = mail i [m] ++ mail i b := by
  have : m :: b = [m] ++ b := rfl
  rw [this]
  unfold mail
  rw [List.filterMap_append]

/-- a batch of messages changes the processor of a node only by the messages that are addressed to it -/
theorem batch_own {sem : Sem P S M} {i : Nat} : ∀ (b : List (Msg P M)) {g g' : RGraph P S},
    RGraph.foldOpt (RGraph.handle sem) b g = some g' → Spares i b → ∀ {n : Node P S}, g.slot i = some n →
    ∃ n', g'.slot i = some n' ∧ n'.inputs = n.inputs ∧ n'.outputs = n.outputs ∧
      RGraph.foldOpt sem.onmessage (mail i b) n.proc = some n'.proc := by
  intro b
  induction b with
  | nil =>
    intro g g' h _ n hn
    simp only [RGraph.foldOpt, Option.some.injEq] at h
    subst h
    exact ⟨n, hn, rfl, rfl, rfl⟩
  | cons m b ih =>
    intro g g' h hs n hn
    simp only [RGraph.foldOpt] at h
    cases hm : g.handle sem m with
    | none => rw [hm] at h; cases h
    | some g1 =>
      rw [hm] at h
      obtain ⟨n1, h1, h2, h3, h4⟩ := handle_own hm (i := i) (fun id tag proc nin nout cfg hc =>
        hs id tag proc nin nout cfg (by simp only [List.mem_singleton] at hc; simp [hc])) hn
      obtain ⟨n2, k1, k2, k3, k4⟩ := ih h (fun id tag proc nin nout cfg hc => hs id tag proc nin nout cfg (by simp [hc])) h1
      refine ⟨n2, k1, k2.trans h2, k3.trans h3, ?_⟩
      rw [mail_cons, RGraph.foldOpt_append, h4]
      exact k4

/-- messages do not put anything on inputs -/
theorem handle_quiet {t : Timed P S M} {m : Msg P M} {g g' : RGraph P S} (hq : Quiet t g) (h : g.handle t.base m = some g') :
    Quiet t g' := by
  have keep : ∀ {j : Nat} {k k' : Node P S}, g.slot j = some k → k'.inputs = k.inputs → ∀ i n,
      (g.put j (some k')).slot i = some n → ∀ s ∈ n.inputs, s = t.base.silence := by
    intro j k k' hk h1 i n hn s hs
    by_cases hj : i = j
    · subst hj
      simp only [RGraph.put, if_true, Option.some.injEq] at hn
      subst hn
      exact hq i k hk s (h1 ▸ hs)
    · simp only [RGraph.put, hj, if_false] at hn
      exact hq i n hn s hs
  cases m with
  | register id tag proc nin nout cfg =>
    simp only [RGraph.handle, Option.some.injEq] at h
    subst h
    intro i n hn s hs
    by_cases hj : i = id
    · subst hj
      simp only [RGraph.addNode, if_true, Option.some.injEq] at hn
      subst hn
      exact List.eq_of_mem_replicate hs
    · simp only [RGraph.addNode, hj, if_false] at hn
      exact hq i n hn s hs
  | connect src stag e dtag =>
    simp only [RGraph.handle, RGraph.addEdge] at h
    cases hk : g.get src with
    | none => rw [hk] at h; cases h
    | some k =>
      rw [hk] at h
      simp only [Option.some.injEq] at h
      subst h
      exact keep (get_some hk) rfl
  | disconnect src stag e =>
    simp only [RGraph.handle, RGraph.removeEdge] at h
    cases hk : g.get src with
    | none => rw [hk] at h; cases h
    | some k =>
      rw [hk] at h
      simp only [Option.some.injEq] at h
      subst h
      exact keep (get_some hk) rfl
  | dropped id tag =>
    simp only [RGraph.handle, RGraph.markDropped] at h
    split at h
    · cases hk : g.slot id with
      | none =>
        rw [hk] at h
        simp only [Option.some.injEq] at h
        subst h
        exact hq
      | some k =>
        rw [hk] at h
        simp only [Option.some.injEq] at h
        subst h
        exact keep hk rfl
    · cases h
  | breaker id tag =>
    simp only [RGraph.handle, RGraph.markBreaker, Option.map_eq_some_iff] at h
    obtain ⟨k, hk, rfl⟩ := h
    exact keep (get_some hk) rfl
  | post id tag x =>
    simp only [RGraph.handle, RGraph.routeMessage, Option.bind_eq_some_iff, Option.map_eq_some_iff] at h
    obtain ⟨k, hk, p, hp, rfl⟩ := h
    exact keep (get_some hk) rfl
  | setCfg id tag c =>
    simp only [RGraph.handle, RGraph.setCfg, Option.map_eq_some_iff] at h
    obtain ⟨k, hk, rfl⟩ := h
    exact keep (get_some hk) rfl

theorem batch_quiet {t : Timed P S M} : ∀ (b : List (Msg P M)) {g g' : RGraph P S}, Quiet t g →
    RGraph.foldOpt (RGraph.handle t.base) b g = some g' → Quiet t g' := by
  intro b
  induction b with
  | nil => intro g g' hq h; simp only [RGraph.foldOpt, Option.some.injEq] at h; exact h ▸ hq
  | cons m b ih =>
    intro g g' hq h
    simp only [RGraph.foldOpt] at h
    cases hm : g.handle t.base m with
    | none => rw [hm] at h; cases h
    | some g1 => rw [hm] at h; exact ih (handle_quiet hq hm) h

/-- a node that is not there does not appear without a message -/
theorem handle_absent {sem : Sem P S M} {m : Msg P M} {g g' : RGraph P S} (h : g.handle sem m = some g') {i : Nat}
    (hs : Spares i [m]) (hn : g.slot i = none) : g'.slot i = none := by
  have keep : ∀ {j : Nat} {k k' : Node P S}, g.slot j = some k → (g.put j (some k')).slot i = none := by
    intro j k k' hk
    have hj : i ≠ j := by rintro rfl; rw [hn] at hk; cases hk
    simp [RGraph.put, hj, hn]
  cases m with
  | register id tag proc nin nout cfg =>
    have hne : i ≠ id := fun hc => hs id tag proc nin nout cfg (by simp) hc.symm
    simp only [RGraph.handle, Option.some.injEq] at h
    subst h
    simp [RGraph.addNode, hne, hn]
  | connect src stag e dtag =>
    simp only [RGraph.handle, RGraph.addEdge] at h
    cases hk : g.get src with
    | none => rw [hk] at h; cases h
    | some k =>
      rw [hk] at h
      simp only [Option.some.injEq] at h
      subst h
      exact keep (get_some hk)
  | disconnect src stag e =>
    simp only [RGraph.handle, RGraph.removeEdge] at h
    cases hk : g.get src with
    | none => rw [hk] at h; cases h
    | some k =>
      rw [hk] at h
      simp only [Option.some.injEq] at h
      subst h
      exact keep (get_some hk)
  | dropped id tag =>
    simp only [RGraph.handle, RGraph.markDropped] at h
    split at h
    · cases hk : g.slot id with
      | none =>
        rw [hk] at h
        simp only [Option.some.injEq] at h
        subst h
        exact hn
      | some k =>
        rw [hk] at h
        simp only [Option.some.injEq] at h
        subst h
        exact keep hk
    · cases h
  | breaker id tag =>
    simp only [RGraph.handle, RGraph.markBreaker, Option.map_eq_some_iff] at h
    obtain ⟨k, hk, rfl⟩ := h
    exact keep (get_some hk)
  | post id tag x =>
    simp only [RGraph.handle, RGraph.routeMessage, Option.bind_eq_some_iff, Option.map_eq_some_iff] at h
    obtain ⟨k, hk, p, hp, rfl⟩ := h
    exact keep (get_some hk)
  | setCfg id tag c =>
    simp only [RGraph.handle, RGraph.setCfg, Option.map_eq_some_iff] at h
    obtain ⟨k, hk, rfl⟩ := h
    exact keep (get_some hk)

theorem batch_absent {sem : Sem P S M} {i : Nat} : ∀ (b : List (Msg P M)) {g g' : RGraph P S},
    RGraph.foldOpt (RGraph.handle sem) b g = some g' → Spares i b → g.slot i = none → g'.slot i = none := by
  intro b
  induction b with
  | nil => intro g g' h _ hn; simp only [RGraph.foldOpt, Option.some.injEq] at h; exact h ▸ hn
  | cons m b ih =>
    intro g g' h hs hn
    simp only [RGraph.foldOpt] at h
    cases hm : g.handle sem m with
    | none => rw [hm] at h; cases h
    | some g1 =>
      rw [hm] at h
      exact ih h (fun id tag proc nin nout cfg hc => hs id tag proc nin nout cfg (by simp [hc]))
        (handle_absent hm (fun id tag proc nin nout cfg hc =>
          hs id tag proc nin nout cfg (by simp only [List.mem_singleton] at hc; simp [hc])) hn)

/-! ## A quantum -/

/-- One quantum and the messages after it, seen from the nodes: every node has solved its equation, and a node that does not
leave goes on with its new state and the messages that are addressed to it. -/
theorem stage_cons {t : Timed P S M} {reads : P → Nat → Prop} (hreads : ∀ f, Reads (t.at f) reads) {f : Nat}
    {g gk : RGraph P S} {b : List (Msg P M)} {bs : List (List (Msg P M))} (fg : Fit reads g)
    (h : stage t f g (b :: bs) = some gk) :
    ∃ ks r g1 g2 o, Lists g ks ∧ Solves (t.at f) g ks r ∧ g.render (t.at f) = some (g1, o) ∧
      RGraph.foldOpt (RGraph.handle t.base) b g1 = some g2 ∧ stage t (f + 128) g2 bs = some gk ∧ Quiet t g2 ∧
      (∀ i, r i = none → Spares i b → g2.slot i = none) ∧
      ∀ i n x, g.slot i = some n → r i = some x → leaves (t.at f) g ks r i = false → Spares i b →
        ∃ n', g2.slot i = some n' ∧ n'.outputs = x.2.1 ∧
          RGraph.foldOpt t.base.onmessage (mail i b) x.1 = some n'.proc := by
  obtain ⟨ks, r, hl, hs, _, o, rec, he⟩ := C111_equations (hreads f) fg
  simp only [stage, Option.bind_eq_some_iff] at h
  obtain ⟨⟨g1, y⟩, h1, g2, h2, h3⟩ := h
  have hg1 := h1
  rw [he] at h1
  simp only [Option.map_eq_some_iff, Prod.mk.injEq] at h1
  obtain ⟨y', _, h1, rfl⟩ := h1
  have hslot : g1.slot = afterwards (t.at f) g ks r := by rw [← h1]
  have hq : Quiet t g1 := by
    intro i n hn s hs
    rw [hslot] at hn
    unfold afterwards at hn
    split at hn
    · split at hn
      · cases hn
      · simp only [Option.some.injEq] at hn
        subst hn
        simp only [List.mem_map] at hs
        obtain ⟨_, _, rfl⟩ := hs
        rfl
    · cases hn
  refine ⟨ks, r, g1, g2, y', hl, hs, hg1, h2, h3, batch_quiet b hq h2, fun i hi hsp => batch_absent b h2 hsp ?_, ?_⟩
  · rw [hslot]
    unfold afterwards
    rw [hi]
    cases g.slot i <;> rfl
  intro i n x hn hx hlv hsp
  have hi : g1.slot i = some { n with proc := x.1, outputs := x.2.1, inputs := n.inputs.map fun _ => (t.at f).silence, hasInputs := false, edges := n.edges.filter fun e => !leaves (t.at f) g ks r e.dst } := by
    rw [hslot]
    unfold afterwards
    rw [hn, hx, hlv]
    rfl
  obtain ⟨n', a1, _, a3, a4⟩ := batch_own b h2 hsp hi
  exact ⟨n', a1, a3, a4⟩

end Verif.Whole
