import Verif.Whole.Ensemble

/-!
# C114: the graph of a program of notes

The contents of every slot after the messages for all notes, and what follows for the order of processing.
-/

namespace Verif.Whole

open Verif Verif.Render Verif.Engine

section
variable {K : Type} [Field K] [LinearOrder K] [IsStrictOrderedRing K] [FloorRing K]

/-! ## Places -/

/-- the notes with their first ids and serial numbers -/
def places (lo hi sr : K) : Nat → Nat → List (Part K) → List (Nat × Nat × Part K)
  | _, _, [] => []
  | n, τ, p :: ps => (n, τ, p) :: places lo hi sr (n + p.size lo hi sr) (τ + p.size lo hi sr) ps

/-- the number of nodes of all notes -/
def total (lo hi sr : K) (ps : List (Part K)) : Nat := (ps.map (Part.size lo hi sr)).sum

theorem places_append {lo hi sr : K} (p : Part K) : ∀ (ps : List (Part K)) (n τ : Nat),
    places lo hi sr n τ (ps ++ [p]) = places lo hi sr n τ ps ++ [(n + total lo hi sr ps, τ + total lo hi sr ps, p)] := by
  intro ps
  induction ps with
  | nil => intro n τ; rfl
  | cons a ps ih =>
    intro n τ
    simp only [List.cons_append, places, ih, total, List.map_cons, List.sum_cons, Nat.add_assoc]

theorem places_map {lo hi sr : K} {β : Type} (F : Part K → β) : ∀ (ps : List (Part K)) (n τ : Nat),
    (places lo hi sr n τ ps).map (fun x => F x.2.2) = ps.map F := by
  intro ps
  induction ps with
  | nil => intro n τ; rfl
  | cons a ps ih => intro n τ; simp only [places, List.map_cons, ih]

theorem places_mem {lo hi sr : K} : ∀ {ps : List (Part K)} {n τ : Nat} {x : Nat × Nat × Part K}, x ∈ places lo hi sr n τ ps →
    n ≤ x.1 ∧ x.1 + x.2.2.size lo hi sr ≤ n + total lo hi sr ps ∧ x.2.2 ∈ ps := by
  intro ps
  induction ps with
  | nil => intro n τ x h; cases h
  | cons p ps ih =>
    intro n τ x h
    rw [places, List.mem_cons] at h
    have htot : total lo hi sr (p :: ps) = p.size lo hi sr + total lo hi sr ps := by simp [total]
    rcases h with rfl | h
    · exact ⟨le_rfl, by dsimp only; omega, by simp⟩
    · obtain ⟨h1, h2, h3⟩ := ih h
      exact ⟨by omega, by omega, by simp [h3]⟩

theorem places_pairwise {lo hi sr : K} : ∀ (ps : List (Part K)) (n τ : Nat),
    (places lo hi sr n τ ps).Pairwise fun x y => x.1 + x.2.2.size lo hi sr ≤ y.1 := by
  intro ps
  induction ps with
  | nil => intro n τ; exact .nil
  | cons p ps ih => intro n τ; exact .cons (fun y hy => (places_mem hy).1) (ih _ _)

theorem places_disjoint {lo hi sr : K} {ps : List (Part K)} {n τ : Nat} {x y : Nat × Nat × Part K} (hx : x ∈ places lo hi sr n τ ps)
    (hy : y ∈ places lo hi sr n τ ps) {r s : Nat} (hr : r < x.2.2.size lo hi sr) (hs : s < y.2.2.size lo hi sr) (h : x.1 + r = y.1 + s) :
    x = y ∧ r = s := by
  have key : ∀ {l : List (Nat × Nat × Part K)}, (l.Pairwise fun x y => x.1 + x.2.2.size lo hi sr ≤ y.1) → x ∈ l → y ∈ l →
      x = y ∨ x.1 + x.2.2.size lo hi sr ≤ y.1 ∨ y.1 + y.2.2.size lo hi sr ≤ x.1 := by
    intro l hl
    induction hl with
    | nil => intro h; cases h
    | cons h _ ih =>
      intro h1 h2
      rcases List.mem_cons.1 h1 with h1 | h1 <;> rcases List.mem_cons.1 h2 with h2 | h2
      · exact .inl (h1.trans h2.symm)
      · exact .inr (.inl (h1 ▸ h _ h2))
      · exact .inr (.inr (h2 ▸ h _ h1))
      · exact ih h1 h2
  rcases key (places_pairwise ps n τ) hx hy with rfl | h1 | h1
  · exact ⟨rfl, by omega⟩
  · omega
  · omega

theorem places_nodup {lo hi sr : K} {ps : List (Part K)} {n τ : Nat} {F : Part K → Nat} (hF : ∀ p ∈ ps, F p < p.size lo hi sr) :
    ((places lo hi sr n τ ps).map fun x => x.1 + F x.2.2).Nodup := by
  rw [List.Nodup, List.pairwise_map]
  refine (places_pairwise ps n τ).imp_of_mem fun {x y} hx hy h => ?_
  have := hF _ (places_mem hx).2.2
  omega

/-! ## The contents of the slots -/

section
variable {S : Type} (sem : Sem (SProc K Empty) S (SMsg K Empty)) (lo hi sr : K) (n τ : Nat) (p : Part K)

theorem Part.nodes_length : (p.nodes sem lo hi sr n τ).length = p.size lo hi sr := by
  simp [Part.nodes, Part.size, eachOne_length]

theorem Part.nodes_src : (p.nodes sem lo hi sr n τ)[0]? = some (p.srcNode sem lo hi sr n τ) := rfl

theorem Part.nodes_knob {k : Nat} {s : Setting K} (h : (p.instrument.settings lo hi sr)[k]? = some s) :
    (p.nodes sem lo hi sr n τ)[k + 1]? = some (Setting.node sem n (n + 1 + k) (τ + k) s) := by
  have hk : k < (p.instrument.settings lo hi sr).length := (List.getElem?_eq_some_iff.1 h).1
  unfold Part.nodes
  rw [List.getElem?_append_left (by simp [eachOne_length]; omega), List.getElem?_append_right (by simp), List.length_singleton,
    show k + 1 - 1 = k by omega, eachOne_get, h]
  rfl

theorem Part.nodes_gain : (p.nodes sem lo hi sr n τ)[(p.instrument.settings lo hi sr).length + 1]? = some (p.gainNode sem lo hi sr n τ) := by
  unfold Part.nodes
  rw [List.getElem?_append_right (by simp [eachOne_length])]
  simp [eachOne_length]

theorem Part.nodes_lev : (p.nodes sem lo hi sr n τ)[(p.instrument.settings lo hi sr).length + 2]? = some (p.levNode sem lo hi sr n τ) := by
  unfold Part.nodes
  rw [List.getElem?_append_right (by simp [eachOne_length])]
  simp [eachOne_length, show ∀ m : Nat, m + 2 - (m + 1) = 1 by omega]

theorem Part.nodes_cases {r : Nat} {x : Render.Node (SProc K Empty) S} (h : (p.nodes sem lo hi sr n τ)[r]? = some x) :
    (r = 0 ∧ x = p.srcNode sem lo hi sr n τ) ∨
    (∃ k s, (p.instrument.settings lo hi sr)[k]? = some s ∧ r = k + 1 ∧ x = Setting.node sem n (n + 1 + k) (τ + k) s) ∨
    (r = (p.instrument.settings lo hi sr).length + 1 ∧ x = p.gainNode sem lo hi sr n τ) ∨
    (r = (p.instrument.settings lo hi sr).length + 2 ∧ x = p.levNode sem lo hi sr n τ) := by
  have hr : r < p.size lo hi sr := by rw [← p.nodes_length sem lo hi sr n τ]; exact (List.getElem?_eq_some_iff.1 h).1
  have hsz : p.size lo hi sr = (p.instrument.settings lo hi sr).length + 3 := rfl
  by_cases h0 : r = 0
  · subst h0
    rw [p.nodes_src] at h
    cases h
    exact .inl ⟨rfl, rfl⟩
  by_cases h1 : r = (p.instrument.settings lo hi sr).length + 1
  · subst h1
    rw [p.nodes_gain] at h
    cases h
    exact .inr (.inr (.inl ⟨rfl, rfl⟩))
  by_cases h2 : r = (p.instrument.settings lo hi sr).length + 2
  · subst h2
    rw [p.nodes_lev] at h
    cases h
    exact .inr (.inr (.inr ⟨rfl, rfl⟩))
  obtain ⟨k, rfl⟩ : ∃ k, r = k + 1 := ⟨r - 1, by omega⟩
  have hk : k < (p.instrument.settings lo hi sr).length := by omega
  rw [p.nodes_knob sem lo hi sr n τ (List.getElem?_eq_getElem hk)] at h
  cases h
  exact .inr (.inl ⟨k, _, List.getElem?_eq_getElem hk, rfl, rfl⟩)

end

/-- the graph after the messages for all notes -/
structure EScene (e : Studio K Empty Empty) (lo hi sr : K) (ps : List (Part K)) (g : RGraph (SProc K Empty) (MSig K e.c.N)) : Prop where
  dest : g.slot 0 = some (fresh e.timed.base 0 .destination 1 1 ⟨2, 2, 0⟩ [])
  node : ∀ x ∈ places lo hi sr 11 1 ps, ∀ r, r < x.2.2.size lo hi sr → g.slot (x.1 + r) = (x.2.2.nodes e.timed.base lo hi sr x.1 x.2.1)[r]?
  only : ∀ i, (g.slot i).isSome → i = 0 ∨ ∃ x ∈ places lo hi sr 11 1 ps, ∃ r, r < x.2.2.size lo hi sr ∧ i = x.1 + r
  cap : 11 + total lo hi sr ps ≤ g.cap
  ordered : g.ordered = [] ∨ g.ordered = [0] ∧ ps = []

theorem EScene.snoc {ex : K → K} {pw : K → K → K} {e : Studio K Empty Empty} {lo hi sr : K} {ps : List (Part K)}
    {g : RGraph (SProc K Empty) (MSig K e.c.N)} (hg : EScene e lo hi sr ps g) {p : Part K} (hp : p.Playable ex pw lo hi sr) :
    ∃ g', RGraph.foldOpt (RGraph.handle e.timed.base) (p.msgs lo hi sr (11 + total lo hi sr ps) (1 + total lo hi sr ps)) g = some g' ∧
      EScene e lo hi sr (ps ++ [p]) g' := by
  obtain ⟨g', h1, h2, h3⟩ := p.msgs_run e lo hi sr (11 + total lo hi sr ps) (1 + total lo hi sr ps) hp g fun j hj => by
    by_contra hc
    obtain rfl | ⟨x, hx, r, hr, rfl⟩ := hg.only j (Option.isSome_iff_ne_none.2 hc)
    · omega
    · have := (places_mem hx).2.1; omega
  have hlen : ((p.nodes e.timed.base lo hi sr (11 + total lo hi sr ps) (1 + total lo hi sr ps)).map some).length = p.size lo hi sr := by
    rw [List.length_map, p.nodes_length]
  have hslot := h2.slot
  rw [hlen] at hslot
  have hold : ∀ j, j < 11 + total lo hi sr ps → g'.slot j = g.slot j := fun j hj => by rw [hslot, if_neg (by omega)]
  have hnew : ∀ r, r < p.size lo hi sr → g'.slot (11 + total lo hi sr ps + r) =
      (p.nodes e.timed.base lo hi sr (11 + total lo hi sr ps) (1 + total lo hi sr ps))[r]? := by
    intro r hr
    rw [hslot, if_pos ⟨by omega, by omega⟩, show ∀ a : Nat, a + r - a = r by omega, List.getElem?_map]
    cases (p.nodes e.timed.base lo hi sr (11 + total lo hi sr ps) (1 + total lo hi sr ps))[r]? <;> rfl
  refine ⟨g', h1, ?_, fun x hx r hr => ?_, fun i hi' => ?_, ?_, .inl h3⟩
  · rw [hold 0 (by omega)]; exact hg.dest
  · rw [places_append, List.mem_append, List.mem_singleton] at hx
    rcases hx with hx | rfl
    · rw [hold _ (by have := (places_mem hx).2.1; omega)]
      exact hg.node x hx r hr
    · exact hnew r hr
  · by_cases hlt : i < 11 + total lo hi sr ps
    · rw [hold i hlt] at hi'
      obtain h | ⟨x, hx, h⟩ := hg.only i hi'
      · exact .inl h
      · exact .inr ⟨x, by rw [places_append]; simp [hx], h⟩
    · by_cases hlt' : i < 11 + total lo hi sr ps + p.size lo hi sr
      · exact .inr ⟨_, by rw [places_append]; exact List.mem_append_right _ (List.mem_singleton.2 rfl), i - (11 + total lo hi sr ps), by dsimp only; omega,
          by dsimp only; omega⟩
      · rw [hslot, if_neg (by omega)] at hi'
        obtain rfl | ⟨x, hx, r, hr, rfl⟩ := hg.only i hi'
        · omega
        · have := (places_mem hx).2.1; omega
  · have h4 := h2.caps ((p.instrument.settings lo hi sr).length + 2) (p.levNode e.timed.base lo hi sr (11 + total lo hi sr ps) (1 + total lo hi sr ps)) (by
      rw [List.getElem?_map, p.nodes_lev]; rfl)
    have : total lo hi sr (ps ++ [p]) = total lo hi sr ps + p.size lo hi sr := by simp [total]
    rw [this, Part.size]
    omega

theorem escene_fold {ex : K → K} {pw : K → K → K} {e : Studio K Empty Empty} {lo hi sr : K} (ps : List (Part K)) : ∀ {done : List (Part K)}
    {g : RGraph (SProc K Empty) (MSig K e.c.N)}, EScene e lo hi sr done g → (∀ p ∈ ps, p.Playable ex pw lo hi sr) →
    ∃ g', RGraph.foldOpt (RGraph.handle e.timed.base) (emsgs lo hi sr (11 + total lo hi sr done) (1 + total lo hi sr done) ps) g = some g' ∧
      EScene e lo hi sr (done ++ ps) g' := by
  induction ps with
  | nil => intro done g hg _; exact ⟨g, rfl, by simpa using hg⟩
  | cons p ps ih =>
    intro done g hg hv
    obtain ⟨g1, e1, s1⟩ := hg.snoc (hv p (by simp))
    obtain ⟨g2, e2, s2⟩ := ih s1 fun x hx => hv x (by simp [hx])
    refine ⟨g2, ?_, by simpa using s2⟩
    rw [emsgs, foldOpt_append, e1]
    have : ∀ c, c + total lo hi sr (done ++ [p]) = c + total lo hi sr done + p.size lo hi sr := by intro c; simp [total]; omega
    rw [this, this] at e2
    exact e2

theorem escene_init (e : Studio K Empty Empty) (lo hi sr : K) :
    EScene e lo hi sr [] (Sys.init e.timed.base .destination ⟨2, 2, 0⟩ : Sys (SProc K Empty) (MSig K e.c.N) (SMsg K Empty)).g := by
  refine ⟨rfl, (fun x hx => nomatch hx), fun i hi => ?_, by simp [Sys.init, RGraph.addNode, RGraph.new, total], .inr ⟨rfl, rfl⟩⟩
  by_contra hc
  push Not at hc
  simp only [Sys.init, RGraph.addNode, RGraph.new] at hi
  rw [if_neg hc.1] at hi
  cases hi

/-! ## The graph is in order -/

/-- every node is one of these -/
theorem EScene.cases {e : Studio K Empty Empty} {lo hi sr : K} {ps : List (Part K)} {g : RGraph (SProc K Empty) (MSig K e.c.N)}
    (hg : EScene e lo hi sr ps g) {i : Nat} {x : Render.Node (SProc K Empty) (MSig K e.c.N)} (h : g.slot i = some x) :
    (i = 0 ∧ x = fresh e.timed.base 0 .destination 1 1 ⟨2, 2, 0⟩ []) ∨
    ∃ n τ p, (n, τ, p) ∈ places lo hi sr 11 1 ps ∧
      ((i = n ∧ x = p.srcNode e.timed.base lo hi sr n τ) ∨
       (∃ k s, (p.instrument.settings lo hi sr)[k]? = some s ∧ i = n + 1 + k ∧ x = Setting.node e.timed.base n (n + 1 + k) (τ + k) s) ∨
       (i = n + (p.instrument.settings lo hi sr).length + 1 ∧ x = p.gainNode e.timed.base lo hi sr n τ) ∨
       (i = n + (p.instrument.settings lo hi sr).length + 2 ∧ x = p.levNode e.timed.base lo hi sr n τ)) := by
  obtain rfl | ⟨⟨n, τ, p⟩, hx, r, hr, rfl⟩ := hg.only i (by rw [h]; rfl)
  · rw [hg.dest] at h
    cases h
    exact .inl ⟨rfl, rfl⟩
  · rw [hg.node _ hx r hr] at h
    refine .inr ⟨n, τ, p, hx, ?_⟩
    rcases p.nodes_cases _ _ _ _ _ _ h with ⟨rfl, h'⟩ | ⟨k, s, h1, rfl, h'⟩ | ⟨rfl, h'⟩ | ⟨rfl, h'⟩
    · exact .inl ⟨rfl, h'⟩
    · exact .inr (.inl ⟨k, s, h1, by dsimp only; omega, h'⟩)
    · exact .inr (.inr (.inl ⟨by dsimp only; omega, h'⟩))
    · exact .inr (.inr (.inr ⟨by dsimp only; omega, h'⟩))

section
variable {e : Studio K Empty Empty} {lo hi sr : K} {ps : List (Part K)} {g : RGraph (SProc K Empty) (MSig K e.c.N)}
  {n τ : Nat} {p : Part K}

theorem EScene.src (hg : EScene e lo hi sr ps g) (hp : (n, τ, p) ∈ places lo hi sr 11 1 ps) :
    g.slot n = some (p.srcNode e.timed.base lo hi sr n τ) :=
  hg.node _ hp 0 (by dsimp only [Part.size]; omega)

theorem EScene.knob (hg : EScene e lo hi sr ps g) (hp : (n, τ, p) ∈ places lo hi sr 11 1 ps) {k : Nat} {s : Setting K}
    (hs : (p.instrument.settings lo hi sr)[k]? = some s) : g.slot (n + 1 + k) = some (Setting.node e.timed.base n (n + 1 + k) (τ + k) s) := by
  have hk : k < (p.instrument.settings lo hi sr).length := (List.getElem?_eq_some_iff.1 hs).1
  have := hg.node _ hp (k + 1) (by dsimp only [Part.size]; omega)
  rw [p.nodes_knob _ _ _ _ _ _ hs] at this
  rw [← this]
  congr 1
  dsimp only
  omega

theorem EScene.gain (hg : EScene e lo hi sr ps g) (hp : (n, τ, p) ∈ places lo hi sr 11 1 ps) :
    g.slot (n + (p.instrument.settings lo hi sr).length + 1) = some (p.gainNode e.timed.base lo hi sr n τ) :=
  (hg.node _ hp _ (by dsimp only [Part.size]; omega)).trans (p.nodes_gain _ _ _ _ _ _)

theorem EScene.lev (hg : EScene e lo hi sr ps g) (hp : (n, τ, p) ∈ places lo hi sr 11 1 ps) :
    g.slot (n + (p.instrument.settings lo hi sr).length + 2) = some (p.levNode e.timed.base lo hi sr n τ) :=
  (hg.node _ hp _ (by dsimp only [Part.size]; omega)).trans (p.nodes_lev _ _ _ _ _ _)

theorem EScene.quiet (hg : EScene e lo hi sr ps g) : Quiet e.timed g := by
  intro i x hx s hs
  rcases hg.cases hx with ⟨_, rfl⟩ | ⟨n, τ, p, _, ⟨_, rfl⟩ | ⟨_, _, _, _, rfl⟩ | ⟨_, rfl⟩ | ⟨_, rfl⟩⟩ <;>
    exact List.eq_of_mem_replicate hs

/-- the position of a kind of processor in the chain to the destination -/
def SProc.rank : SProc K Empty → Nat
  | .destination => 0
  | .gain _ => 1
  | .param _ _ _ _ => 3
  | _ => 2

theorem Part.source_rank (i : Nat) : (p.source i).rank = 2 := by
  unfold Part.source
  cases p.instrument <;> rfl

/-- the parameters that the source reads -/
theorem Part.source_reads {i j : Nat} (h : sreads (fun _ _ => False) (p.source i) j) :
    ∃ k s, (p.instrument.settings lo hi sr)[k]? = some s ∧ j = i + k := by
  unfold Part.source at h
  cases hins : p.instrument with
  | const o =>
    rw [hins] at h
    exact ⟨0, _, rfl, h⟩
  | osc ty w f d =>
    rw [hins] at h
    rcases h with h | h
    · exact ⟨0, _, rfl, h⟩
    · exact ⟨1, _, rfl, h⟩
  | clip c =>
    rw [hins] at h
    rcases h with h | h
    · exact ⟨1, _, rfl, h⟩
    · exact ⟨0, _, rfl, h⟩

theorem EScene.fit (hg : EScene e lo hi sr ps g) : Fit (sreads fun _ _ => False) g := by
  have hcap := hg.cap
  have hin : ∀ {n τ : Nat} {p : Part K}, (n, τ, p) ∈ places lo hi sr 11 1 ps → n + (p.instrument.settings lo hi sr).length + 3 ≤ g.cap := by
    intro n τ p h
    have := (places_mem h).2.1
    dsimp only [Part.size] at this
    omega
  refine ⟨⟨⟨fun i x hx => ?_, fun i x hx ed he => ?_⟩, ?_, ?_, ?_⟩, ?_, fun i hc => ?_, fun i x hx j hj _ => ?_⟩
  · rcases hg.cases hx with ⟨rfl, _⟩ | ⟨n, τ, p, hp, ⟨rfl, _⟩ | ⟨k, s, hs, rfl, _⟩ | ⟨rfl, _⟩ | ⟨rfl, _⟩⟩
    · omega
    · have := hin hp; omega
    · have := hin hp
      have := (List.getElem?_eq_some_iff.1 hs).1
      omega
    · have := hin hp; omega
    · have := hin hp; omega
  · rcases hg.cases hx with ⟨rfl, rfl⟩ | ⟨n, τ, p, hp, ⟨rfl, rfl⟩ | ⟨k, s, hs, rfl, rfl⟩ | ⟨rfl, rfl⟩ | ⟨rfl, rfl⟩⟩
    · cases he
    · rw [List.mem_singleton.1 he]
      exact ⟨by simp [Part.srcNode, fresh], _, hg.gain hp, fun q hq => by cases hq; simp [Part.gainNode, fresh]⟩
    · rw [List.mem_singleton.1 he]
      exact ⟨by simp [Setting.node, fresh], _, hg.src hp, fun q hq => by cases hq⟩
    · rw [List.mem_singleton.1 he]
      exact ⟨by simp [Part.gainNode, fresh], _, hg.dest, fun q hq => by cases hq; simp [fresh]⟩
    · rw [List.mem_singleton.1 he]
      exact ⟨by simp [Part.levNode, fresh], _, hg.gain hp, fun q hq => by cases hq⟩
  · rcases hg.ordered with h | ⟨h, _⟩ <;> rw [h] <;> simp
  · rcases hg.ordered with h | ⟨h, _⟩ <;> rw [h]
    · simp
    · intro i hi
      rw [List.mem_singleton.1 hi]
      exact ⟨_, hg.dest⟩
  · rcases hg.ordered with h | ⟨h, _⟩ <;> rw [h]
    · simp
    · intro u hu w hw x hx he
      rw [List.mem_singleton.1 hu, hg.dest] at hx
      cases hx
      obtain ⟨_, he, _⟩ := he
      cases he
  · rcases hg.ordered with h | ⟨h, rfl⟩
    · exact .inl h
    · refine .inr fun i hi => ?_
      rw [h]
      rcases hg.only i hi with rfl | ⟨x, hx, _⟩
      · simp
      · cases hx
  · -- the rank of a node decreases along connections
    let rank : Nat → Nat := fun i => match g.slot i with | some x => x.proc.rank | none => 0
    have hrank : ∀ {i x}, g.slot i = some x → rank i = x.proc.rank := fun h => by simp only [rank, h]
    have step : ∀ u w, (∃ x, g.slot u = some x ∧ ∃ ed ∈ x.edges, ed.dst = w) → rank w < rank u := by
      rintro u w ⟨x, hx, ed, he, rfl⟩
      rw [hrank hx]
      rcases hg.cases hx with ⟨rfl, rfl⟩ | ⟨n, τ, p, hp, ⟨rfl, rfl⟩ | ⟨k, s, hs, rfl, rfl⟩ | ⟨rfl, rfl⟩ | ⟨rfl, rfl⟩⟩
      · cases he
      · rw [List.mem_singleton.1 he, hrank (hg.gain hp)]
        show 1 < (p.source (u + 1)).rank
        rw [Part.source_rank]; decide
      · rw [List.mem_singleton.1 he, hrank (hg.src hp)]
        show (p.source (n + 1)).rank < 3
        rw [Part.source_rank]; decide
      · rw [List.mem_singleton.1 he, hrank hg.dest]
        show 0 < 1
        decide
      · rw [List.mem_singleton.1 he, hrank (hg.gain hp)]
        show 1 < 3
        decide
    have hdec : ∀ u w, Relation.TransGen (fun u w => ∃ x, g.slot u = some x ∧ ∃ ed ∈ x.edges, ed.dst = w) u w → rank w < rank u := by
      intro u w h
      induction h with
      | single h => exact step _ _ h
      | tail _ h ih => exact (step _ _ h).trans ih
    exact Nat.lt_irrefl _ (hdec i i hc)
  · rcases hg.cases hx with ⟨rfl, rfl⟩ | ⟨n, τ, p, hp, ⟨rfl, rfl⟩ | ⟨k, s, hs, rfl, rfl⟩ | ⟨rfl, rfl⟩ | ⟨rfl, rfl⟩⟩
    · cases hj
    · obtain ⟨k, s, hs, rfl⟩ := Part.source_reads (lo := lo) (hi := hi) (sr := sr) hj
      exact .inr ⟨_, hg.knob hp hs, _, List.mem_singleton.2 rfl, rfl⟩
    · cases hj
    · exact .inr ⟨_, by rw [show j = n + (p.instrument.settings lo hi sr).length + 2 from hj]; exact hg.lev hp, _, List.mem_singleton.2 rfl, rfl⟩
    · cases hj

/-! ## The notes in the graph -/

/-- the note in the graph, from id `n` on -/
def Part.note (lo hi sr : K) (n : Nat) (p : Part K) : Note K Empty where
  src := n
  proc := p.source (n + 1)
  gain := n + (p.instrument.settings lo hi sr).length + 1
  env := ⟨n + (p.instrument.settings lo hi sr).length + 2, 1, lo, hi, (p.gainSetting lo hi).plan⟩
  params := eachOne (fun i _ s => ⟨i, s.dflt, s.mn, s.mx, s.plan⟩) (n + 1) 0 (p.instrument.settings lo hi sr)

theorem Part.note_params {a : Par K} : a ∈ (p.note lo hi sr n).params ↔ ∃ k s, (p.instrument.settings lo hi sr)[k]? = some s ∧
    a = ⟨n + 1 + k, s.dflt, s.mn, s.mx, s.plan⟩ := by
  show a ∈ eachOne _ _ _ _ ↔ _
  rw [List.mem_iff_getElem?]
  constructor
  · rintro ⟨k, hk⟩
    rw [eachOne_get] at hk
    obtain ⟨s, h1, rfl⟩ := Option.map_eq_some_iff.1 hk
    exact ⟨k, s, h1, rfl⟩
  · rintro ⟨k, s, h1, rfl⟩
    exact ⟨k, by rw [eachOne_get, h1]; rfl⟩

theorem EScene.sits (hg : EScene e lo hi sr ps g) (hp : (n, τ, p) ∈ places lo hi sr 11 1 ps) : (p.note lo hi sr n).Sits g := by
  have hn : 11 ≤ n := (places_mem hp).1
  -- nothing arrives but at the sources, the gain nodes and the destination
  have hsame : ∀ {n' τ' : Nat} {p' : Part K} {r r' : Nat}, (n', τ', p') ∈ places lo hi sr 11 1 ps → r < p.size lo hi sr → r' < p'.size lo hi sr →
      n + r = n' + r' → n = n' ∧ τ = τ' ∧ p = p' ∧ r = r' := by
    intro n' τ' p' r r' h' hr hr' h
    obtain ⟨h1, h2⟩ := places_disjoint hp h' (r := r) (s := r') hr hr' h
    simp only [Prod.mk.injEq] at h1
    exact ⟨h1.1, h1.2.1, h1.2.2, h2⟩
  have hsz : ∀ q : Part K, q.size lo hi sr = (q.instrument.settings lo hi sr).length + 3 := fun _ => rfl
  have hpar : ∀ r, r < p.size lo hi sr → r ≠ (p.instrument.settings lo hi sr).length + 1 → ∀ u, into g u (n + r) = [] := by
    intro r hr hne u
    unfold into
    cases hx : g.slot u with
    | none => rfl
    | some x =>
      rcases hg.cases hx with ⟨rfl, rfl⟩ | ⟨n', τ', p', hp', ⟨rfl, rfl⟩ | ⟨k, s, hs, rfl, rfl⟩ | ⟨rfl, rfl⟩ | ⟨rfl, rfl⟩⟩
      · rfl
      · simp only [Part.srcNode, fresh, filter_one]
        refine if_neg ?_
        simp only [ne_eq, reduceCtorEq, not_false_eq_true, and_true, decide_eq_true_eq]
        intro h
        obtain ⟨_, _, rfl, h4⟩ := hsame hp' hr (r' := (p'.instrument.settings lo hi sr).length + 1) (by rw [hsz]; omega) (by omega)
        exact hne h4
      · simp only [Setting.node, fresh, filter_one]
        exact if_neg (by simp)
      · simp only [Part.gainNode, fresh, filter_one]
        exact if_neg (by simp; omega)
      · simp only [Part.levNode, fresh, filter_one]
        exact if_neg (by simp)
  refine ⟨⟨_, hg.src hp, rfl, rfl⟩, ⟨_, hg.gain hp, rfl, rfl, rfl, rfl, fun u => ?_⟩, fun a ha => ?_⟩
  · show into g u (n + (p.instrument.settings lo hi sr).length + 1) = if u = n then [⟨0, n + (p.instrument.settings lo hi sr).length + 1, some 0⟩] else []
    unfold into
    cases hx : g.slot u with
    | none =>
      rw [if_neg]
      rintro rfl
      rw [hg.src hp] at hx
      cases hx
    | some x =>
      rcases hg.cases hx with ⟨rfl, rfl⟩ | ⟨n', τ', p', hp', ⟨rfl, rfl⟩ | ⟨k, s, hs, rfl, rfl⟩ | ⟨rfl, rfl⟩ | ⟨rfl, rfl⟩⟩
      · rw [if_neg (by omega)]; rfl
      · simp only [Part.srcNode, fresh, filter_one]
        by_cases hk : u = n
        · obtain ⟨_, _, rfl, _⟩ := hsame hp' (r := 0) (r' := 0) (by rw [hsz]; omega) (by rw [hsz]; omega) (by omega)
          subst hk; simp
        · rw [if_neg, if_neg hk]
          simp only [ne_eq, reduceCtorEq, not_false_eq_true, and_true, decide_eq_true_eq]
          intro h
          exact hk (hsame hp' (r := (p.instrument.settings lo hi sr).length + 1) (r' := (p'.instrument.settings lo hi sr).length + 1)
            (by rw [hsz]; omega) (by rw [hsz]; omega) (by omega)).1.symm
      · simp only [Setting.node, fresh, filter_one]
        rw [if_neg (by simp), if_neg]
        intro h
        have hk : k < (p'.instrument.settings lo hi sr).length := (List.getElem?_eq_some_iff.1 hs).1
        have := (hsame hp' (r := 0) (r' := k + 1) (by rw [hsz]; omega) (by rw [hsz]; omega) (by omega)).2.2.2
        omega
      · simp only [Part.gainNode, fresh, filter_one]
        rw [if_neg (by simp), if_neg]
        intro h
        have := (hsame hp' (r := 0) (r' := (p'.instrument.settings lo hi sr).length + 1) (by rw [hsz]; omega) (by rw [hsz]; omega) (by omega)).2.2.2
        omega
      · simp only [Part.levNode, fresh, filter_one]
        rw [if_neg (by simp), if_neg]
        intro h
        have := (hsame hp' (r := 0) (r' := (p'.instrument.settings lo hi sr).length + 2) (by rw [hsz]; omega) (by rw [hsz]; omega) (by omega)).2.2.2
        omega
  · rcases List.mem_cons.1 ha with rfl | ha
    · exact ⟨_, hg.lev hp, rfl, rfl, rfl, fun u => hpar ((p.instrument.settings lo hi sr).length + 2) (by rw [hsz]; omega) (by omega) u⟩
    · obtain ⟨k, s, hs, rfl⟩ := Part.note_params.1 ha
      have hk : k < (p.instrument.settings lo hi sr).length := (List.getElem?_eq_some_iff.1 hs).1
      refine ⟨_, hg.knob hp hs, rfl, rfl, rfl, fun u => ?_⟩
      have := hpar (k + 1) (by rw [hsz]; omega) (by omega) u
      rwa [show n + (k + 1) = n + 1 + k by omega] at this

theorem EScene.begins (hg : EScene e lo hi sr ps g) (hp : (n, τ, p) ∈ places lo hi sr 11 1 ps) :
    (p.note lo hi sr n).Begins (fun _ _ => False) g where
  source x hx := by
    rw [show (p.note lo hi sr n).src = n from rfl, hg.src hp] at hx
    cases hx; rfl
  gain x hx := by
    rw [show (p.note lo hi sr n).gain = n + (p.instrument.settings lo hi sr).length + 1 from rfl, hg.gain hp] at hx
    cases hx; rfl
  params a ha x hx := by
    rcases List.mem_cons.1 ha with rfl | ha
    · rw [show (p.note lo hi sr n).env.id = n + (p.instrument.settings lo hi sr).length + 2 from rfl, hg.lev hp] at hx
      cases hx; rfl
    · obtain ⟨k, s, hs, rfl⟩ := Part.note_params.1 ha
      rw [hg.knob hp hs] at hx
      cases hx; rfl
  reads j hj := by
    obtain ⟨k, s, hs, rfl⟩ := Part.source_reads (lo := lo) (hi := hi) (sr := sr) hj
    exact ⟨_, Part.note_params.2 ⟨k, s, hs, rfl⟩, rfl⟩

theorem EScene.atDest (hg : EScene e lo hi sr ps g) :
    DestIn g ((places lo hi sr 11 1 ps).map fun x => x.1 + (x.2.2.instrument.settings lo hi sr).length + 1) := by
  refine ⟨_, hg.dest, rfl, rfl, rfl, rfl, rfl, fun u => ?_⟩
  have hmem : u ∈ ((places lo hi sr 11 1 ps).map fun x => x.1 + (x.2.2.instrument.settings lo hi sr).length + 1) ↔
      ∃ n τ p, (n, τ, p) ∈ places lo hi sr 11 1 ps ∧ u = n + (p.instrument.settings lo hi sr).length + 1 := by
    rw [List.mem_map]
    constructor
    · rintro ⟨⟨n, τ, p⟩, hx, rfl⟩; exact ⟨n, τ, p, hx, rfl⟩
    · rintro ⟨n, τ, p, hx, rfl⟩; exact ⟨_, hx, rfl⟩
  have hnot : (∀ n τ p, (n, τ, p) ∈ places lo hi sr 11 1 ps → u = n + (p.instrument.settings lo hi sr).length + 1 → False) →
      u ∉ ((places lo hi sr 11 1 ps).map fun x => x.1 + (x.2.2.instrument.settings lo hi sr).length + 1) := by
    rw [hmem]; rintro h ⟨n, τ, p, h1, h2⟩; exact h n τ p h1 h2
  have hother : ∀ {x : Render.Node (SProc K Empty) (MSig K e.c.N)}, g.slot u = some x → (∀ j, x.proc ≠ .gain j) →
      u ∉ ((places lo hi sr 11 1 ps).map fun x => x.1 + (x.2.2.instrument.settings lo hi sr).length + 1) := by
    intro x hx hne
    refine hnot fun n τ p hp h => ?_
    rw [h, hg.gain hp] at hx
    cases hx
    exact hne _ rfl
  unfold into
  cases hx : g.slot u with
  | none =>
    rw [if_neg]
    refine hnot fun n τ p hp h => ?_
    rw [h, hg.gain hp] at hx
    cases hx
  | some x =>
    rcases hg.cases hx with ⟨rfl, rfl⟩ | ⟨n, τ, p, hp, ⟨rfl, rfl⟩ | ⟨k, s, hs, rfl, rfl⟩ | ⟨rfl, rfl⟩ | ⟨rfl, rfl⟩⟩
    · rw [if_neg (hother hx fun j h => by cases h)]; rfl
    · rw [if_neg (hother hx fun j h => by
        have h1 := Part.source_rank (p := p) (u + 1)
        rw [show p.source (u + 1) = .gain j from h] at h1
        cases h1)]
      simp only [Part.srcNode, fresh, filter_one]
      exact if_neg (by simp)
    · rw [if_neg (hother hx fun j h => by cases h)]
      simp only [Setting.node, fresh, filter_one]
      exact if_neg (by simp)
    · rw [if_pos (hmem.2 ⟨n, τ, p, hp, rfl⟩)]
      simp [Part.gainNode, fresh]
    · rw [if_neg (hother hx fun j h => by cases h)]
      simp only [Part.levNode, fresh, filter_one]
      exact if_neg (by simp)

end

end

end Verif.Whole
