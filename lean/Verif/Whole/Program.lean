import Verif.Whole.Band
import Verif.Param.NewProps

/-!
# C113: an offline context plays a program of notes as written

From the calls of an application to the samples of the rendered buffer. For every note the application creates a constant source
and a gain node (`/repo/src/node/constant_source.rs` l.141-170, `/repo/src/node/gain.rs` l.101-130), connects the source to the gain
node and this to the destination, and schedules start, stop and the automation of both parameters. Then it calls
`start_rendering_sync` (`/repo/src/context/offline.rs` l.178-190, `/repo/src/render/thread.rs` l.260-302).
-/

namespace Verif.Whole

open Verif Verif.Render Verif.Engine

section
variable {K : Type} [Field K] [LinearOrder K] [IsStrictOrderedRing K] [FloorRing K]

/-! ## Specification -/

/-- A note: offset and gain as given to the constructors, what is scheduled for them (in any order), start and stop time. -/
structure Voice (K : Type) where
  offset : K
  offsets : List (Param.Ev K K) := []
  gain : K
  gains : List (Param.Ev K K) := []
  start : K
  stop : Option K := none

/-- between start and stop -/
def Voice.sounds (v : Voice K) (t : K) : Bool :=
  decide (v.start ≤ t) && match v.stop with
    | none => true
    | some b => decide (t < b)

/-- the source at time `t`: the envelope of the offset, within the nominal range -/
def Voice.source (pw : K → K → K) (dt lo hi : K) (v : Voice K) (t : K) : K :=
  if v.sounds t then clampTo lo hi (Param.envelope pw dt t 0 v.offset (Param.sort v.offsets)) else 0

/-- the envelope of the gain at time `t`, within the nominal range -/
def Voice.level (pw : K → K → K) (dt lo hi : K) (v : Voice K) (t : K) : K :=
  clampTo lo hi (Param.envelope pw dt t 0 v.gain (Param.sort v.gains))

/-- What is scheduled for a parameter with the value `w`: set values and ramps at times that are not negative; exponential ramps
between values of the same sign (other than 0). -/
structure Planned (A : Param.Arith K K) (w : K) (es : List (Param.Ev K K)) : Prop where
  schedule : Param.Schedule A (⟨.setValueAtTime, w, 0, none⟩ :: Param.sort es)
  pos : ∀ x ∈ es, 0 ≤ x.time

/-- The calls for a note, where `n` is the next id and `τ` the next serial number: `ConstantSourceNode::new` (the id of the node
is taken before that of the parameter; the parameter is registered and its value is set; the node is registered; the queued
connection of the parameter is made), the same for `GainNode::new`, the connections, `start_at`, `stop_at`, automation. -/
def Voice.calls (lo hi : K) (n τ : Nat) (v : Voice K) : List (Op (SProc K Empty) (SMsg K Empty)) :=
  [.acquire, .acquire,
   .register (n + 1) (.param 1 lo hi { intrinsic := 1, current := 1 }) 1 1 ⟨1, 2, 1⟩,
   .post ⟨n + 1, τ, 1, 1⟩ (.event { kind := .setValue, value := v.offset, time := 0 }),
   .register n (.const {} (n + 1)) 0 1 ⟨2, 0, 0⟩,
   .connectHidden ⟨n + 1, τ, 1, 1⟩ ⟨n, τ + 1, 0, 1⟩ true,
   .acquire, .acquire,
   .register (n + 3) (.param 1 lo hi { intrinsic := 1, current := 1 }) 1 1 ⟨1, 2, 1⟩,
   .post ⟨n + 3, τ + 2, 1, 1⟩ (.event { kind := .setValue, value := v.gain, time := 0 }),
   .register (n + 2) (.gain (n + 3)) 1 1 ⟨2, 0, 0⟩,
   .connectHidden ⟨n + 3, τ + 2, 1, 1⟩ ⟨n + 2, τ + 3, 1, 1⟩ true,
   .connect ⟨n, τ + 1, 0, 1⟩ ⟨n + 2, τ + 3, 1, 1⟩ 0 0,
   .connect ⟨n + 2, τ + 3, 1, 1⟩ ⟨0, 0, 1, 1⟩ 0 0] ++
  (.post ⟨n, τ + 1, 0, 1⟩ (.start v.start 0 ⊤) :: v.stop.toList.map fun b => .post ⟨n, τ + 1, 0, 1⟩ (.stop b)) ++
  v.offsets.map (fun x => .post ⟨n + 1, τ, 1, 1⟩ (.event x)) ++
  v.gains.map fun x => .post ⟨n + 3, τ + 2, 1, 1⟩ (.event x)

/-- the calls for a list of notes -/
def calls (lo hi : K) : Nat → Nat → List (Voice K) → List (Op (SProc K Empty) (SMsg K Empty))
  | _, _, [] => []
  | n, τ, v :: vs => v.calls lo hi n τ ++ calls lo hi (n + 4) (τ + 4) vs

/-- the samples of the two channels of the destination -/
def stereo {N : Nat} (o : MSig K N) : Thread.Quantum K := [Node.sample o.q 0, Node.sample o.q 1]

/-! ## The messages -/

/-- the messages of the calls for a note -/
def Voice.msgs (lo hi : K) (n τ : Nat) (v : Voice K) : List (Msg (SProc K Empty) (SMsg K Empty)) :=
  [.register (n + 1) τ (.param 1 lo hi { intrinsic := 1, current := 1 }) 1 1 ⟨1, 2, 1⟩,
   .post (n + 1) τ (.event { kind := .setValue, value := v.offset, time := 0 }),
   .register n (τ + 1) (.const {} (n + 1)) 0 1 ⟨2, 0, 0⟩,
   .connect (n + 1) τ ⟨0, n, none⟩ (τ + 1),
   .register (n + 3) (τ + 2) (.param 1 lo hi { intrinsic := 1, current := 1 }) 1 1 ⟨1, 2, 1⟩,
   .post (n + 3) (τ + 2) (.event { kind := .setValue, value := v.gain, time := 0 }),
   .register (n + 2) (τ + 3) (.gain (n + 3)) 1 1 ⟨2, 0, 0⟩,
   .connect (n + 3) (τ + 2) ⟨0, n + 2, none⟩ (τ + 3),
   .connect n (τ + 1) ⟨0, n + 2, some 0⟩ (τ + 3),
   .connect (n + 2) (τ + 3) ⟨0, 0, some 0⟩ 0] ++
  ((SMsg.start v.start 0 ⊤ :: v.stop.toList.map .stop).map (.post n (τ + 1)) ++
  ((v.offsets.map .event).map (.post (n + 1) τ) ++ (v.gains.map .event).map (.post (n + 3) (τ + 2))))

def msgs (lo hi : K) : Nat → Nat → List (Voice K) → List (Msg (SProc K Empty) (SMsg K Empty))
  | _, _, [] => []
  | n, τ, v :: vs => v.msgs lo hi n τ ++ msgs lo hi (n + 4) (τ + 4) vs

/-- what is known of the control side -/
structure Knows {P S M : Type} (s : Sys P S M) (g : RGraph P S) (chan : List (Msg P M)) (n τ : Nat) (al : List Nat) (lv : List Handle) :
    Prop where
  g : s.g = g
  chan : s.chan = chan
  n : s.nextId = n
  τ : s.nextTag = τ
  al : ∀ a ∈ al, a ∈ s.alloc
  lv : ∀ h ∈ lv, h ∈ s.live

section
variable {P S M : Type} {sem : Sem P S M} {s : Sys P S M} {g : RGraph P S} {chan : List (Msg P M)} {n τ : Nat} {al : List Nat} {lv : List Handle}

theorem Knows.acquire (h : Knows s g chan n τ al lv) (hr : g.reclaimed = []) :
    ∃ s', s.step sem .acquire = some s' ∧ Knows s' g chan (n + 1) τ (n :: al) lv := by
  have hs : s.g.reclaimed = [] := by rw [h.g]; exact hr
  refine ⟨{ s with nextId := s.nextId + 1, alloc := s.alloc ++ [s.nextId] }, ?_, h.g, h.chan, by simp [h.n], h.τ, ?_, h.lv⟩
  · simp only [Sys.step, Sys.acquire, hs]
  · intro a ha
    rcases List.mem_cons.1 ha with rfl | ha
    · simp [h.n]
    · simp [h.al a ha]

theorem Knows.register (h : Knows s g chan n τ al lv) {id : Nat} (hid : id ∈ al) (p : P) (nin nout : Nat) (cfg : Cfg) {al' : List Nat}
    (hal : ∀ a ∈ al', a ∈ al ∧ a ≠ id) :
    ∃ s', s.step sem (.register id p nin nout cfg) = some s' ∧
      Knows s' g (chan ++ [.register id τ p nin nout cfg]) n (τ + 1) al' (⟨id, τ, nin, nout⟩ :: lv) := by
  refine ⟨_, if_pos (h.al id hid), h.g, by simp [h.chan, h.τ], h.n, by simp [h.τ], ?_, ?_⟩
  · intro a ha
    exact (List.mem_erase_of_ne (hal a ha).2).2 (h.al a (hal a ha).1)
  · intro x hx
    rcases List.mem_cons.1 hx with rfl | hx
    · simp [h.τ]
    · simp [h.lv x hx]

theorem Knows.post (h : Knows s g chan n τ al lv) {x : Handle} (hx : x ∈ lv) (m : M) :
    ∃ s', s.step sem (.post x m) = some s' ∧ Knows s' g (chan ++ [.post x.id x.tag m]) n τ al lv :=
  ⟨_, if_pos (h.lv x hx), h.g, by simp [h.chan], h.n, h.τ, h.al, h.lv⟩

theorem Knows.connectHidden (h : Knows s g chan n τ al lv) {x y : Handle} (hx : x ∈ lv) (hy : y ∈ lv) (ho : 0 < x.nout) (admin : Bool) :
    ∃ s', s.step sem (.connectHidden x y admin) = some s' ∧ Knows s' g (chan ++ [.connect x.id x.tag ⟨0, y.id, none⟩ y.tag]) n τ al lv :=
  ⟨_, if_pos ⟨h.lv x hx, h.lv y hy, ho⟩, h.g, by simp [h.chan], h.n, h.τ, h.al, h.lv⟩

theorem Knows.connect (h : Knows s g chan n τ al lv) {x y : Handle} (hx : x ∈ lv) (hy : y ∈ lv) {o i : Nat} (ho : o < x.nout) (hi : i < y.nin) :
    ∃ s', s.step sem (.connect x y o i) = some s' ∧ Knows s' g (chan ++ [.connect x.id x.tag ⟨o, y.id, some i⟩ y.tag]) n τ al lv :=
  ⟨_, if_pos ⟨h.lv x hx, h.lv y hy, ho, hi⟩, h.g, by simp [h.chan], h.n, h.τ, h.al, h.lv⟩

theorem Knows.posts {x : Handle} (hx : x ∈ lv) : ∀ (ms : List M) {s : Sys P S M} {chan : List (Msg P M)}, Knows s g chan n τ al lv →
    ∃ s', RGraph.foldOpt (Sys.step sem) (ms.map (.post x)) s = some s' ∧ Knows s' g (chan ++ ms.map (.post x.id x.tag)) n τ al lv := by
  intro ms
  induction ms with
  | nil => intro s chan h; exact ⟨s, rfl, by simpa using h⟩
  | cons m ms ih =>
    intro s chan h
    obtain ⟨s1, e1, h1⟩ := h.post (sem := sem) hx m
    obtain ⟨s2, e2, h2⟩ := ih h1
    exact ⟨s2, by simp only [List.map_cons, RGraph.foldOpt, e1, e2], by simpa using h2⟩

theorem foldOpt_append {α β : Type} (f : β → α → Option β) (l m : List α) (b : β) :
    RGraph.foldOpt f (l ++ m) b = (RGraph.foldOpt f l b).bind (RGraph.foldOpt f m) := by
  induction l generalizing b with
  | nil => rfl
  | cons a l ih =>
    simp only [List.cons_append, RGraph.foldOpt]
    cases f b a with
    | none => rfl
    | some b' => exact ih b'

end

theorem Voice.calls_run {S : Type} {sem : Sem (SProc K Empty) S (SMsg K Empty)} {s : Sys (SProc K Empty) S (SMsg K Empty)}
    {g : RGraph (SProc K Empty) S} {chan : List (Msg (SProc K Empty) (SMsg K Empty))} {n τ : Nat} (lo hi : K) (v : Voice K)
    (h : Knows s g chan n τ [] [⟨0, 0, 1, 1⟩]) (hr : g.reclaimed = []) :
    ∃ s', RGraph.foldOpt (Sys.step sem) (v.calls lo hi n τ) s = some s' ∧
      Knows s' g (chan ++ v.msgs lo hi n τ) (n + 4) (τ + 4) [] [⟨0, 0, 1, 1⟩] := by
  obtain ⟨s1, e1, h1⟩ := h.acquire (sem := sem) hr
  obtain ⟨s2, e2, h2⟩ := h1.acquire (sem := sem) hr
  obtain ⟨s3, e3, h3⟩ := h2.register (sem := sem) (id := n + 1) (by simp) (.param 1 lo hi { intrinsic := 1, current := 1 }) 1 1 ⟨1, 2, 1⟩
    (al' := [n]) (by simp)
  obtain ⟨s4, e4, h4⟩ := h3.post (sem := sem) (x := ⟨n + 1, τ, 1, 1⟩) (by simp) (.event { kind := .setValue, value := v.offset, time := 0 })
  obtain ⟨s5, e5, h5⟩ := h4.register (sem := sem) (id := n) (by simp) (.const {} (n + 1)) 0 1 ⟨2, 0, 0⟩ (al' := []) (by simp)
  obtain ⟨s6, e6, h6⟩ := h5.connectHidden (sem := sem) (x := ⟨n + 1, τ, 1, 1⟩) (y := ⟨n, τ + 1, 0, 1⟩) (by simp) (by simp) (by simp) true
  obtain ⟨s7, e7, h7⟩ := h6.acquire (sem := sem) hr
  obtain ⟨s8, e8, h8⟩ := h7.acquire (sem := sem) hr
  obtain ⟨s9, e9, h9⟩ := h8.register (sem := sem) (id := n + 3) (by simp) (.param 1 lo hi { intrinsic := 1, current := 1 }) 1 1 ⟨1, 2, 1⟩
    (al' := [n + 2]) (by simp)
  obtain ⟨s10, e10, h10⟩ := h9.post (sem := sem) (x := ⟨n + 3, τ + 2, 1, 1⟩) (by simp) (.event { kind := .setValue, value := v.gain, time := 0 })
  obtain ⟨s11, e11, h11⟩ := h10.register (sem := sem) (id := n + 2) (by simp) (.gain (n + 3)) 1 1 ⟨2, 0, 0⟩ (al' := []) (by simp)
  obtain ⟨s12, e12, h12⟩ := h11.connectHidden (sem := sem) (x := ⟨n + 3, τ + 2, 1, 1⟩) (y := ⟨n + 2, τ + 3, 1, 1⟩) (by simp) (by simp)
    (by simp) true
  obtain ⟨s13, e13, h13⟩ := h12.connect (sem := sem) (x := ⟨n, τ + 1, 0, 1⟩) (y := ⟨n + 2, τ + 3, 1, 1⟩) (o := 0) (i := 0)
    (by simp) (by simp) (by simp) (by simp)
  obtain ⟨s14, e14, h14⟩ := h13.connect (sem := sem) (x := ⟨n + 2, τ + 3, 1, 1⟩) (y := ⟨0, 0, 1, 1⟩) (o := 0) (i := 0)
    (by simp) (by simp) (by simp) (by simp)
  obtain ⟨s15, e15, h15⟩ := h14.posts (sem := sem) (x := ⟨n, τ + 1, 0, 1⟩) (by simp) (.start v.start 0 ⊤ :: v.stop.toList.map .stop)
  obtain ⟨s16, e16, h16⟩ := h15.posts (sem := sem) (x := ⟨n + 1, τ, 1, 1⟩) (by simp) (v.offsets.map .event)
  obtain ⟨s17, e17, h17⟩ := h16.posts (sem := sem) (x := ⟨n + 3, τ + 2, 1, 1⟩) (by simp) (v.gains.map .event)
  refine ⟨s17, ?_, h17.g, ?_, h17.n, h17.τ, by simp, fun x hx => h17.lv x (by simp at hx; simp [hx])⟩
  · rw [List.map_map] at e16 e17
    rw [List.map_cons, List.map_map] at e15
    unfold Voice.calls
    rw [foldOpt_append, foldOpt_append, foldOpt_append]
    simp only [RGraph.foldOpt, e1, e2, e3, e4, e5, e6, e7, e8, e9, e10, e11, e12, e13, e14, Option.bind_some]
    simp only [RGraph.foldOpt] at e15
    have e15' : RGraph.foldOpt (Sys.step sem) (.post ⟨n, τ + 1, 0, 1⟩ (.start v.start 0 ⊤) :: v.stop.toList.map fun b => .post ⟨n, τ + 1, 0, 1⟩ (.stop b)) s14 = some s15 := e15
    simp only [RGraph.foldOpt] at e15'
    rw [e15']
    simp only [Option.bind_some]
    have e16' : RGraph.foldOpt (Sys.step sem) (v.offsets.map fun x => .post ⟨n + 1, τ, 1, 1⟩ (.event x)) s15 = some s16 := e16
    rw [e16']
    exact e17
  · rw [h17.chan]
    unfold Voice.msgs
    simp

theorem calls_run {S : Type} {sem : Sem (SProc K Empty) S (SMsg K Empty)} {g : RGraph (SProc K Empty) S} (lo hi : K)
    (hr : g.reclaimed = []) (vs : List (Voice K)) : ∀ {s : Sys (SProc K Empty) S (SMsg K Empty)}
    {chan : List (Msg (SProc K Empty) (SMsg K Empty))} {n τ : Nat}, Knows s g chan n τ [] [⟨0, 0, 1, 1⟩] →
    ∃ s', RGraph.foldOpt (Sys.step sem) (calls lo hi n τ vs) s = some s' ∧ s'.g = g ∧ s'.chan = chan ++ msgs lo hi n τ vs := by
  induction vs with
  | nil => intro s chan n τ h; exact ⟨s, rfl, h.g, by simp [h.chan, msgs]⟩
  | cons v vs ih =>
    intro s chan n τ h
    obtain ⟨s1, e1, h1⟩ := v.calls_run (sem := sem) lo hi h hr
    obtain ⟨s2, e2, h2, h3⟩ := ih h1
    exact ⟨s2, by rw [calls, foldOpt_append, e1]; exact e2, h2, by rw [h3, msgs, List.append_assoc]⟩

theorem recv_run {P S M : Type} {sem : Sem P S M} : ∀ (k : Nat) {s : Sys P S M} {g : RGraph P S}, s.chan.length ≤ k →
    RGraph.foldOpt (RGraph.handle sem) s.chan s.g = some g →
    ∃ s', RGraph.foldOpt (Sys.step sem) (List.replicate k .recv) s = some s' ∧ s'.g = g := by
  intro k
  induction k with
  | zero =>
    intro s g hk h
    have : s.chan = [] := List.length_eq_zero_iff.1 (by omega)
    rw [this] at h
    exact ⟨s, rfl, Option.some.inj h⟩
  | succ k ih =>
    intro s g hk h
    rw [List.replicate_succ, RGraph.foldOpt]
    cases hc : s.chan with
    | nil =>
      have hstep : s.step sem .recv = some s := by simp only [Sys.step, hc]
      rw [hstep]
      exact ih (by rw [hc]; simp) h
    | cons m ms =>
      rw [hc] at h hk
      simp only [RGraph.foldOpt] at h
      cases hm : s.g.handle sem m with
      | none => rw [hm] at h; cases h
      | some g1 =>
        rw [hm] at h
        have hstep : s.step sem .recv = some { s with g := g1, chan := ms } := by simp only [Sys.step, hc, hm, Option.map_some]
        rw [hstep]
        exact ih (s := { s with g := g1, chan := ms }) (by simpa using hk) h

/-! ## The graph -/

/-- a graph with the nodes `n` to `n + 3` given -/
def four {P S : Type} (g : RGraph P S) (cap n : Nat) (a b c d : Option (Render.Node P S)) (o : List Nat) : RGraph P S where
  cap := cap
  slot := fun j => if j = n then a else if j = n + 1 then b else if j = n + 2 then c else if j = n + 3 then d else g.slot j
  ordered := o
  reclaimed := g.reclaimed

section
variable {P S M : Type} {sem : Sem P S M} {g : RGraph P S} {cap n : Nat} {a b c d : Option (Render.Node P S)} {o : List Nat}

theorem four_get0 (h : n < cap) : (four g cap n a b c d o).get n = a := by simp [four, RGraph.get, h]
theorem four_get1 (h : n + 1 < cap) : (four g cap n a b c d o).get (n + 1) = b := by simp [four, RGraph.get, h]
theorem four_get2 (h : n + 2 < cap) : (four g cap n a b c d o).get (n + 2) = c := by simp [four, RGraph.get, h]
theorem four_get3 (h : n + 3 < cap) : (four g cap n a b c d o).get (n + 3) = d := by simp [four, RGraph.get, h]

theorem four_put0 {x : Option (Render.Node P S)} : (four g cap n a b c d o).put n x = four g cap n x b c d o := by
  simp only [four, RGraph.put, RGraph.mk.injEq, true_and, and_true]
  funext j; grind
theorem four_put1 {x : Option (Render.Node P S)} : (four g cap n a b c d o).put (n + 1) x = four g cap n a x c d o := by
  simp only [four, RGraph.put, RGraph.mk.injEq, true_and, and_true]
  funext j; grind
theorem four_put2 {x : Option (Render.Node P S)} : (four g cap n a b c d o).put (n + 2) x = four g cap n a b x d o := by
  simp only [four, RGraph.put, RGraph.mk.injEq, true_and, and_true]
  funext j; grind
theorem four_put3 {x : Option (Render.Node P S)} : (four g cap n a b c d o).put (n + 3) x = four g cap n a b c x o := by
  simp only [four, RGraph.put, RGraph.mk.injEq, true_and, and_true]
  funext j; grind

/-- a node as it is created -/
def fresh (sem : Sem P S M) (tag : Nat) (p : P) (nin nout : Nat) (cfg : Cfg) (edges : List Edge) : Render.Node P S :=
  { tag, proc := p, inputs := List.replicate nin sem.silence, outputs := List.replicate nout sem.silence, cfg, edges, dropped := false,
    hasInputs := false, breaker := false }

theorem handle_register (g : RGraph P S) (id tag : Nat) (p : P) (nin nout : Nat) (cfg : Cfg) :
    g.handle sem (.register id tag p nin nout cfg) = some
      { ({ g with cap := max (id + 1) g.cap, ordered := g.ordered ++ [id] } : RGraph P S).put id (some (fresh sem tag p nin nout cfg [])) with
        ordered := g.ordered ++ [id] } := rfl

theorem handle_connect {g : RGraph P S} {src stag dtag : Nat} {e : Edge} {x : Render.Node P S} (h : g.get src = some x) :
    g.handle sem (.connect src stag e dtag) = some { g.put src (some { x with edges := x.edges ++ [e] }) with ordered := [] } := by
  simp only [RGraph.handle, RGraph.addEdge, h]

theorem handle_post {g : RGraph P S} {i tag : Nat} {m : M} {x : Render.Node P S} {p : P} (h : g.get i = some x)
    (hp : sem.onmessage x.proc m = some p) :
    g.handle sem (.post i tag m) = some (g.put i (some { x with proc := p })) := by
  simp only [RGraph.handle, RGraph.routeMessage, h, Option.bind_some, hp, Option.map_some]

theorem handle_posts {i tag : Nat} : ∀ (ms : List M) {g : RGraph P S} {x : Render.Node P S} {p : P}, g.get i = some x →
    RGraph.foldOpt sem.onmessage ms x.proc = some p →
    RGraph.foldOpt (RGraph.handle sem) (ms.map (.post i tag)) g = some (g.put i (some { x with proc := p })) := by
  intro ms
  induction ms with
  | nil =>
    intro g x p hx hp
    simp only [RGraph.foldOpt, Option.some.injEq] at hp
    subst hp
    simp only [List.map_nil, RGraph.foldOpt, Option.some.injEq, RGraph.put]
    have : (fun j => if j = i then some x else g.slot j) = g.slot := by
      funext j
      by_cases hj : j = i
      · subst hj; rw [if_pos rfl]; exact (get_some hx).symm
      · rw [if_neg hj]
    exact (congrArg (fun f => ({ g with slot := f } : RGraph P S)) this).symm
  | cons m ms ih =>
    intro g x p hx hp
    simp only [RGraph.foldOpt] at hp
    cases hm : sem.onmessage x.proc m with
    | none => rw [hm] at hp; cases hp
    | some p1 =>
      rw [hm] at hp
      simp only [List.map_cons, RGraph.foldOpt, handle_post hx hm]
      have hlt : i < g.cap := by
        unfold RGraph.get at hx
        split at hx
        · assumption
        · cases hx
      have hget : (g.put i (some { x with proc := p1 })).get i = some { x with proc := p1 } := by
        simp [RGraph.get, RGraph.put, hlt]
      rw [ih hget hp]
      simp only [RGraph.put, Option.some.injEq, RGraph.mk.injEq, true_and, and_true]
      funext j
      by_cases hj : j = i <;> simp [hj]

end

section
variable {P S M : Type} {sem : Sem P S M} {g : RGraph P S} {cap n : Nat} {a b c d : Option (Render.Node P S)} {o : List Nat}

theorem four_self (g : RGraph P S) (n : Nat) :
    four g g.cap n (g.slot n) (g.slot (n + 1)) (g.slot (n + 2)) (g.slot (n + 3)) g.ordered = g := by
  have : (fun j => if j = n then g.slot n else if j = n + 1 then g.slot (n + 1) else if j = n + 2 then g.slot (n + 2) else
      if j = n + 3 then g.slot (n + 3) else g.slot j) = g.slot := by
    funext j; grind
  exact congrArg (fun f => ({ g with slot := f } : RGraph P S)) this

theorem four_reg0 (tag : Nat) (p : P) (nin nout : Nat) (cfg : Cfg) :
    (four g cap n a b c d o).handle sem (.register n tag p nin nout cfg) =
      some (four g (max (n + 1) cap) n (some (fresh sem tag p nin nout cfg [])) b c d (o ++ [n])) := by
  rw [handle_register]
  show some { (four g (max (n + 1) cap) n a b c d (o ++ [n])).put n _ with ordered := o ++ [n] } = _
  rw [four_put0]; rfl
theorem four_reg1 (tag : Nat) (p : P) (nin nout : Nat) (cfg : Cfg) :
    (four g cap n a b c d o).handle sem (.register (n + 1) tag p nin nout cfg) =
      some (four g (max (n + 1 + 1) cap) n a (some (fresh sem tag p nin nout cfg [])) c d (o ++ [n + 1])) := by
  rw [handle_register]
  show some { (four g (max (n + 1 + 1) cap) n a b c d (o ++ [n + 1])).put (n + 1) _ with ordered := o ++ [n + 1] } = _
  rw [four_put1]; rfl
theorem four_reg2 (tag : Nat) (p : P) (nin nout : Nat) (cfg : Cfg) :
    (four g cap n a b c d o).handle sem (.register (n + 2) tag p nin nout cfg) =
      some (four g (max (n + 2 + 1) cap) n a b (some (fresh sem tag p nin nout cfg [])) d (o ++ [n + 2])) := by
  rw [handle_register]
  show some { (four g (max (n + 2 + 1) cap) n a b c d (o ++ [n + 2])).put (n + 2) _ with ordered := o ++ [n + 2] } = _
  rw [four_put2]; rfl
theorem four_reg3 (tag : Nat) (p : P) (nin nout : Nat) (cfg : Cfg) :
    (four g cap n a b c d o).handle sem (.register (n + 3) tag p nin nout cfg) =
      some (four g (max (n + 3 + 1) cap) n a b c (some (fresh sem tag p nin nout cfg [])) (o ++ [n + 3])) := by
  rw [handle_register]
  show some { (four g (max (n + 3 + 1) cap) n a b c d (o ++ [n + 3])).put (n + 3) _ with ordered := o ++ [n + 3] } = _
  rw [four_put3]; rfl

theorem four_con0 (h : n < cap) {x : Render.Node P S} {st dt : Nat} {e : Edge} :
    (four g cap n (some x) b c d o).handle sem (.connect n st e dt) = some (four g cap n (some { x with edges := x.edges ++ [e] }) b c d []) := by
  rw [handle_connect (four_get0 h), four_put0]; rfl
theorem four_con1 (h : n + 1 < cap) {x : Render.Node P S} {st dt : Nat} {e : Edge} :
    (four g cap n a (some x) c d o).handle sem (.connect (n + 1) st e dt) = some (four g cap n a (some { x with edges := x.edges ++ [e] }) c d []) := by
  rw [handle_connect (four_get1 h), four_put1]; rfl
theorem four_con2 (h : n + 2 < cap) {x : Render.Node P S} {st dt : Nat} {e : Edge} :
    (four g cap n a b (some x) d o).handle sem (.connect (n + 2) st e dt) = some (four g cap n a b (some { x with edges := x.edges ++ [e] }) d []) := by
  rw [handle_connect (four_get2 h), four_put2]; rfl
theorem four_con3 (h : n + 3 < cap) {x : Render.Node P S} {st dt : Nat} {e : Edge} :
    (four g cap n a b c (some x) o).handle sem (.connect (n + 3) st e dt) = some (four g cap n a b c (some { x with edges := x.edges ++ [e] }) []) := by
  rw [handle_connect (four_get3 h), four_put3]; rfl

end

/-- the stop time, if any -/
def Voice.stopTime (v : Voice K) : WithTop K := match v.stop with | none => ⊤ | some b => (b : WithTop K)

/-- a parameter after scheduling -/
def planned (w : K) (es : List (Param.Ev K K)) : Param.Proc K K :=
  { intrinsic := w, current := 1, timeline := Param.setEv w :: Param.sort es }

section
variable {S : Type} (sem : Sem (SProc K Empty) S (SMsg K Empty)) (lo hi : K) (n τ : Nat) (v : Voice K)

def Voice.srcNode : Render.Node (SProc K Empty) S :=
  fresh sem (τ + 1) (.const { start := (v.start : WithTop K), stop := v.stopTime } (n + 1)) 0 1 ⟨2, 0, 0⟩ [⟨0, n + 2, some 0⟩]
def Voice.offNode : Render.Node (SProc K Empty) S :=
  fresh sem τ (.param 1 lo hi (planned v.offset v.offsets)) 1 1 ⟨1, 2, 1⟩ [⟨0, n, none⟩]
def Voice.gainNode (_ : Voice K) : Render.Node (SProc K Empty) S :=
  fresh sem (τ + 3) (.gain (n + 3)) 1 1 ⟨2, 0, 0⟩ [⟨0, 0, some 0⟩]
def Voice.levNode : Render.Node (SProc K Empty) S :=
  fresh sem (τ + 2) (.param 1 lo hi (planned v.gain v.gains)) 1 1 ⟨1, 2, 1⟩ [⟨0, n + 2, none⟩]

end

theorem param_events (e : Studio K Empty Empty) (lo hi : K) {f : Nat} (A : Param.Arith K K) (dt : K) (N : Nat) : ∀ (es : List (Param.Ev K K)) {p p' : Param.Proc K K},
    Param.run A dt N ⟨p, f⟩ (es.map .event) = .ok ⟨p', f⟩ →
    RGraph.foldOpt e.onmessage (es.map .event) (.param 1 lo hi p : SProc K Empty) = some (.param 1 lo hi p') := by
  intro es
  induction es with
  | nil => intro p p' h; cases h; rfl
  | cons x es ih =>
    intro p p' h
    simp only [List.map_cons, Param.run, Param.step] at h
    cases hh : Param.handle p x with
    | ok p1 =>
      rw [hh] at h
      simp only [Param.Res.bind] at h
      simp only [List.map_cons, RGraph.foldOpt, Studio.onmessage, hh, resOpt, Option.map_some]
      exact ih h
    | panic => rw [hh] at h; cases h
    | fuel => rw [hh] at h; cases h

theorem Planned.mail {A : Param.Arith K K} {w : K} {es : List (Param.Ev K K)} (h : Planned A w es) (e : Studio K Empty Empty) (lo hi : K) :
    RGraph.foldOpt e.onmessage (.event { kind := .setValue, value := w, time := 0 } :: es.map .event)
      (.param 1 lo hi { intrinsic := 1, current := 1 } : SProc K Empty) = some (.param 1 lo hi (planned w es)) := by
  have := Param.run_new (A := A) (dt := 1) (count := 1) 1 1 w (es := es) (fun x hx => h.schedule.simple x (by simp [Param.mem_sort.2 hx])) h.pos
  exact param_events e lo hi A 1 1 (Param.setEv w :: es) (f := 0) this

/-- the graph after the messages for a note -/
theorem Voice.msgs_run {A : Param.Arith K K} (e : Studio K Empty Empty) (lo hi : K) (n τ : Nat) (v : Voice K)
    (h1 : Planned A v.offset v.offsets) (h2 : Planned A v.gain v.gains) (g : RGraph (SProc K Empty) (MSig K e.c.N)) :
    ∃ cap, g.cap ≤ cap ∧ n + 4 ≤ cap ∧ RGraph.foldOpt (RGraph.handle e.timed.base) (v.msgs lo hi n τ) g =
      some (four g cap n (some (v.srcNode e.timed.base n τ)) (some (v.offNode e.timed.base lo hi n τ))
        (some (v.gainNode e.timed.base n τ)) (some (v.levNode e.timed.base lo hi n τ)) []) := by
  obtain ⟨p1, a1, a2⟩ : ∃ p1, e.timed.base.onmessage (.param 1 lo hi { intrinsic := 1, current := 1 } : SProc K Empty)
      (.event { kind := .setValue, value := v.offset, time := 0 }) = some p1 ∧
      RGraph.foldOpt e.timed.base.onmessage (v.offsets.map .event) p1 = some (.param 1 lo hi (planned v.offset v.offsets)) := by
    have := h1.mail e lo hi
    simp only [RGraph.foldOpt] at this
    split at this
    · exact ⟨_, by assumption, this⟩
    · cases this
  obtain ⟨p2, b1, b2⟩ : ∃ p2, e.timed.base.onmessage (.param 1 lo hi { intrinsic := 1, current := 1 } : SProc K Empty)
      (.event { kind := .setValue, value := v.gain, time := 0 }) = some p2 ∧
      RGraph.foldOpt e.timed.base.onmessage (v.gains.map .event) p2 = some (.param 1 lo hi (planned v.gain v.gains)) := by
    have := h2.mail e lo hi
    simp only [RGraph.foldOpt] at this
    split at this
    · exact ⟨_, by assumption, this⟩
    · cases this
  have c1 : RGraph.foldOpt e.timed.base.onmessage (SMsg.start v.start 0 ⊤ :: v.stop.toList.map .stop) (.const {} (n + 1) : SProc K Empty) =
      some (.const { start := (v.start : WithTop K), stop := v.stopTime } (n + 1)) := by
    unfold Voice.stopTime
    cases v.stop <;> rfl
  refine ⟨max (n + 2 + 1) (max (n + 3 + 1) (max (n + 1) (max (n + 1 + 1) g.cap))), by omega, by omega, ?_⟩
  unfold Voice.msgs
  rw [foldOpt_append]
  conv_lhs => enter [1]; rw [← four_self g n]
  simp only [RGraph.foldOpt, four_reg1]
  rw [handle_post (four_get1 (by omega)) (by exact a1), four_put1]
  simp only [four_reg0]
  rw [four_con1 (by omega)]
  simp only [four_reg3]
  rw [handle_post (four_get3 (by omega)) (by exact b1), four_put3]
  simp only [four_reg2]
  rw [four_con3 (by omega)]
  simp only []
  rw [four_con0 (by omega)]
  simp only []
  rw [four_con2 (by omega)]
  simp only [Option.bind_some]
  rw [foldOpt_append, handle_posts _ (four_get0 (by omega)) (by exact c1), four_put0]
  simp only [Option.bind_some]
  rw [foldOpt_append]
  rw [handle_posts _ (four_get1 (by omega)) (by exact a2), four_put1]
  simp only [Option.bind_some]
  rw [handle_posts _ (four_get3 (by omega)) (by exact b2), four_put3]
  rfl

/-- the nodes of a note; `n` and `τ` are the first id and serial number -/
def Voice.nodeAt (e : Studio K Empty Empty) (lo hi : K) (n τ : Nat) (v : Voice K) : Nat → Render.Node (SProc K Empty) (MSig K e.c.N)
  | 0 => v.srcNode e.timed.base n τ
  | 1 => v.offNode e.timed.base lo hi n τ
  | 2 => v.gainNode e.timed.base n τ
  | _ => v.levNode e.timed.base lo hi n τ

/-- the nodes after the messages for all notes -/
def scene (e : Studio K Empty Empty) (lo hi : K) (vs : List (Voice K)) (i : Nat) : Option (Render.Node (SProc K Empty) (MSig K e.c.N)) :=
  if i = 0 then some (fresh e.timed.base 0 .destination 1 1 ⟨2, 2, 0⟩ [])
  else if i < 11 then none
  else (vs[(i - 11) / 4]?).map fun v => v.nodeAt e lo hi (11 + 4 * ((i - 11) / 4)) (1 + 4 * ((i - 11) / 4)) ((i - 11) % 4)

/-- the graph after the messages for all notes -/
structure Scene (e : Studio K Empty Empty) (lo hi : K) (vs : List (Voice K)) (g : RGraph (SProc K Empty) (MSig K e.c.N)) : Prop where
  slot : g.slot = scene e lo hi vs
  cap : 11 + 4 * vs.length ≤ g.cap
  ordered : g.ordered = [] ∨ g.ordered = [0] ∧ vs = []

theorem Scene.snoc {A : Param.Arith K K} {e : Studio K Empty Empty} {lo hi : K} {vs : List (Voice K)} {g : RGraph (SProc K Empty) (MSig K e.c.N)}
    (hg : Scene e lo hi vs g) {v : Voice K} (h1 : Planned A v.offset v.offsets) (h2 : Planned A v.gain v.gains) :
    ∃ g', RGraph.foldOpt (RGraph.handle e.timed.base) (v.msgs lo hi (11 + 4 * vs.length) (1 + 4 * vs.length)) g = some g' ∧
      Scene e lo hi (vs ++ [v]) g' := by
  obtain ⟨cap, k1, k2, h⟩ := v.msgs_run e lo hi (11 + 4 * vs.length) (1 + 4 * vs.length) h1 h2 g
  refine ⟨_, h, ?_, by simp only [four, List.length_append, List.length_singleton]; omega, .inl rfl⟩
  funext i
  simp only [four, hg.slot]
  have hat : ∀ r, r < 4 → scene e lo hi (vs ++ [v]) (11 + 4 * vs.length + r) =
      some (v.nodeAt e lo hi (11 + 4 * vs.length) (1 + 4 * vs.length) r) := by
    intro r hr
    have e1 : (11 + 4 * vs.length + r - 11) / 4 = vs.length := by omega
    have e2 : (11 + 4 * vs.length + r - 11) % 4 = r := by omega
    rw [scene, if_neg (by omega), if_neg (by omega), e1, e2]
    simp
  by_cases i0 : i = 11 + 4 * vs.length
  · rw [if_pos i0, i0]; exact (hat 0 (by omega)).symm
  by_cases i1 : i = 11 + 4 * vs.length + 1
  · rw [if_neg i0, if_pos i1, i1]; exact (hat 1 (by omega)).symm
  by_cases i2 : i = 11 + 4 * vs.length + 2
  · rw [if_neg i0, if_neg i1, if_pos i2, i2]; exact (hat 2 (by omega)).symm
  by_cases i3 : i = 11 + 4 * vs.length + 3
  · rw [if_neg i0, if_neg i1, if_neg i2, if_pos i3, i3]; exact (hat 3 (by omega)).symm
  rw [if_neg i0, if_neg i1, if_neg i2, if_neg i3]
  unfold scene
  split
  · rfl
  split
  · rfl
  · by_cases hlt : (i - 11) / 4 < vs.length
    · rw [List.getElem?_append_left hlt]
    · rw [List.getElem?_eq_none (by omega), List.getElem?_eq_none (by simp; omega)]

theorem scene_fold {A : Param.Arith K K} {e : Studio K Empty Empty} {lo hi : K} (vs : List (Voice K)) : ∀ {done : List (Voice K)}
    {g : RGraph (SProc K Empty) (MSig K e.c.N)}, Scene e lo hi done g →
    (∀ v ∈ vs, Planned A v.offset v.offsets ∧ Planned A v.gain v.gains) →
    ∃ g', RGraph.foldOpt (RGraph.handle e.timed.base) (msgs lo hi (11 + 4 * done.length) (1 + 4 * done.length) vs) g = some g' ∧
      Scene e lo hi (done ++ vs) g' := by
  induction vs with
  | nil => intro done g hg _; exact ⟨g, rfl, by simpa using hg⟩
  | cons v vs ih =>
    intro done g hg hv
    obtain ⟨g1, e1, s1⟩ := hg.snoc (hv v (by simp)).1 (hv v (by simp)).2
    obtain ⟨g2, e2, s2⟩ := ih s1 fun x hx => hv x (by simp [hx])
    refine ⟨g2, ?_, by simpa using s2⟩
    rw [msgs, foldOpt_append, e1]
    have : ∀ c, c + 4 * (done ++ [v]).length = c + 4 * done.length + 4 := by intro c; simp; omega
    rw [this, this] at e2
    exact e2

theorem scene_init (e : Studio K Empty Empty) (lo hi : K) :
    Scene e lo hi [] (Sys.init e.timed.base .destination ⟨2, 2, 0⟩ : Sys (SProc K Empty) (MSig K e.c.N) (SMsg K Empty)).g := by
  refine ⟨?_, by simp [Sys.init, RGraph.addNode, RGraph.new], .inr ⟨rfl, rfl⟩⟩
  funext i
  simp only [Sys.init, RGraph.addNode, RGraph.new, scene]
  by_cases hi : i = 0
  · rw [if_pos hi, if_pos hi]; rfl
  · rw [if_neg hi, if_neg hi]; simp

/-! ## The graph is in order -/

theorem scene_at {e : Studio K Empty Empty} {lo hi : K} {vs : List (Voice K)} {k : Nat} {v : Voice K} (h : vs[k]? = some v) {r : Nat} (hr : r < 4) :
    scene e lo hi vs (11 + 4 * k + r) = some (v.nodeAt e lo hi (11 + 4 * k) (1 + 4 * k) r) := by
  have e1 : (11 + 4 * k + r - 11) / 4 = k := by omega
  have e2 : (11 + 4 * k + r - 11) % 4 = r := by omega
  rw [scene, if_neg (by omega), if_neg (by omega), e1, e2, h]
  rfl

theorem scene_cases {e : Studio K Empty Empty} {lo hi : K} {vs : List (Voice K)} {i : Nat} {x : Render.Node (SProc K Empty) (MSig K e.c.N)}
    (h : scene e lo hi vs i = some x) :
    (i = 0 ∧ x = fresh e.timed.base 0 .destination 1 1 ⟨2, 2, 0⟩ []) ∨
    ∃ k v, vs[k]? = some v ∧ ((i = 11 + 4 * k ∧ x = v.srcNode e.timed.base (11 + 4 * k) (1 + 4 * k)) ∨
      (i = 11 + 4 * k + 1 ∧ x = v.offNode e.timed.base lo hi (11 + 4 * k) (1 + 4 * k)) ∨
      (i = 11 + 4 * k + 2 ∧ x = v.gainNode e.timed.base (11 + 4 * k) (1 + 4 * k)) ∨
      (i = 11 + 4 * k + 3 ∧ x = v.levNode e.timed.base lo hi (11 + 4 * k) (1 + 4 * k))) := by
  unfold scene at h
  split at h
  · cases h; exact .inl ⟨by assumption, rfl⟩
  split at h
  · cases h
  · obtain ⟨v, hv, rfl⟩ := Option.map_eq_some_iff.1 h
    refine .inr ⟨_, v, hv, ?_⟩
    have hi : i = 11 + 4 * ((i - 11) / 4) + (i - 11) % 4 := by omega
    have hr : (i - 11) % 4 < 4 := Nat.mod_lt _ (by decide)
    generalize hk : (i - 11) / 4 = k at hi
    generalize (i - 11) % 4 = r at hi hr
    match r, hr with
    | 0, _ => exact .inl ⟨hi, rfl⟩
    | 1, _ => exact .inr (.inl ⟨hi, rfl⟩)
    | 2, _ => exact .inr (.inr (.inl ⟨hi, rfl⟩))
    | 3, _ => exact .inr (.inr (.inr ⟨hi, rfl⟩))

theorem Scene.quiet {e : Studio K Empty Empty} {lo hi : K} {vs : List (Voice K)} {g : RGraph (SProc K Empty) (MSig K e.c.N)}
    (hg : Scene e lo hi vs g) : Quiet e.timed g := by
  intro i x hx s hs
  rw [hg.slot] at hx
  rcases scene_cases hx with ⟨_, rfl⟩ | ⟨k, v, _, ⟨_, rfl⟩ | ⟨_, rfl⟩ | ⟨_, rfl⟩ | ⟨_, rfl⟩⟩ <;>
    exact List.eq_of_mem_replicate hs

theorem Scene.fit {e : Studio K Empty Empty} {lo hi : K} {vs : List (Voice K)} {g : RGraph (SProc K Empty) (MSig K e.c.N)}
    (hg : Scene e lo hi vs g) : Fit (sreads fun _ _ => False) g := by
  have hlen : ∀ {k : Nat} {v : Voice K}, vs[k]? = some v → k < vs.length := fun h => (List.getElem?_eq_some_iff.1 h).1
  have hcap := hg.cap
  have hd : scene e lo hi vs 0 = some (fresh e.timed.base 0 .destination 1 1 ⟨2, 2, 0⟩ []) := rfl
  refine ⟨⟨⟨fun i x hx => ?_, fun i x hx ed he => ?_⟩, ?_, ?_, ?_⟩, ?_, fun i hc => ?_, fun i x hx j hj _ => ?_⟩
  · rw [hg.slot] at hx
    rcases scene_cases hx with ⟨rfl, _⟩ | ⟨k, v, hv, ⟨rfl, _⟩ | ⟨rfl, _⟩ | ⟨rfl, _⟩ | ⟨rfl, _⟩⟩
    · omega
    all_goals have := hlen hv; omega
  · rw [hg.slot] at hx ⊢
    rcases scene_cases hx with ⟨rfl, rfl⟩ | ⟨k, v, hv, ⟨rfl, rfl⟩ | ⟨rfl, rfl⟩ | ⟨rfl, rfl⟩ | ⟨rfl, rfl⟩⟩
    · cases he
    · rw [List.mem_singleton.1 he]
      exact ⟨by simp [Voice.srcNode, fresh], _, scene_at hv (r := 2) (by omega), fun p hp => by cases hp; simp [Voice.nodeAt, Voice.gainNode, fresh]⟩
    · rw [List.mem_singleton.1 he]
      exact ⟨by simp [Voice.offNode, fresh], _, scene_at hv (r := 0) (by omega), fun p hp => by cases hp⟩
    · rw [List.mem_singleton.1 he]
      exact ⟨by simp [Voice.gainNode, fresh], _, hd, fun p hp => by cases hp; simp [fresh]⟩
    · rw [List.mem_singleton.1 he]
      exact ⟨by simp [Voice.levNode, fresh], _, scene_at hv (r := 2) (by omega), fun p hp => by cases hp⟩
  · rcases hg.ordered with h | ⟨h, _⟩ <;> rw [h] <;> simp
  · rcases hg.ordered with h | ⟨h, _⟩ <;> rw [h]
    · simp
    · intro i hi
      rw [List.mem_singleton.1 hi, hg.slot]
      exact ⟨_, hd⟩
  · rcases hg.ordered with h | ⟨h, _⟩ <;> rw [h]
    · simp
    · intro u hu w hw x hx he
      rw [List.mem_singleton.1 hu, hg.slot, hd] at hx
      cases hx
      obtain ⟨_, he, _⟩ := he
      cases he
  · rcases hg.ordered with h | ⟨h, rfl⟩
    · exact .inl h
    · refine .inr fun i hi => ?_
      rw [h]
      obtain ⟨x, hx⟩ := Option.isSome_iff_exists.1 hi
      rw [hg.slot] at hx
      rcases scene_cases hx with ⟨rfl, _⟩ | ⟨k, v, hv, _⟩
      · simp
      · simp at hv
  · -- the rank of a node decreases along connections
    let rank : Nat → Nat := fun i => if i = 0 then 0 else if (i - 11) % 4 = 2 then 1 else if (i - 11) % 4 = 0 then 2 else 3
    have step : ∀ u w, (∃ x, g.slot u = some x ∧ ∃ ed ∈ x.edges, ed.dst = w) → rank w < rank u := by
      rintro u w ⟨x, hx, ed, he, rfl⟩
      rw [hg.slot] at hx
      rcases scene_cases hx with ⟨rfl, rfl⟩ | ⟨k, v, hv, ⟨rfl, rfl⟩ | ⟨rfl, rfl⟩ | ⟨rfl, rfl⟩ | ⟨rfl, rfl⟩⟩
      · cases he
      all_goals
        rw [List.mem_singleton.1 he]
        simp only [rank]
        grind
    have hdec : ∀ u w, Relation.TransGen (fun u w => ∃ x, g.slot u = some x ∧ ∃ ed ∈ x.edges, ed.dst = w) u w → rank w < rank u := by
      intro u w h
      induction h with
      | single h => exact step _ _ h
      | tail _ h ih => exact (step _ _ h).trans ih
    exact Nat.lt_irrefl _ (hdec i i hc)
  · rw [hg.slot] at hx
    rcases scene_cases hx with ⟨rfl, rfl⟩ | ⟨k, v, hv, ⟨rfl, rfl⟩ | ⟨rfl, rfl⟩ | ⟨rfl, rfl⟩ | ⟨rfl, rfl⟩⟩
    · cases hj
    · refine .inr ⟨_, by rw [hg.slot, show j = 11 + 4 * k + 1 from hj]; exact scene_at hv (by omega), _, List.mem_singleton.2 rfl, rfl⟩
    · cases hj
    · refine .inr ⟨_, by rw [hg.slot, show j = 11 + 4 * k + 3 from hj]; exact scene_at hv (by omega), _, List.mem_singleton.2 rfl, rfl⟩
    · cases hj

/-! ## The notes -/

theorem seen_at {p : Param.Proc K K} (ha : p.aRate = true) (lo hi : K) {j : Nat} {x : K} (h : p.valueAt j = some x) :
    Node.gainAt (paramSeen lo hi p) j = clampTo lo hi x := by
  unfold Param.Proc.valueAt at h
  by_cases h1 : p.buffer.length = 1
  · have hp : paramSeen lo hi p = [clampTo lo hi (p.buffer.headD 0)] := if_pos (.inl h1)
    rw [if_pos h1] at h
    rw [hp, List.headD_eq_head?_getD, List.head?_eq_getElem?, h]
    rfl
  · have hp : paramSeen lo hi p = p.buffer.map (clampTo lo hi) := if_neg (by rw [ha]; simpa using h1)
    rw [if_neg h1] at h
    unfold Node.gainAt
    rw [hp, List.length_map, if_neg h1, List.getD_eq_getElem?_getD, List.getElem?_map, h]
    rfl

/-- the values of a parameter in quantum `q` -/
theorem planned_values (e : Studio K Empty Empty) (hdt : 0 < e.dt) (hN : 2 ≤ e.c.N) {ex : K → K} {pw : K → K → K} {lo hi : K}
    (hA : e.A lo hi = Param.exact ex pw lo hi) {w : K} {es : List (Param.Ev K K)} (h : Planned (Param.exact ex pw lo hi) w es) (id q : Nat) :
    ∃ l, (⟨id, 1, lo, hi, planned w es⟩ : Par K).values e 0 (List.replicate q []) = some l ∧
      ∀ j, j < e.c.N → Node.gainAt l j = clampTo lo hi (Param.envelope pw e.dt ((q * e.c.N + j : Nat) * e.dt) 0 w (Param.sort es)) := by
  have hops : ∀ q, paramOps (List.replicate q ([] : List (SMsg K Empty))) = List.replicate (q + 1) .block := by
    intro q
    unfold paramOps
    rw [List.replicate_succ]
    congr 1
    induction q with
    | zero => rfl
    | succ q ih => rw [List.replicate_succ, List.flatMap_cons, ih, List.replicate_succ]; rfl
  obtain ⟨s, h1, h2⟩ := Param.run_planned (c := 1) hdt hN h.schedule (fun x hx => h.pos x (Param.mem_sort.1 hx)) q
  refine ⟨paramSeen lo hi s.p, ?_, fun j hj => ?_⟩
  · unfold Par.values
    rw [hops, hA]
    show (resOpt (Param.run _ _ _ { p := planned w es } _)).map _ = _
    unfold planned
    rw [h1]
    rfl
  · refine seen_at ?_ lo hi (h2 j hj)
    rw [run_rate hdt _ (by intro a ha; simp at ha) h1]

/-- the note in the graph -/
def Voice.tone (e : Studio K Empty Empty) (lo hi : K) (q k : Nat) (v : Voice K) : Tone K Empty where
  note := {
    src := 11 + 4 * k
    proc := .const { start := (v.start : WithTop K), stop := v.stopTime } (11 + 4 * k + 1)
    gain := 11 + 4 * k + 2
    env := ⟨11 + 4 * k + 3, 1, lo, hi, planned v.gain v.gains⟩
    params := [⟨11 + 4 * k + 1, 1, lo, hi, planned v.offset v.offsets⟩] }
  source := { start := (v.start : WithTop K), stop := v.stopTime }
  offset := ⟨11 + 4 * k + 1, 1, lo, hi, planned v.offset v.offsets⟩
  values := ((⟨11 + 4 * k + 1, 1, lo, hi, planned v.offset v.offsets⟩ : Par K).values e 0 (List.replicate q [])).getD []
  level := ((⟨11 + 4 * k + 3, 1, lo, hi, planned v.gain v.gains⟩ : Par K).values e 0 (List.replicate q [])).getD []

theorem filter_one {α : Type} {a : α} {p : α → Bool} : [a].filter p = if p a then [a] else [] := by
  by_cases h : p a <;> simp [h]

theorem Scene.sits {e : Studio K Empty Empty} {lo hi : K} {vs : List (Voice K)} {g : RGraph (SProc K Empty) (MSig K e.c.N)}
    (hg : Scene e lo hi vs g) {k : Nat} {v : Voice K} (hv : vs[k]? = some v) (q : Nat) : (v.tone e lo hi q k).note.Sits g := by
  have hpar : ∀ r, r = 1 ∨ r = 3 → ∀ u, into g u (11 + 4 * k + r) = [] := by
    intro r hr u
    unfold into
    cases hx : g.slot u with
    | none => rfl
    | some x =>
      rw [hg.slot] at hx
      rcases scene_cases hx with ⟨rfl, rfl⟩ | ⟨k', v', hv', ⟨rfl, rfl⟩ | ⟨rfl, rfl⟩ | ⟨rfl, rfl⟩ | ⟨rfl, rfl⟩⟩
      · rfl
      · simp only [Voice.srcNode, fresh, filter_one]
        exact if_neg (by simp; omega)
      · simp only [Voice.offNode, fresh, filter_one]
        exact if_neg (by simp)
      · simp only [Voice.gainNode, fresh, filter_one]
        exact if_neg (by simp; omega)
      · simp only [Voice.levNode, fresh, filter_one]
        exact if_neg (by simp)
  refine ⟨⟨_, by rw [hg.slot]; exact scene_at hv (r := 0) (by omega), rfl, rfl⟩,
    ⟨_, by rw [hg.slot]; exact scene_at hv (r := 2) (by omega), rfl, rfl, rfl, rfl, fun u => ?_⟩, fun a ha => ?_⟩
  · show into g u (11 + 4 * k + 2) = if u = 11 + 4 * k then [⟨0, 11 + 4 * k + 2, some 0⟩] else []
    unfold into
    cases hx : g.slot u with
    | none =>
      rw [if_neg]
      rintro rfl
      rw [hg.slot, show 11 + 4 * k = 11 + 4 * k + 0 from rfl, scene_at hv (by omega)] at hx
      cases hx
    | some x =>
      rw [hg.slot] at hx
      rcases scene_cases hx with ⟨rfl, rfl⟩ | ⟨k', v', hv', ⟨rfl, rfl⟩ | ⟨rfl, rfl⟩ | ⟨rfl, rfl⟩ | ⟨rfl, rfl⟩⟩
      · rw [if_neg (by omega)]; rfl
      · simp only [Voice.srcNode, fresh, filter_one]
        by_cases hk : k' = k
        · subst hk; simp
        · rw [if_neg (by simp; omega), if_neg (by omega)]
      · simp only [Voice.offNode, fresh, filter_one]
        rw [if_neg (by simp), if_neg (by omega)]
      · simp only [Voice.gainNode, fresh, filter_one]
        rw [if_neg (by simp), if_neg (by omega)]
      · simp only [Voice.levNode, fresh, filter_one]
        rw [if_neg (by simp), if_neg (by omega)]
  · simp only [Voice.tone, List.mem_cons, List.not_mem_nil, or_false] at ha
    rcases ha with rfl | rfl
    · exact ⟨_, by rw [hg.slot]; exact scene_at hv (r := 3) (by omega), rfl, rfl, rfl, hpar 3 (.inr rfl)⟩
    · exact ⟨_, by rw [hg.slot]; exact scene_at hv (r := 1) (by omega), rfl, rfl, rfl, hpar 1 (.inl rfl)⟩

theorem Scene.begins {e : Studio K Empty Empty} {lo hi : K} {vs : List (Voice K)} {g : RGraph (SProc K Empty) (MSig K e.c.N)}
    (hg : Scene e lo hi vs g) {k : Nat} {v : Voice K} (hv : vs[k]? = some v) (q : Nat) :
    (v.tone e lo hi q k).note.Begins (fun _ _ => False) g where
  source n hn := by
    rw [hg.slot, show (v.tone e lo hi q k).note.src = 11 + 4 * k + 0 from rfl, scene_at hv (by omega)] at hn
    cases hn; rfl
  gain n hn := by
    rw [hg.slot, show (v.tone e lo hi q k).note.gain = 11 + 4 * k + 2 from rfl, scene_at hv (by omega)] at hn
    cases hn; rfl
  params a ha n hn := by
    rw [hg.slot] at hn
    simp only [Voice.tone, List.mem_cons, List.not_mem_nil, or_false] at ha
    rcases ha with rfl | rfl
    · rw [scene_at hv (by omega)] at hn
      cases hn; rfl
    · rw [scene_at hv (by omega)] at hn
      cases hn; rfl
  reads j hj := ⟨_, List.mem_singleton.2 rfl, (show j = 11 + 4 * k + 1 from hj).symm⟩

theorem Scene.dest {e : Studio K Empty Empty} {lo hi : K} {vs : List (Voice K)} {g : RGraph (SProc K Empty) (MSig K e.c.N)}
    (hg : Scene e lo hi vs g) : DestIn g ((List.range vs.length).map fun k => 11 + 4 * k + 2) := by
  refine ⟨_, by rw [hg.slot]; exact if_pos rfl, rfl, rfl, rfl, rfl, rfl, fun u => ?_⟩
  have hmem : u ∈ ((List.range vs.length).map fun k => 11 + 4 * k + 2) ↔ ∃ k v, vs[k]? = some v ∧ u = 11 + 4 * k + 2 := by
    simp only [List.mem_map, List.mem_range]
    constructor
    · rintro ⟨k, hk, rfl⟩; exact ⟨k, vs[k], by simp [hk], rfl⟩
    · rintro ⟨k, v, hv, rfl⟩; exact ⟨k, (List.getElem?_eq_some_iff.1 hv).1, rfl⟩
  unfold into
  cases hx : g.slot u with
  | none =>
    rw [if_neg]
    rw [hmem]
    rintro ⟨k, v, hv, rfl⟩
    rw [hg.slot, scene_at hv (by omega)] at hx
    cases hx
  | some x =>
    rw [hg.slot] at hx
    rcases scene_cases hx with ⟨rfl, rfl⟩ | ⟨k', v', hv', ⟨rfl, rfl⟩ | ⟨rfl, rfl⟩ | ⟨rfl, rfl⟩ | ⟨rfl, rfl⟩⟩
    · rw [if_neg (by rw [hmem]; rintro ⟨k, v, hv, h⟩; omega)]; rfl
    · rw [if_neg (by rw [hmem]; rintro ⟨k, v, hv, h⟩; omega)]
      simp only [Voice.srcNode, fresh, filter_one]
      exact if_neg (by simp)
    · rw [if_neg (by rw [hmem]; rintro ⟨k, v, hv, h⟩; omega)]
      simp only [Voice.offNode, fresh, filter_one]
      exact if_neg (by simp)
    · rw [if_pos (hmem.2 ⟨k', v', hv', rfl⟩)]
      simp [Voice.gainNode, fresh]
    · rw [if_neg (by rw [hmem]; rintro ⟨k, v, hv, h⟩; omega)]
      simp only [Voice.levNode, fresh, filter_one]
      exact if_neg (by simp)

/-- every quantum of the graph -/
theorem Scene.quantum (e : Studio K Empty Empty) (hsr : 0 < e.sr) (hN : e.c.N = 128) (h0 : 0 ≤ e.c.thr) {ex : K → K} {pw : K → K → K}
    {lo hi : K} (hA : e.A lo hi = Param.exact ex pw lo hi) {vs : List (Voice K)}
    (hv : ∀ v ∈ vs, Planned (Param.exact ex pw lo hi) v.offset v.offsets ∧ Planned (Param.exact ex pw lo hi) v.gain v.gains)
    {g : RGraph (SProc K Empty) (MSig K e.c.N)} (hg : Scene e lo hi vs g) (q : Nat) :
    ∃ gk g' y, stage e.timed 0 g (List.replicate q []) = some gk ∧ gk.render (e.timed.at (0 + 128 * q)) = some (g', y) ∧
      ∀ c j, c < 2 → j < 128 →
        |Node.sample y.q c j - (vs.map fun v => v.source pw e.dt lo hi ((128 * q + j : Nat) * e.dt) *
            v.level pw e.dt lo hi ((128 * q + j : Nat) * e.dt)).sum| ≤
          e.c.thr * (vs.map fun v => |v.source pw e.dt lo hi ((128 * q + j : Nat) * e.dt)|).sum := by
  have hdt : 0 < e.dt := one_div_pos.2 hsr
  have hN2 : 2 ≤ e.c.N := by omega
  have hin : Reads e.inner fun _ _ => False := fun p => nomatch p
  have hstb : Stable e.inner fun _ _ => False := ⟨(fun p => nomatch p), (fun p => nomatch p)⟩
  have hmem : ∀ t ∈ vs.mapIdx (fun k v => v.tone e lo hi q k), ∃ (k : Nat) (v : Voice K), vs[k]? = some v ∧ t = v.tone e lo hi q k := by
    intro t ht
    obtain ⟨k, hk, rfl⟩ := List.mem_mapIdx.1 ht
    exact ⟨k, vs[k], by simp [hk], rfl⟩
  have hmail : ∀ i, (List.replicate q ([] : List (Msg (SProc K Empty) (SMsg K Empty)))).map (mail i) = List.replicate q [] := by
    intro i; rw [List.map_replicate]; rfl
  have hgains : (vs.mapIdx fun k v => v.tone e lo hi q k).map (fun t => t.note.gain) = (List.range vs.length).map fun k => 11 + 4 * k + 2 := by
    refine List.ext_getElem (by simp) fun i h1 h2 => ?_
    simp [Voice.tone]
  obtain ⟨gk, g', y, r1, r2, r3⟩ := C112_tones e hsr hN h0 hin hstb (f := 0) (g := g) (bs := List.replicate q [])
    (ts := vs.mapIdx fun k v => v.tone e lo hi q k) hg.quiet hg.fit
    (fun t ht => by obtain ⟨k, v, hk, rfl⟩ := hmem t ht; exact ⟨rfl, rfl⟩)
    (fun t ht => by obtain ⟨k, v, hk, rfl⟩ := hmem t ht; exact ⟨hg.begins hk q, hg.sits hk q⟩)
    (fun t ht => by
      obtain ⟨k, v, hk, rfl⟩ := hmem t ht
      obtain ⟨l, hl, _⟩ := planned_values e hdt hN2 hA (hv v (List.mem_of_getElem? hk)).1 (11 + 4 * k + 1) q
      rw [hmail]
      simp only [Voice.tone, hl, Option.getD_some])
    (fun t ht => by
      obtain ⟨k, v, hk, rfl⟩ := hmem t ht
      obtain ⟨l, hl, _⟩ := planned_values e hdt hN2 hA (hv v (List.mem_of_getElem? hk)).2 (11 + 4 * k + 3) q
      rw [hmail]
      simp only [Voice.tone, hl, Option.getD_some])
    (fun b hb => by rw [List.eq_of_mem_replicate hb]; intro m hm; cases hm)
    (by rw [hgains]; exact hg.dest)
    (by
      rw [hgains]
      exact List.Nodup.map (fun a b h => by simpa using h) List.nodup_range)
  rw [List.length_replicate] at r2
  refine ⟨gk, g', y, r1, r2, fun c j hc hj => ?_⟩
  have key : ∀ (k : Nat) (v : Voice K), vs[k]? = some v →
      (v.tone e lo hi q k).at e 0 (List.replicate q []) j = v.source pw e.dt lo hi ((128 * q + j : Nat) * e.dt) ∧
      Node.gainAt (v.tone e lo hi q k).level j = v.level pw e.dt lo hi ((128 * q + j : Nat) * e.dt) := by
    intro k v hk
    obtain ⟨l, hl, hl'⟩ := planned_values e hdt hN2 hA (hv v (List.mem_of_getElem? hk)).1 (11 + 4 * k + 1) q
    obtain ⟨m, hm, hm'⟩ := planned_values e hdt hN2 hA (hv v (List.mem_of_getElem? hk)).2 (11 + 4 * k + 3) q
    have hj' : j < e.c.N := by omega
    have hlj := hl' j hj'
    have hmj := hm' j hj'
    rw [hN, Nat.mul_comm q 128] at hlj hmj
    constructor
    · have hfm : (List.replicate q ([] : List (Msg (SProc K Empty) (SMsg K Empty)))).flatMap (mail (11 + 4 * k)) = [] := by
        rw [List.flatMap_eq_nil_iff]
        intro b hb
        rw [List.eq_of_mem_replicate hb]; rfl
      have hvals : (v.tone e lo hi q k).values = l := by simp only [Voice.tone, hl, Option.getD_some]
      unfold Tone.at
      rw [hvals, hlj, show (v.tone e lo hi q k).note.src = 11 + 4 * k from rfl, hfm, List.length_replicate, Nat.zero_add]
      show constAt ((v.start : WithTop K), v.stopTime) _ _ = _
      generalize ((128 * q + j : Nat) : K) * e.dt = t
      unfold constAt Voice.source Voice.sounds Voice.stopTime
      cases v.stop with
      | none => simp
      | some b => simp
    · have hlev : (v.tone e lo hi q k).level = m := by simp only [Voice.tone, hm, Option.getD_some]
      rw [hlev, hmj]
      rfl
  have hs : ∀ (F : Tone K Empty → K) (G : Voice K → K), (∀ (k : Nat) (v : Voice K), vs[k]? = some v → F (v.tone e lo hi q k) = G v) →
      (vs.mapIdx fun k v => v.tone e lo hi q k).map F = vs.map G := by
    intro F G hFG
    refine List.ext_getElem (by simp) fun i h1 h2 => ?_
    have hi : i < vs.length := by simpa using h1
    simp [hFG i vs[i] (by simp [hi])]
  have := r3 c j hc (by omega)
  rw [hs _ _ fun k v hk => by rw [(key k v hk).1, (key k v hk).2], hs _ _ fun k v hk => by rw [(key k v hk).1]] at this
  exact this

/-! ## Offline rendering -/

/-- what the application does, as seen by the render thread -/
def program {P S M : Type} (sem : Sem P S M) (ops : List (Op P M)) : List (Thread.Msg (World P S M)) := ops.map fun o => Event.msg sem (.op o)

theorem handle_program {P S M : Type} (sem : Sem P S M) (ops : List (Op P M)) : ∀ (t : Thread.St (World P S M) K) (s : Sys P S M),
    t.graph = some (some s) → ∀ {s' : Sys P S M}, RGraph.foldOpt (Sys.step sem) ops s = some s' →
    t.handleAll (program sem ops) = some { t with graph := some (some s') } := by
  induction ops with
  | nil =>
    intro t s ht s' h
    cases h
    rw [← ht]
    rfl
  | cons o ops ih =>
    intro t s ht s' h
    simp only [RGraph.foldOpt] at h
    cases hs : s.step sem o with
    | none => rw [hs] at h; cases h
    | some s1 =>
      rw [hs] at h
      simp only [program, List.map_cons, Thread.St.handleAll, Event.msg, Thread.St.handle, ht, Option.bind_some, hs, Option.map_some]
      exact ih { t with graph := some (some s1) } s1 rfl h

theorem play_quanta {P S M : Type} (t : Timed P S M) (frames : S → Thread.Quantum K) : ∀ (n f : Nat) (s : Sys P S M) (R : Nat → S → Prop),
    (∀ q, q < n → ∃ gk g' y, stage t f s.g (List.replicate q []) = some gk ∧ gk.render (t.at (f + 128 * q)) = some (g', y) ∧ R q y) →
    ∃ w, ∃ ys : List S, Thread.play (worldSem t frames) (List.replicate n []) (some s) f = some (w, ys.map frames) ∧ ys.length = n ∧
      ∀ (q : Nat) (y : S), ys[q]? = some y → R q y := by
  intro n
  induction n with
  | zero => intro f s R _; exact ⟨some s, [], rfl, rfl, fun q y h => by simp at h⟩
  | succ n ih =>
    intro f s R h
    obtain ⟨gk, g1, y, h1, h2, h3⟩ := h 0 (by omega)
    simp only [List.replicate_zero, stage, Option.some.injEq, Nat.mul_zero, Nat.add_zero] at h1 h2
    subst h1
    obtain ⟨w, ys, k1, k2, k3⟩ := ih (f + 128) { s with g := g1 } (fun q => R (q + 1)) (by
      intro q hq
      obtain ⟨gk', g', y', m1, m2, m3⟩ := h (q + 1) (by omega)
      rw [List.replicate_succ, stage, h2] at m1
      refine ⟨gk', g', y', m1, ?_, m3⟩
      rw [show f + 128 + 128 * q = f + 128 * (q + 1) by omega]
      exact m2)
    refine ⟨w, y :: ys, ?_, by simp [k2], fun q z hz => ?_⟩
    · have hw : (worldSem t frames).render (some s) f = (some { s with g := g1 }, frames y) := by simp [worldSem, h2]
      simp only [List.replicate_succ, Thread.play, hw, Thread.applyMsgs, Option.bind_some]
      rw [show f + Thread.rqs = f + 128 from rfl, k1]
      rfl
    · cases q with
      | zero => simp only [List.getElem?_cons_zero, Option.some.injEq] at hz; exact hz ▸ h3
      | succ q => exact k3 q z (by simpa using hz)

theorem channelStream_at (c : Nat) {j : Nat} (hj : j < 128) : ∀ (qs : List (Thread.Quantum K)) (q : Nat),
    (Thread.channelStream c qs)[128 * q + j]? = (qs[q]?).map fun x => match x[c]? with | some samples => samples j | none => 0 := by
  intro qs
  induction qs with
  | nil => intro q; simp [Thread.channelStream]
  | cons x qs ih =>
    intro q
    have hlen : ((List.range 128).map fun i => match x[c]? with | some samples => samples i | none => (0 : K)).length = 128 := by simp
    rw [show Thread.channelStream c (x :: qs) =
      ((List.range 128).map fun i => match x[c]? with | some samples => samples i | none => 0) ++ Thread.channelStream c qs from rfl]
    cases q with
    | zero =>
      rw [List.getElem?_append_left (by rw [hlen]; omega), List.getElem?_map, List.getElem?_range (by omega)]
      simp
    | succ q =>
      rw [List.getElem?_append_right (by rw [hlen]; omega), hlen, show 128 * (q + 1) + j - 128 = 128 * q + j by omega, ih q]
      simp

theorem msgs_le (lo hi : K) (vs : List (Voice K)) : ∀ n τ, (msgs lo hi n τ vs).length ≤ (calls lo hi n τ vs).length := by
  induction vs with
  | nil => intro n τ; simp [msgs]
  | cons v vs ih =>
    intro n τ
    have := ih (n + 4) (τ + 4)
    simp only [msgs, calls, Voice.msgs, Voice.calls, List.length_append, List.length_map, List.length_cons, List.length_nil]
    omega

theorem program_ready (e : Studio K Empty Empty) {ex : K → K} {pw : K → K → K}
    {lo hi : K} (hA : e.A lo hi = Param.exact ex pw lo hi) (vs : List (Voice K))
    (hv : ∀ v ∈ vs, Planned (Param.exact ex pw lo hi) v.offset v.offsets ∧ Planned (Param.exact ex pw lo hi) v.gain v.gains)
    {k : Nat} (hk : (calls lo hi 11 1 vs).length ≤ k) :
    ∃ s2, RGraph.foldOpt (Sys.step e.timed.base) (calls lo hi 11 1 vs ++ List.replicate k .recv)
      (Sys.init e.timed.base .destination ⟨2, 2, 0⟩) = some s2 ∧ Scene e lo hi vs s2.g := by
  obtain ⟨s1, a1, a2, a3⟩ := calls_run (sem := e.timed.base) lo hi rfl vs
    (s := Sys.init e.timed.base .destination ⟨2, 2, 0⟩) (chan := []) (n := 11) (τ := 1)
    ⟨rfl, rfl, rfl, rfl, by simp, by simp [Sys.init]⟩
  rw [List.nil_append] at a3
  obtain ⟨g, b1, b2⟩ := scene_fold (done := []) vs (scene_init e lo hi) hv
  rw [List.nil_append] at b2
  obtain ⟨s2, c1, c2⟩ := recv_run (sem := e.timed.base) k (s := s1) (g := g) (by rw [a3]; exact (msgs_le lo hi vs 11 1).trans hk)
    (by rw [a2, a3]; exact b1)
  subst c2
  exact ⟨s2, by rw [foldOpt_append, a1]; exact c1, b2⟩

/-- C113: For every list of notes and every length: the application creates and connects the nodes of all notes and schedules
everything, then renders. Nothing panics, and the result is a buffer of two channels of the requested length, which at every frame
contain the sum of the notes: each is the envelope of its offset times the envelope of its gain, from its start to its stop time
(up to the threshold of the gain node for gains near 0 and 1). The envelopes are those of the events in time order. -/
theorem C113_program (e : Studio K Empty Empty) (hsr : 0 < e.sr) (hN : e.c.N = 128) (h0 : 0 ≤ e.c.thr) {ex : K → K} {pw : K → K → K}
    {lo hi : K} (hA : e.A lo hi = Param.exact ex pw lo hi) (vs : List (Voice K))
    (hv : ∀ v ∈ vs, Planned (Param.exact ex pw lo hi) v.offset v.offsets ∧ Planned (Param.exact ex pw lo hi) v.gain v.gains)
    (length : Nat) (dead : Nat → Bool) {k : Nat} (hk : (calls lo hi 11 1 vs).length ≤ k) :
    ∃ o l r, Thread.offRender (worldSem e.timed stereo) dead 2 length length [] (start e.timed .destination ⟨2, 2, 0⟩)
        [program e.timed.base (calls lo hi 11 1 vs ++ List.replicate k .recv)] = some ([], o) ∧
      o.buffer = [l, r] ∧ l.length = length ∧ r.length = length ∧
      ∀ f, f < length → ∀ b ∈ [l, r],
        |b.getD f 0 - (vs.map fun v => v.source pw e.dt lo hi (f * e.dt) * v.level pw e.dt lo hi (f * e.dt)).sum| ≤
          e.c.thr * (vs.map fun v => |v.source pw e.dt lo hi (f * e.dt)|).sum := by
  obtain ⟨s2, hrun, b2⟩ := program_ready e hA vs hv hk
  -- the quanta
  obtain ⟨w, ys, p1, p2, p3⟩ := play_quanta e.timed (stereo (K := K)) ((length + 127) / 128) 0 s2
    (fun q y => ∀ c j, c < 2 → j < 128 →
        |Node.sample y.q c j - (vs.map fun v => v.source pw e.dt lo hi ((128 * q + j : Nat) * e.dt) *
            v.level pw e.dt lo hi ((128 * q + j : Nat) * e.dt)).sum| ≤
          e.c.thr * (vs.map fun v => |v.source pw e.dt lo hi ((128 * q + j : Nat) * e.dt)|).sum)
    (fun q _ => b2.quantum e hsr hN h0 hA hv q)
  -- the buffer
  have hs2 : (s2.g.slot 0).isSome = true := by rw [b2.slot]; rfl
  have hgood : Thread.Good (worldSem e.timed (stereo (K := K)))
      ({ (start e.timed .destination ⟨2, 2, 0⟩ : Thread.St (World (SProc K Empty) (MSig K e.c.N) (SMsg K Empty)) K) with
        graph := some (some s2) }) (some s2) := ⟨rfl, hs2, rfl, rfl⟩
  obtain ⟨o, o1, o2⟩ := Thread.offLoop_play (worldSem e.timed (stereo (K := K))) dead length (List.replicate ((length + 127) / 128) []) 0
    { t := { (start e.timed .destination ⟨2, 2, 0⟩ : Thread.St (World (SProc K Empty) (MSig K e.c.N) (SMsg K Empty)) K) with
        graph := some (some s2) }, buffer := List.replicate 2 [], trace := [] } (some s2) hgood (by simp)
    (fun b hb m hm => by rw [List.eq_of_mem_replicate hb] at hm; cases hm) (world_active e.timed stereo) w _ p1
  rw [List.length_replicate, Thread.offLoop_empty _ _ _ _ _ _ _ (by simp)] at o1
  have hoff : Thread.offRender (worldSem e.timed (stereo (K := K))) dead 2 length length [] (start e.timed .destination ⟨2, 2, 0⟩)
      [program e.timed.base (calls lo hi 11 1 vs ++ List.replicate k .recv)] = some ([], o) := by
    unfold Thread.offRender Thread.St.poll
    rw [if_pos (show (start e.timed .destination ⟨2, 2, 0⟩ : Thread.St (World (SProc K Empty) (MSig K e.c.N) (SMsg K Empty)) K).receiver = true from rfl)]
    simp only [List.headD_cons, handle_program e.timed.base _ (start e.timed .destination ⟨2, 2, 0⟩) _ rfl hrun, Option.map_some, List.tail_cons]
    exact o1
  obtain ⟨d1, d2, d3⟩ := Thread.C17_exact _ dead 2 length [] _ _ hoff
  rw [show Thread.rendered o.trace = ys.map stereo by rw [o2]; rfl] at d3
  match hbuf : o.buffer, d1 with
  | [l, r], _ =>
    obtain ⟨l1, l2⟩ := d3 0 l (by rw [hbuf]; rfl)
    obtain ⟨r1, r2⟩ := d3 1 r (by rw [hbuf]; rfl)
    refine ⟨o, l, r, hoff, hbuf, l1, r1, fun f hf b hb => ?_⟩
    have hq : f / 128 < ys.length := by rw [p2]; omega
    have hfq : 128 * (f / 128) + f % 128 = f := Nat.div_add_mod f 128
    have hj : f % 128 < 128 := Nat.mod_lt _ (by decide)
    have hy := p3 (f / 128) ys[f / 128] (by simp [hq])
    have get : ∀ c, c < 2 → ((Thread.channelStream c (ys.map stereo)).take length).getD f 0 = Node.sample (ys[f / 128]).q c (f % 128) := by
      intro c hc
      rw [List.getD_eq_getElem?_getD, List.getElem?_take, if_pos hf]
      conv_lhs => rw [← hfq]
      rw [channelStream_at c hj, List.getElem?_map, List.getElem?_eq_getElem hq]
      match c, hc with
      | 0, _ => rfl
      | 1, _ => rfl
    rcases List.mem_cons.1 hb with rfl | hb
    · have := hy 0 (f % 128) (by omega) hj
      rw [hfq] at this
      rw [l2, get 0 (by omega)]
      exact this
    · rw [List.mem_singleton.1 hb]
      have := hy 1 (f % 128) (by omega) hj
      rw [hfq] at this
      rw [r2, get 1 (by omega)]
      exact this

/-- C113 for a live context: whatever the sizes of the buffers of the device, if the notes have been set up before the first of
its callbacks, the device gets, frame by frame (two samples per frame), the same sum of the notes. -/
theorem C113_live (e : Studio K Empty Empty) (hsr : 0 < e.sr) (hN : e.c.N = 128) (h0 : 0 ≤ e.c.thr) {ex : K → K} {pw : K → K → K}
    {lo hi : K} (hA : e.A lo hi = Param.exact ex pw lo hi) (vs : List (Voice K))
    (hv : ∀ v ∈ vs, Planned (Param.exact ex pw lo hi) v.offset v.offsets ∧ Planned (Param.exact ex pw lo hi) v.gain v.gains)
    {k : Nat} (hk : (calls lo hi 11 1 vs).length ≤ k) (buf : List K) (bufs : List (List K)) (hbufs : ∀ b ∈ buf :: bufs, b.length % 2 = 0) :
    ∃ s' out, Thread.run (worldSem e.timed stereo) 2 (buf :: bufs) (start e.timed .destination ⟨2, 2, 0⟩)
        [program e.timed.base (calls lo hi 11 1 vs ++ List.replicate k .recv)] = some (s', out, []) ∧
      out.length = ((buf :: bufs).map List.length).sum ∧
      ∀ f c, c < 2 → f * 2 + c < out.length →
        |out.getD (f * 2 + c) 0 - (vs.map fun v => v.source pw e.dt lo hi (f * e.dt) * v.level pw e.dt lo hi (f * e.dt)).sum| ≤
          e.c.thr * (vs.map fun v => |v.source pw e.dt lo hi (f * e.dt)|).sum := by
  obtain ⟨s2, hrun, b2⟩ := program_ready e hA vs hv hk
  have hs2 : (s2.g.slot 0).isSome = true := by rw [b2.slot]; rfl
  obtain ⟨s', out, o, r1, r2, r3, r4, r5⟩ := Thread.C100_untouched (worldSem e.timed (stereo (K := K))) (ch := 2) (by decide)
    (world_active e.timed stereo) (buf :: bufs) hbufs
    { (start e.timed .destination ⟨2, 2, 0⟩ : Thread.St (World (SProc K Empty) (MSig K e.c.N) (SMsg K Empty)) K) with
        graph := some (some s2) } (some s2) rfl hs2 rfl rfl rfl (fun _ => false)
  have hp := handle_program (K := K) e.timed.base _ (start e.timed .destination ⟨2, 2, 0⟩) _ rfl hrun
  have poll : (start e.timed .destination ⟨2, 2, 0⟩ : Thread.St (World (SProc K Empty) (MSig K e.c.N) (SMsg K Empty)) K).poll
        [program e.timed.base (calls lo hi 11 1 vs ++ List.replicate k .recv)] =
      ({ (start e.timed .destination ⟨2, 2, 0⟩ : Thread.St (World (SProc K Empty) (MSig K e.c.N) (SMsg K Empty)) K) with
        graph := some (some s2) }).poll [] := by
    unfold Thread.St.poll
    rw [if_pos (show (start e.timed .destination ⟨2, 2, 0⟩ : Thread.St (World (SProc K Empty) (MSig K e.c.N) (SMsg K Empty)) K).receiver = true from rfl),
      List.headD_cons, hp]
    rfl
  obtain ⟨o', l, r, p1, p2, p3, p4, p5⟩ := C113_program e hsr hN h0 hA vs hv (out.length / 2) (fun _ => false) hk
  have ho : o' = o := by
    have : Thread.offRender (worldSem e.timed (stereo (K := K))) (fun _ => false) 2 (out.length / 2) (out.length / 2) []
        (start e.timed .destination ⟨2, 2, 0⟩)
        [program e.timed.base (calls lo hi 11 1 vs ++ List.replicate k .recv)] = some ([], o) := by
      rw [← r3]
      simp only [Thread.offRender, poll]
    rw [p1] at this
    simpa using this
  subst ho
  refine ⟨s', out, ?_, r2, fun f c hc hf => ?_⟩
  · rw [← r1]
    have : ∀ (t : Thread.St (World (SProc K Empty) (MSig K e.c.N) (SMsg K Empty)) K) bs, t.offset = none →
        Thread.renderInner (worldSem e.timed (stereo (K := K))) 2 buf t bs = Thread.renderRest (worldSem e.timed stereo) 2 buf t bs := by
      intro t bs ht
      simp only [Thread.renderInner, ht]
    simp only [Thread.run]
    rw [this _ _ rfl, this _ _ rfl]
    simp only [Thread.renderRest, poll]
  · have even : ∀ l : List (List K), (∀ b ∈ l, b.length % 2 = 0) → (l.map List.length).sum % 2 = 0 := by
      intro l
      induction l with
      | nil => intro _; rfl
      | cons b l ih =>
        intro h
        have h1 := h b (by simp)
        have h2 := ih fun x hx => h x (by simp [hx])
        simp only [List.map_cons, List.sum_cons]
        omega
    have hev := even _ hbufs
    rw [← r2] at hev
    have hf' : f < out.length / 2 := by omega
    have key : ∀ b ∈ [l, r], ∀ c, b[f]? = out[f * 2 + c]? →
        |out.getD (f * 2 + c) 0 - (vs.map fun v => v.source pw e.dt lo hi (f * e.dt) * v.level pw e.dt lo hi (f * e.dt)).sum| ≤
          e.c.thr * (vs.map fun v => |v.source pw e.dt lo hi (f * e.dt)|).sum := by
      intro b hb c h
      have := p5 f hf' b hb
      rw [List.getD_eq_getElem?_getD, h, ← List.getD_eq_getElem?_getD] at this
      exact this
    match c, hc with
    | 0, _ => exact key l (by simp) 0 ((r5 0 l (by rw [p2]; rfl)).2 f hf')
    | 1, _ => exact key r (by simp) 1 ((r5 1 r (by rw [p2]; rfl)).2 f hf')

end

/-! ## A case that meets the hypotheses -/

/-- Two notes: one with an offset of 2, from 0.25 to 1.5 seconds, whose gain is given by a ramp to 1 at 2 seconds that is scheduled
before the value 0.5 at 1 second; one with the offset 3 and the gain 1, from 1 second on. -/
def tune2 : List (Voice ℚ) :=
  [{ offset := 2, gain := 0, gains := [⟨.linear, 1, 2, none⟩, ⟨.setValueAtTime, 1 / 2, 1, none⟩], start := 1 / 4, stop := some (3 / 2) },
   { offset := 3, gain := 1, start := 1 }]

theorem tune2_planned : ∀ v ∈ tune2, Planned (Param.exact (K := ℚ) (fun _ => 0) (fun _ _ => 0) (-100) 100) v.offset v.offsets ∧ Planned (Param.exact (K := ℚ) (fun _ => 0) (fun _ _ => 0) (-100) 100) v.gain v.gains := by
  have h : ∀ w : ℚ, Planned (Param.exact (K := ℚ) (fun _ => 0) (fun _ _ => 0) (-100) 100) w [] := fun w =>
    ⟨⟨by norm_num [Param.Simple, Param.sort], by norm_num [Param.sort], by norm_num [Param.Sorted, Param.sort], by simp, by
      norm_num [Param.sort]⟩, by simp⟩
  intro v hv
  simp only [tune2, List.mem_cons, List.not_mem_nil, or_false] at hv
  rcases hv with rfl | rfl
  · refine ⟨h _, ⟨⟨by norm_num [Param.Simple, Param.sort], by norm_num [Param.sort], by norm_num [Param.Sorted, Param.sort], by simp, by
      norm_num [Param.sort]
      exact ⟨nofun, nofun⟩⟩, by norm_num⟩⟩
  · exact ⟨h _, h _⟩

/-- the notes at times 0.125, 0.5, 1.25 and 2 -/
example : ([1 / 8, 1 / 2, 5 / 4, 2] : List ℚ).map (fun t => (tune2.map fun v =>
      v.source (fun _ _ => 0) (1 / 128) (-100) 100 t * v.level (fun _ _ => 0) (1 / 128) (-100) 100 t).sum) = [0, 0, 2 * (5 / 8) + 3, 3] := by
  decide +kernel

/-- two and a half seconds -/
example := C113_program studio (by show (0 : ℚ) < 128; norm_num) rfl (by show (0 : ℚ) ≤ 1 / 1000000; norm_num) (ex := fun _ => 0)
    (pw := fun _ _ => 0) (lo := -100) (hi := 100) rfl
  tune2 tune2_planned 320 (fun _ => false) le_rfl

example (b1 b2 : List ℚ) (h1 : b1.length = 200) (h2 : b2.length = 400) :=
  C113_live studio (by show (0 : ℚ) < 128; norm_num) rfl (by show (0 : ℚ) ≤ 1 / 1000000; norm_num) (ex := fun _ => 0)
    (pw := fun _ _ => 0) (lo := -100) (hi := 100) rfl
    tune2 tune2_planned le_rfl b1 [b2] (by simp [h1, h2])

end Verif.Whole
