import Verif.Create.Model

/-!
# C90: nodes are created with the documented parameters

Specification: the table `documented` (from the Web Audio specification), the values of the options brought into the
nominal range, and the order of the messages that the render thread needs.
-/

namespace Verif.Create

open Verif.Param (Fl Proc Arith AllSet lastValue)

/-- What the specification says about a parameter. -/
structure Doc (K : Type) where
  name : String
  dflt : K
  mn : K
  mx : K
  aRate : Bool
  constrained : Bool

section spec
variable {K : Type} [Field K]

/-- The most positive single float. -/
def singleMax : K := (2 - 2 / 2 ^ 24) * 2 ^ 127

/-- a parameter without limits -/
def free (name : String) (dflt : K) : Doc K := ⟨name, dflt, -singleMax, singleMax, true, false⟩

/-- The parameters of the nodes in the specification. -/
def documented (log10 : K → K) (sr md : K) : Kind → List (Doc K)
  | .gain => [free "gain" 1]
  | .constantSource => [free "offset" 1]
  | .stereoPanner => [⟨"pan", 0, -1, 1, true, false⟩]
  | .biquadFilter => [free "Q" 1, ⟨"detune", 0, -153600, 153600, true, false⟩,
      ⟨"frequency", 350, 0, sr / 2, true, false⟩, ⟨"gain", 0, -singleMax, 40 * log10 singleMax, true, false⟩]
  | .oscillator => [⟨"frequency", 440, -(sr / 2), sr / 2, true, false⟩,
      ⟨"detune", 0, -153600, 153600, true, false⟩]
  | .bufferSource => [⟨"detune", 0, -singleMax, singleMax, false, true⟩,
      ⟨"playbackRate", 1, -singleMax, singleMax, false, true⟩]
  | .compressor => [⟨"attack", 3 / 1000, 0, 1, false, true⟩, ⟨"knee", 30, 0, 40, false, true⟩,
      ⟨"ratio", 12, 1, 20, false, true⟩, ⟨"release", 25 / 100, 0, 1, false, true⟩,
      ⟨"threshold", -24, -100, 0, false, true⟩]
  | .panner => [free "positionX" 0, free "positionY" 0, free "positionZ" 0, free "orientationX" 1,
      free "orientationY" 0, free "orientationZ" 0]
  | .delay => [⟨"delayTime", 0, 0, md, true, false⟩]
  | .listener => [free "positionX" 0, free "positionY" 0, free "positionZ" 0, free "forwardX" 0, free "forwardY" 0,
      free "forwardZ" (-1), free "upX" 0, free "upY" 1, free "upZ" 0]

end spec

/-- What the user sees of a parameter. -/
def Ctl.doc {K : Type} (c : Ctl K) : Doc K := ⟨c.name, c.dflt, c.mn, c.mx, c.aRate, c.constrained⟩

section
variable {K : Type} [Field K] [LinearOrder K] [IsStrictOrderedRing K]

/-- The value of a parameter after the construction: the option, brought into the nominal range; the listener has no
options. -/
def initial (kind : Kind) (opt : String → K) (d : Doc K) : K :=
  if kind = .listener then d.dflt else max d.mn (min d.mx (opt d.name))

theorem fmax_eq : (fmax : K) = singleMax := by
  unfold fmax singleMax
  have : (2 : K) ^ 24 ≠ 0 := by positivity
  field_simp

theorem fmax_ge : (1000000 : K) ≤ fmax := by unfold fmax; norm_num

/-- What the actions do with the parameters (without messages). -/
def pact (ids : Nat → Nat) (ps : List (Ctl K)) : Act K → Option (List (Ctl K))
  | .param d => (audioParamPair d (ids ps.length)).map fun r => ps ++ [r.1]
  | .constrain i => some (ps.modify i fun c => { c with constrained := true })
  | .set i v =>
    match ps[i]?, v with
    | some c, .fin x => some (ps.set i { c with current := c.clamp x })
    | _, _ => none

def pacts (ids : Nat → Nat) : List (Ctl K) → List (Act K) → Option (List (Ctl K))
  | ps, [] => some ps
  | ps, a :: as => (pact ids ps a).bind fun t => pacts ids t as

omit [IsStrictOrderedRing K] in
theorem act_params (n : Nat) (ids : Nat → Nat) (s : St K) (a : Act K) :
    (s.act n ids a).map St.params = pact ids s.params a := by
  cases a with
  | param d =>
    simp only [St.act, pact]
    cases audioParamPair d (ids s.params.length) with
    | none => rfl
    | some r => rfl
  | constrain i => rfl
  | set i v =>
    simp only [St.act, pact]
    cases s.params[i]? with
    | none => rfl
    | some c => cases v <;> rfl

omit [IsStrictOrderedRing K] in
theorem acts_params (n : Nat) (ids : Nat → Nat) (as : List (Act K)) (s : St K) :
    (s.acts n ids as).map St.params = pacts ids s.params as := by
  induction as generalizing s with
  | nil => rfl
  | cons a as ih =>
    unfold St.acts pacts
    rw [← act_params n ids s a]
    cases s.act n ids a with
    | none => rfl
    | some t => simpa using ih t

omit [IsStrictOrderedRing K] in
theorem create_params {n : Nat} {ids : Nat → Nat} {as : List (Act K)} {ps : List (Ctl K)}
    (h : pacts ids [] as = some ps) : ∃ s, create n ids as = some s ∧ s.params = ps := by
  have := acts_params n ids as ({} : St K)
  rw [h] at this
  unfold create
  cases hs : St.acts n ids ({} : St K) as with
  | none => rw [hs] at this; cases this
  | some t =>
    rw [hs] at this
    refine ⟨_, rfl, ?_⟩
    simpa [St.register] using this

omit [IsStrictOrderedRing K] in
theorem pacts_param {ids : Nat → Nat} {ps : List (Ctl K)} {nm : String} {r : Bool} {x a b : K} (h1 : a ≤ x) (h2 : x ≤ b)
    (as : List (Act K)) :
    pacts ids ps (.param ⟨nm, r, .fin x, .fin a, .fin b⟩ :: as) =
      pacts ids (ps ++ [⟨nm, ids ps.length, x, a, b, false, r, x⟩]) as := by
  simp [pacts, pact, audioParamPair, h1, h2]

omit [IsStrictOrderedRing K] in
theorem pacts_constrain {ids : Nat → Nat} {ps : List (Ctl K)} {i : Nat} (as : List (Act K)) :
    pacts ids ps (.constrain i :: as) = pacts ids (ps.modify i fun c => { c with constrained := true }) as := rfl

omit [IsStrictOrderedRing K] in
theorem pacts_set {ids : Nat → Nat} {ps : List (Ctl K)} {i : Nat} {x : K} {c : Ctl K} (h : ps[i]? = some c)
    (as : List (Act K)) :
    pacts ids ps (.set i (.fin x) :: as) = pacts ids (ps.set i { c with current := c.clamp x }) as := by
  simp [pacts, pact, h]

set_option maxHeartbeats 2000000 in
/-- C90: with finite options every constructor succeeds, for all valid sample rates and maximal delays; the created
node has exactly the documented parameters, with their limits, defaults and rates, and `value` is the option brought
into the nominal range (with the options by default, the default value). -/
theorem C90_documented {log10 : K → K} (hlog : 0 ≤ log10 singleMax) {sr md : K} (hsr : 3000 ≤ sr) (hmd : 0 ≤ md)
    (kind : Kind) (opt : String → K) (n : Nat) (ids : Nat → Nat) :
    ∃ s, create n ids (kind.closure log10 sr md fun x => .fin (opt x)) = some s ∧
      s.params.map Ctl.doc = documented log10 sr md kind ∧
      s.params.map (·.current) = (documented log10 sr md kind).map (initial kind opt) := by
  have hf := fmax_ge (K := K)
  have h0 : (0 : K) ≤ fmax := by linarith
  have h1 : (1 : K) ≤ fmax := by linarith
  have hn0 : -(fmax : K) ≤ 0 := by linarith
  have hn1 : -(fmax : K) ≤ 1 := by linarith
  have hnn : -(fmax : K) ≤ -1 := by linarith
  have hmm : -(1 : K) ≤ fmax := by linarith
  have hb1 : (350 : K) ≤ sr / 2 := by linarith
  have hb2 : (440 : K) ≤ sr / 2 := by linarith
  have hb3 : -(sr / 2) ≤ (440 : K) := by linarith
  have hlog' : 0 ≤ 40 * log10 fmax := by rw [fmax_eq]; linarith
  have hss : -(sr / 2) ≤ sr / 2 := by linarith
  have hs0 : 0 ≤ sr / 2 := by linarith
  have hfl : -fmax ≤ 40 * log10 fmax := by linarith
  have hff : -(fmax : K) ≤ fmax := by linarith
  have hcl : ∀ {a b : K} (x : K), a ≤ b → min (max x a) b = max a (min b x) := by
    intro a b x hab
    rw [max_comm x a, min_comm, max_min_distrib_left, max_eq_right hab, min_comm]
  suffices h : ∃ ps, pacts ids [] (kind.closure log10 sr md fun x => .fin (opt x)) = some ps ∧
      ps.map Ctl.doc = documented log10 sr md kind ∧
      ps.map (·.current) = (documented log10 sr md kind).map (initial kind opt) by
    obtain ⟨ps, hp, g1, g2⟩ := h
    obtain ⟨s, hs, rfl⟩ := create_params (n := n) hp
    exact ⟨s, hs, g1, g2⟩
  cases kind <;> simp only [Kind.closure, paramOpts] <;>
    repeat first
      | rw [pacts_param (by first | assumption | norm_num | linarith) (by first | assumption | norm_num | linarith)]
      | rw [pacts_constrain]
      | rw [pacts_set rfl]
  all_goals
    refine ⟨_, rfl, ?_, ?_⟩
    · simp [Ctl.doc, documented, free, ← fmax_eq, List.modify_cons] <;> norm_num
    · simp [Ctl.doc, documented, free, initial, Ctl.clamp, ← fmax_eq, hcl, hff, hfl, hs0, hss, hmd, List.modify_cons] <;> norm_num

omit [IsStrictOrderedRing K] in
theorem pacts_bad {ids : Nat → Nat} {i : Nat} {v : Fl K} (hv : ∀ x, v ≠ .fin x) (as : List (Act K))
    (h : Act.set i v ∈ as) (ps : List (Ctl K)) : pacts ids ps as = none := by
  induction as generalizing ps with
  | nil => cases h
  | cons a as ih =>
    unfold pacts
    rcases List.mem_cons.1 h with rfl | h
    · have : pact ids ps (.set i v) = none := by
        simp only [pact]
        cases ps[i]? with
        | none => rfl
        | some c =>
          cases v with
          | fin x => exact absurd rfl (hv x)
          | nan => rfl
          | pinf => rfl
          | ninf => rfl
      rw [this]
      rfl
    · cases pact ids ps a with
      | none => rfl
      | some t => exact ih h t

/-- C90: a value in the options that is NaN or infinite is refused (the constructor panics), whatever the others. -/
theorem C90_refused (log10 : K → K) (sr md : K) (kind : Kind) (hk : kind ≠ .listener) (opt : String → Fl K)
    {d : Doc K} (hd : d ∈ documented log10 sr md kind) (hbad : ∀ x, opt d.name ≠ .fin x) (n : Nat) (ids : Nat → Nat) :
    create n ids (kind.closure log10 sr md opt) = none := by
  suffices h : ∃ i, Act.set i (opt d.name) ∈ kind.closure log10 sr md opt by
    obtain ⟨i, hi⟩ := h
    have := acts_params n ids (kind.closure log10 sr md opt) ({} : St K)
    rw [pacts_bad hbad _ hi] at this
    unfold create
    cases hs : St.acts n ids ({} : St K) (kind.closure log10 sr md opt) with
    | none => rfl
    | some t => rw [hs] at this; cases this
  cases kind <;> simp only [documented, free, List.mem_cons, List.not_mem_nil, or_false] at hd <;>
    simp only [Kind.closure, List.mem_cons, List.not_mem_nil, or_false, reduceCtorEq, false_or, Act.set.injEq]
  case listener => exact absurd rfl hk
  case gain => subst hd; exact ⟨0, by simp⟩
  case constantSource => subst hd; exact ⟨0, by simp⟩
  case stereoPanner => subst hd; exact ⟨0, by simp⟩
  case delay => subst hd; exact ⟨0, by simp⟩
  case oscillator => rcases hd with rfl | rfl; exacts [⟨0, by simp⟩, ⟨1, by simp⟩]
  case bufferSource => rcases hd with rfl | rfl; exacts [⟨0, by simp⟩, ⟨1, by simp⟩]
  case biquadFilter => rcases hd with rfl | rfl | rfl | rfl; exacts [⟨0, by simp⟩, ⟨1, by simp⟩, ⟨2, by simp⟩, ⟨3, by simp⟩]
  case compressor =>
    rcases hd with rfl | rfl | rfl | rfl | rfl
    exacts [⟨0, by simp⟩, ⟨1, by simp⟩, ⟨2, by simp⟩, ⟨3, by simp⟩, ⟨4, by simp⟩]
  case panner =>
    rcases hd with rfl | rfl | rfl | rfl | rfl | rfl
    exacts [⟨0, by simp⟩, ⟨1, by simp⟩, ⟨2, by simp⟩, ⟨3, by simp⟩, ⟨4, by simp⟩, ⟨5, by simp⟩]

/-- C90, worklets: with consistent descriptors and finite data the parameters are as described, with the value of the
data brought into the range, or the default value. -/
theorem C90_worklet {data : String → Option K} {ds : List (Doc K)} (hds : ∀ d ∈ ds, d.mn ≤ d.dflt ∧ d.dflt ≤ d.mx)
    (hc : ∀ d ∈ ds, d.constrained = false) (n : Nat) (ids : Nat → Nat) :
    ∃ s, create n ids (workletClosure (fun x => (data x).map Fl.fin) 0
        (ds.map fun d => ⟨d.name, d.aRate, .fin d.dflt, .fin d.mn, .fin d.mx⟩)) = some s ∧
      s.params.map Ctl.doc = ds ∧
      s.params.map (·.current) = ds.map fun d => ((data d.name).map fun x => max d.mn (min d.mx x)).getD d.dflt := by
  have hcl : ∀ {a b : K} (x : K), a ≤ b → min (max x a) b = max a (min b x) := by
    intro a b x hab
    rw [max_comm x a, min_comm, max_min_distrib_left, max_eq_right hab, min_comm]
  suffices h : ∀ (ds : List (Doc K)), (∀ d ∈ ds, d.mn ≤ d.dflt ∧ d.dflt ≤ d.mx) → (∀ d ∈ ds, d.constrained = false) →
      ∀ ps : List (Ctl K), ∃ qs, pacts ids ps (workletClosure (fun x => (data x).map Fl.fin) ps.length
        (ds.map fun d => ⟨d.name, d.aRate, .fin d.dflt, .fin d.mn, .fin d.mx⟩)) = some (ps ++ qs) ∧
      qs.map Ctl.doc = ds ∧
      qs.map (·.current) = ds.map fun d => ((data d.name).map fun x => max d.mn (min d.mx x)).getD d.dflt by
    obtain ⟨ps, hp, g1, g2⟩ := h ds hds hc []
    obtain ⟨s, hs, hsp⟩ := create_params (n := n) hp
    rw [List.nil_append] at hsp
    subst hsp
    exact ⟨s, hs, g1, g2⟩
  intro ds
  induction ds with
  | nil => intro _ _ ps; exact ⟨[], by simp [workletClosure, pacts], rfl, rfl⟩
  | cons d ds ih =>
    intro hds hc ps
    obtain ⟨h1, h2⟩ := hds d (by simp)
    have hcd := hc d (by simp)
    simp only [List.map_cons, workletClosure]
    rw [pacts_param h1 h2]
    cases hdat : data d.name with
    | none =>
      simp only [Option.map_none, Option.elim_none, List.nil_append]
      obtain ⟨qs, hq, g1, g2⟩ := ih (fun d hd => hds d (by simp [hd])) (fun d hd => hc d (by simp [hd]))
        (ps ++ [⟨d.name, ids ps.length, d.dflt, d.mn, d.mx, false, d.aRate, d.dflt⟩])
      rw [List.length_append, List.length_singleton] at hq
      rw [hq]
      refine ⟨_ :: qs, by rw [List.append_assoc]; rfl, ?_, ?_⟩
      · simp only [List.map_cons, g1, Ctl.doc, ← hcd]
      · simp only [List.map_cons, g2, Option.getD_none]
    | some v =>
      simp only [Option.map_some, Option.elim_some, List.cons_append, List.nil_append]
      rw [pacts_set (c := ⟨d.name, ids ps.length, d.dflt, d.mn, d.mx, false, d.aRate, d.dflt⟩) (by simp)]
      obtain ⟨qs, hq, g1, g2⟩ := ih (fun d hd => hds d (by simp [hd])) (fun d hd => hc d (by simp [hd]))
        (ps ++ [⟨d.name, ids ps.length, d.dflt, d.mn, d.mx, false, d.aRate, max d.mn (min d.mx v)⟩])
      rw [List.length_append, List.length_singleton] at hq
      have hset : (ps ++ [(⟨d.name, ids ps.length, d.dflt, d.mn, d.mx, false, d.aRate, d.dflt⟩ : Ctl K)]).set ps.length
          ⟨d.name, ids ps.length, d.dflt, d.mn, d.mx, false, d.aRate, max d.mn (min d.mx v)⟩ =
          ps ++ [⟨d.name, ids ps.length, d.dflt, d.mn, d.mx, false, d.aRate, max d.mn (min d.mx v)⟩] := by
        simp
      simp only [Ctl.clamp, hcl v (le_trans h1 h2)]
      rw [hset, hq]
      refine ⟨_ :: qs, by rw [List.append_assoc]; rfl, ?_, ?_⟩
      · simp only [List.map_cons, g1, Ctl.doc, ← hcd]
      · simp only [List.map_cons, g2, Option.getD_some]

omit [Field K] [LinearOrder K] [IsStrictOrderedRing K] in
/-- C90, rates: a parameter with a constrained rate refuses another rate (and only this), and otherwise the getter and
the message to the render thread are the rate that was set. -/
theorem C90_rate (c : Ctl K) (r : Bool) :
    (c.setRate r = none ↔ c.doc.constrained = true ∧ r ≠ c.doc.aRate) ∧
    ∀ c' m, c.setRate r = some (c', m) → c'.doc = { c.doc with aRate := r } ∧ m = r ∧ c'.current = c.current := by
  unfold Ctl.setRate Ctl.doc
  dsimp only
  constructor
  · split
    · rename_i h
      simp only [reduceCtorEq, false_iff, not_and, not_not]
      intro hc
      rcases h with h | h
      · rw [h] at hc; cases hc
      · exact h
    · rename_i h
      rw [not_or] at h
      simpa using h
  · intro c' m h
    split at h
    · cases h; exact ⟨rfl, rfl, rfl⟩
    · cases h

end

/-! ## Examples -/

/-- an oscillator at 48000 Hz with options beyond the range -/
example : (create 7 id (Kind.closure (K := ℚ) (fun _ => 38) 48000 1 (fun x => .fin (if x = "frequency" then 30000 else 5))
    .oscillator)).map (fun s => s.params.map (·.current)) = some [24000, 5] := by decide +kernel

/-- a NaN frequency -/
example : (create 7 id (Kind.closure (K := ℚ) (fun _ => 38) 48000 1 (fun x => if x = "frequency" then .nan else .fin 5)
    .oscillator)).isNone = true := by decide +kernel

/-- a worklet with one parameter with data and one without -/
example : (create 7 id (workletClosure (K := ℚ) (fun x => if x = "gain" then some (.fin 3) else none) 0
    [⟨"gain", true, .fin 1, .fin 0, .fin 2⟩, ⟨"pan", false, .fin 0, .fin (-1), .fin 1⟩])).map
    (fun s => s.params.map (·.current)) = some [2, 0] := by decide +kernel

/-- the playback rate is a k-rate parameter for good, the gain is not -/
example : (create 7 id (Kind.closure (K := ℚ) (fun _ => 38) 48000 1 (fun _ => .fin 1) .bufferSource)).map
      (fun s => s.params.map fun c => ((c.setRate true).isSome, (c.setRate false).isSome)) =
        some [(false, true), (false, true)] ∧
    (create 7 id (Kind.closure (K := ℚ) (fun _ => 38) 48000 1 (fun _ => .fin 1) .gain)).map
      (fun s => s.params.map fun c => ((c.setRate true).isSome, (c.setRate false).isSome)) = some [(true, true)] := by
  decide +kernel

end Verif.Create
