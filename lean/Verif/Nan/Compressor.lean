import Verif.Nan.Model
import Verif.Compressor.GainProps

/-!
# C94: the compressor and samples that are not finite

The gains and the delay line of `DynamicsCompressorRenderer::process` (`/repo/src/node/dynamics_compressor.rs` l.331-478) on
numbers with NaN and infinities. Finite values are real numbers (no rounding, no overflow). The params are finite and in
their ranges.
-/

namespace Verif.Nan

open Verif.Node Verif.Compressor

noncomputable section

/-- `<=` of IEEE 754 -/
def X.le : X ℝ → X ℝ → Prop
  | .nan, _ => False
  | _, .nan => False
  | .inf true, _ => True
  | _, .inf false => True
  | .inf false, _ => False
  | _, .inf true => False
  | .fin a, .fin b => a ≤ b

/-- `<` of IEEE 754 -/
def X.lt : X ℝ → X ℝ → Prop
  | .nan, _ => False
  | _, .nan => False
  | _, .inf true => False
  | .inf false, _ => False
  | .inf true, _ => True
  | _, .inf false => True
  | .fin a, .fin b => a < b

instance : DecidableRel X.le := fun _ _ => Classical.dec _
instance : DecidableRel X.lt := fun _ _ => Classical.dec _

/-- `abs` -/
def X.abs : X ℝ → X ℝ
  | .nan => .nan
  | .inf _ => .inf false
  | .fin a => .fin |a|

instance : Mul (X ℝ) := ⟨X.mul⟩

/-- `lin_to_db`, l.18-27; the logarithm of a negative number is NaN -/
def linToDbX : X ℝ → X ℝ
  | .nan => .nan
  | .inf s => if s then .nan else .inf false
  | .fin v => if v = 0 then .fin (-1000) else if v < 0 then .nan else .fin (20 * Real.logb 10 v)

/-- `db_to_lin`, l.13-16 -/
def dbToLinX : X ℝ → X ℝ
  | .nan => .nan
  | .inf s => if s then .fin 0 else .inf false
  | .fin v => .fin (dbToLin v)

/-- the level of a frame, l.400-407 -/
def levelX (l : List (X ℝ)) : X ℝ :=
  l.foldl (fun m s => if m.lt s.abs then s.abs else m) (.fin (-((2 - 1 / 2 ^ 23) * 2 ^ 127)))

/-- the compression curve, l.417-423 -/
def curveX (p : Params) (x : X ℝ) : X ℝ :=
  if x.le (.fin (p.center - p.knee / 2)) then x
  else if x.le (.fin (p.center + p.knee / 2)) then
    let d := (x.sub (.fin p.center)).add (.fin (p.knee / 2))
    x.add ((d.mul d).mul (.fin ((1 / p.ratio - 1) / (2 * p.knee))))
  else (X.fin p.center).add ((x.sub (.fin p.center)).mul (.fin (1 / p.ratio)))

/-- the attenuation, l.425 -/
def attenuationX (p : Params) (l : List (X ℝ)) : X ℝ := (linToDbX (levelX l)).sub (curveX p (linToDbX (levelX l)))

/-- the detector, l.431-436 -/
def detectX (p : Params) (sr : ℝ) (d a : X ℝ) : X ℝ :=
  if d.lt a then ((X.fin (tau p.attack sr)).mul d).add ((X.fin (1 - tau p.attack sr)).mul a)
  else ((X.fin (tau p.release sr)).mul d).add ((X.fin (1 - tau p.release sr)).mul a)

/-- the frames of a quantum, l.397-445: the detector, and the gains in dB -/
def framesX (p : Params) (sr : ℝ) (d : X ℝ) : List (List (X ℝ)) → X ℝ × List (X ℝ)
  | [] => (d, [])
  | l :: ls =>
    let d' := detectX p sr d (attenuationX p l)
    ((framesX p sr d' ls).1, (d'.neg.add (.fin p.makeup)) :: (framesX p sr d' ls).2)

/-- frame `i` of a quantum, l.402-403 -/
def frameOfX (N : Nat) (q : Quantum (X ℝ)) (i : Nat) : List (X ℝ) := q.map fun c => (Chan.data N c).getD i 0

/-- The gain stage, l.351-450; `p` are the params by quantum. -/
def gainStageX (p : Nat → Params) (sr : ℝ) (N : Nat) : Nat × X ℝ → Quantum (X ℝ) → (Nat × X ℝ) × List (X ℝ) := fun s q =>
  let r := framesX (p s.1) sr s.2 ((List.range N).map (frameOfX N q))
  ((s.1 + 1, r.1), r.2.map dbToLinX)

/-- the value of `reduction` after a quantum, l.393, l.440, l.450 -/
def reductionX (p : Params) (sr : ℝ) (d : X ℝ) (ls : List (List (X ℝ))) : X ℝ := (framesX p sr d ls).2.getLastD 0

/-! ### specification -/

/-- A frame from which the detector does not recover: all channels are undefined, or one is infinite. -/
def Fatal (l : List (X ℝ)) : Prop := (∀ s ∈ l, s = X.nan) ∨ ∃ s ∈ l, ∃ b, s = X.inf b

/-- the channels of a frame that are finite -/
def finites (l : List (X ℝ)) : List ℝ := l.filterMap fun s => match s with
  | .fin v => some v
  | _ => none

/-! ### proofs -/

theorem add_nan (a : X ℝ) : a.add .nan = .nan := by cases a <;> rfl
theorem nan_add (a : X ℝ) : (X.nan).add a = .nan := by cases a <;> rfl
theorem mul_nan (a : X ℝ) : a.mul .nan = .nan := by cases a <;> rfl
theorem nan_mul (a : X ℝ) : (X.nan).mul a = .nan := by cases a <;> rfl

/-- the level of a frame: the one of the finite channels, unless a channel is infinite -/
theorem level_foldl (l : List (X ℝ)) : ∀ m : ℝ, (∀ s ∈ l, ∀ b, s ≠ X.inf b) →
    l.foldl (fun m s => if m.lt s.abs then s.abs else m) (X.fin m) =
      X.fin ((finites l).foldl (fun m s => if m < |s| then |s| else m) m) := by
  induction l with
  | nil => intro m _; rfl
  | cons s l ih =>
    intro m h
    have h' : ∀ s ∈ l, ∀ b, s ≠ X.inf b := fun x hx => h x (by simp [hx])
    cases s with
    | nan =>
      rw [List.foldl_cons]
      have : ¬ X.lt (X.fin m) (X.abs X.nan) := fun hh => hh
      rw [if_neg this, ih m h']
      rfl
    | inf b => exact absurd rfl (h (.inf b) (by simp) b)
    | fin v =>
      rw [List.foldl_cons]
      have e : finites (X.fin v :: l) = v :: finites l := rfl
      rw [e, List.foldl_cons]
      by_cases hv : m < |v|
      · rw [if_pos (show X.lt (X.fin m) (X.abs (X.fin v)) from hv), if_pos hv]
        exact ih |v| h'
      · rw [if_neg (show ¬ X.lt (X.fin m) (X.abs (X.fin v)) from hv), if_neg hv]
        exact ih m h'

theorem level_inf (l : List (X ℝ)) : ∀ m : X ℝ, (m = .inf false ∨ ((∃ v, m = .fin v) ∧ ∃ s ∈ l, ∃ b, s = X.inf b)) →
    l.foldl (fun m s => if m.lt s.abs then s.abs else m) m = X.inf false := by
  induction l with
  | nil =>
    intro m h
    rcases h with rfl | ⟨-, s, hs, -⟩
    · rfl
    · simp at hs
  | cons s l ih =>
    intro m h
    rw [List.foldl_cons]
    apply ih
    rcases h with rfl | ⟨⟨v, rfl⟩, s', hs', b, rfl⟩
    · left
      have : ¬ X.lt (X.inf false) s.abs := by
        intro hh
        cases s with
        | nan => exact hh
        | inf b => exact hh
        | fin v => exact hh
      rw [if_neg this]
    · rcases List.mem_cons.1 hs' with rfl | hs2
      · left
        rw [if_pos (show X.lt (X.fin v) (X.abs (X.inf b)) from trivial)]
        rfl
      · by_cases hh : X.lt (X.fin v) s.abs
        · rw [if_pos hh]
          cases s with
          | nan => exact absurd hh (fun h => h)
          | inf b' => left; rfl
          | fin w => right; exact ⟨⟨_, rfl⟩, _, hs2, b, rfl⟩
        · rw [if_neg hh]
          right; exact ⟨⟨_, rfl⟩, _, hs2, b, rfl⟩

/-- the attenuation of a fatal frame is undefined -/
theorem attenuation_fatal {p : Params} (hp : p.Valid) {l : List (X ℝ)} (h : Fatal l) : attenuationX p l = .nan := by
  rcases h with h | h
  · have hf : finites l = [] := by
      unfold finites
      rw [List.filterMap_eq_nil_iff]
      intro s hs
      rw [h s hs]
    have : linToDbX (levelX l) = .nan := by
      unfold levelX
      rw [level_foldl l _ (fun s hs b => by rw [h s hs]; simp), hf, List.foldl_nil]
      unfold linToDbX
      simp only
      rw [if_neg (by norm_num), if_pos (by norm_num)]
    unfold attenuationX
    rw [this, X.sub, nan_add]
  · have : linToDbX (levelX l) = .inf false := by
      unfold levelX
      rw [level_inf l _ (Or.inr ⟨⟨_, rfl⟩, h⟩)]
      rfl
    unfold attenuationX
    rw [this]
    have hc : curveX p (.inf false) = (X.fin p.center).add ((X.inf false).mul (.fin (1 / p.ratio))) := by
      unfold curveX
      have hle : ∀ v : ℝ, ¬ X.le (X.inf false) (X.fin v) := fun v h => h
      rw [if_neg (hle _), if_neg (hle _)]
      rfl
    have hr : 0 < 1 / p.ratio := by
      have := hp.ratio.1
      positivity
    rw [hc]
    simp only [X.mul, if_neg hr.ne', not_lt.2 hr.le, decide_false, Bool.xor_false, X.add, X.sub, X.neg]
    rfl

theorem detect_nan_left (p : Params) (sr : ℝ) (a : X ℝ) : detectX p sr .nan a = .nan := by
  unfold detectX
  split <;> rw [mul_nan, nan_add]

theorem detect_nan_right (p : Params) (sr : ℝ) (d : X ℝ) : detectX p sr d .nan = .nan := by
  unfold detectX
  split <;> rw [mul_nan, add_nan]

theorem frames_nan (p : Params) (sr : ℝ) (ls : List (List (X ℝ))) :
    framesX p sr .nan ls = (.nan, List.replicate ls.length .nan) := by
  induction ls with
  | nil => rfl
  | cons l ls ih =>
    simp only [framesX, detect_nan_left, ih]
    rfl

theorem frames_fatal {p : Params} (hp : p.Valid) (sr : ℝ) (ls : List (List (X ℝ))) (h : ∃ l ∈ ls, Fatal l) :
    ∀ d : X ℝ, (framesX p sr d ls).1 = .nan := by
  induction ls with
  | nil => simp at h
  | cons l ls ih =>
    intro d
    simp only [framesX]
    obtain ⟨l', hl', hf⟩ := h
    rcases List.mem_cons.1 hl' with rfl | hl'
    · rw [attenuation_fatal hp hf, detect_nan_right, frames_nan]
    · exact ih ⟨l', hl', hf⟩ _

theorem gains_nan (p : Nat → Params) (sr : ℝ) (N : Nat) (qs : List (Quantum (X ℝ))) : ∀ n t : Nat, t < qs.length →
    (gainsOf (gainStageX p sr N) (n, .nan) qs).getD t [] = List.replicate N .nan := by
  induction qs with
  | nil => intro n t h; simp at h
  | cons q qs ih =>
    intro n t h
    have hg : gainStageX p sr N (n, .nan) q = ((n + 1, .nan), List.replicate N .nan) := by
      simp [gainStageX, frames_nan, dbToLinX]
    cases t with
    | zero => simp [gainsOf, hg]
    | succ t =>
      simp only [gainsOf, hg, List.getD_cons_succ]
      exact ih (n + 1) t (by simpa using h)

theorem gains_after {p : Nat → Params} (hp : ∀ t, (p t).Valid) (sr : ℝ) (N : Nat) (qs : List (Quantum (X ℝ))) :
    ∀ (n : Nat) (d : X ℝ) (t0 t : Nat) (q : Quantum (X ℝ)), qs[t0]? = some q → (∃ i < N, Fatal (frameOfX N q i)) →
      t0 < t → t < qs.length → (gainsOf (gainStageX p sr N) (n, d) qs).getD t [] = List.replicate N .nan := by
  induction qs with
  | nil => intro n d t0 t q hq; simp at hq
  | cons q' qs ih =>
    intro n d t0 t q hq hf ht htl
    obtain ⟨t, rfl⟩ : ∃ t', t = t' + 1 := ⟨t - 1, by omega⟩
    simp only [gainsOf, List.getD_cons_succ]
    cases t0 with
    | zero =>
      simp only [List.getElem?_cons_zero, Option.some.injEq] at hq
      subst hq
      have : (gainStageX p sr N (n, d) q').1 = (n + 1, .nan) := by
        simp only [gainStageX]
        rw [frames_fatal (hp n) sr _ ?_ d]
        obtain ⟨i, hi, hfi⟩ := hf
        exact ⟨_, List.mem_map.2 ⟨i, by simpa using hi, rfl⟩, hfi⟩
      rw [this]
      exact gains_nan p sr N qs (n + 1) t (by simpa using htl)
    | succ t0 =>
      simp only [List.getElem?_cons_succ] at hq
      exact ih (n + 1) _ t0 t q hq hf (by omega) (by simpa using htl)

/-- C94 is false: one sample that is infinite, or undefined in all channels, and the compressor never recovers: all sound
after it is output as NaN, whatever the params are. -/
theorem C94_negated {p : Nat → Params} (hp : ∀ t, (p t).Valid) (sr : ℝ) {R N : Nat} (hR : 0 < R) (d : X ℝ)
    (ins : List (Quantum (X ℝ))) (hN : ∀ q ∈ ins, ∀ l, some l ∈ q → l.length = N) {t0 : Nat} {q : Quantum (X ℝ)}
    (hq : ins[t0]? = some q) (hf : ∃ i < N, Fatal (frameOfX N q i)) {t : Nat} (ht : t0 < t) (htl : t < ins.length)
    (hRt : R ≤ t + 1) {x : Quantum (X ℝ)} (hx : ins[t + 1 - R]? = some x) (hs : isSilent x = false) :
    ((Comp.new (0, d)).run R N (gainStageX p sr N) ins).2[t]? =
      some (x.map fun _ => some (List.replicate N .nan), true) := by
  obtain ⟨_, _, h3⟩ := run_spec (N := N) hR (gainStageX p sr N) ins (Comp.new (0, d)) [] (ring_new (0, d))
  obtain ⟨y, hy, ho⟩ := h3 t htl
  have hyx : y = x := by
    simp only [List.nil_append, List.length_nil, Nat.zero_add] at hy
    unfold hist at hy
    rw [List.getElem?_append_right (by simpa using hRt), List.length_replicate, hx, Option.some.injEq] at hy
    exact hy.symm
  rw [ho, hyx, hs]
  have hg : (gainsOf (gainStageX p sr N) (Comp.new (0, d) : Comp (X ℝ) (Nat × X ℝ)).det ins).getD t [] =
      List.replicate N .nan := gains_after hp sr N ins 0 d t0 t q hq hf ht htl
  rw [hg]
  simp only [Bool.false_eq_true, if_false, Option.some.injEq, Prod.mk.injEq, and_true]
  unfold scale
  apply List.map_congr_left
  intro c hc
  have hcl : (Chan.data N c).length = N := by
    cases c with
    | none => simp [Chan.data]
    | some l => exact hN x (List.mem_of_getElem? hx) l hc
  congr 1
  rw [List.eq_replicate_iff]
  refine ⟨by simp [hcl], fun z hz => ?_⟩
  rw [List.mem_iff_getElem] at hz
  obtain ⟨i, hi, rfl⟩ := hz
  rw [List.getElem_zipWith, List.getElem_replicate]
  exact mul_nan _

/-- C94 is false for the metering as well: `reduction` is NaN from then on. -/
theorem C94_negated_reduction {p p' : Params} (hp : p.Valid) (sr : ℝ) (d : X ℝ) (ls ls' : List (List (X ℝ)))
    (h : ∃ l ∈ ls, Fatal l) (h' : ls' ≠ []) : reductionX p' sr (framesX p sr d ls).1 ls' = .nan := by
  rw [frames_fatal hp sr ls h, reductionX, frames_nan]
  cases ls' with
  | nil => exact absurd rfl h'
  | cons l ls' =>
    show (List.replicate (ls'.length + 1) X.nan).getLastD 0 = _
    rw [List.replicate_succ', List.getLastD_concat]

/-- finite frames in the order of numbers -/
theorem curve_fin (p : Params) (x : ℝ) : curveX p (.fin x) = .fin (p.curve x) := by
  unfold curveX Params.curve
  by_cases h1 : x ≤ p.center - p.knee / 2
  · rw [if_pos (show X.le (X.fin x) (X.fin (p.center - p.knee / 2)) from h1), if_pos h1]
  · rw [if_neg (show ¬ X.le (X.fin x) (X.fin (p.center - p.knee / 2)) from h1), if_neg h1]
    by_cases h2 : x ≤ p.center + p.knee / 2
    · rw [if_pos (show X.le (X.fin x) (X.fin (p.center + p.knee / 2)) from h2), if_pos h2]
      simp only [X.sub, X.neg, X.add, X.mul]
      congr 1
      ring
    · rw [if_neg (show ¬ X.le (X.fin x) (X.fin (p.center + p.knee / 2)) from h2), if_neg h2]
      simp only [X.sub, X.neg, X.add, X.mul]
      congr 1
      ring

/-- C94, when no frame is infinite in a channel or undefined in all: the gains are those that the finite channels ask for,
as in `C59_curve` etc. -/
theorem C94_gains_partial (p : Params) (sr : ℝ) (ls : List (List (X ℝ))) (hi : ∀ l ∈ ls, ∀ s ∈ l, ∀ b, s ≠ X.inf b)
    (hn : ∀ l ∈ ls, ∃ v, X.fin v ∈ l) : ∀ d : ℝ, framesX p sr (.fin d) ls =
      (.fin (p.frames sr d (ls.map finites)).1, (p.frames sr d (ls.map finites)).2.map X.fin) := by
  induction ls with
  | nil => intro d; rfl
  | cons l ls ih =>
    intro d
    have hlev : levelX l = .fin (level (finites l)) := level_foldl l _ (hi l (by simp))
    have hne : finites l ≠ [] := by
      obtain ⟨v, hv⟩ := hn l (by simp)
      exact List.ne_nil_of_mem (List.mem_filterMap.2 ⟨_, hv, rfl⟩)
    have hpos : ¬ level (finites l) < 0 := by
      obtain ⟨s, -, hs⟩ := (C59_level hne).2
      rw [hs]
      exact not_lt.2 (abs_nonneg s)
    have hdb : linToDbX (levelX l) = .fin (linToDb (level (finites l))) := by
      rw [hlev]
      unfold linToDbX linToDb
      simp only [if_neg hpos]
      split <;> rfl
    have hatt : attenuationX p l = .fin (p.attenuation (finites l)) := by
      unfold attenuationX Params.attenuation
      rw [hdb, curve_fin]
      simp only [X.sub, X.neg, X.add, sub_eq_add_neg]
    have hdet : detectX p sr (.fin d) (attenuationX p l) = .fin (p.detect sr d (p.attenuation (finites l))) := by
      rw [hatt]
      unfold detectX Params.detect
      by_cases h : d < p.attenuation (finites l)
      · rw [if_pos (show X.lt (X.fin d) (X.fin _) from h), if_pos h]; rfl
      · rw [if_neg (show ¬ X.lt (X.fin d) (X.fin _) from h), if_neg h]; rfl
    simp only [framesX, hdet, List.map_cons, Params.frames]
    rw [ih (fun l hl => hi l (by simp [hl])) (fun l hl => hn l (by simp [hl]))]
    rfl

/-! ### examples -/

/-- a stereo frame with one undefined channel is not fatal -/
example : ¬ Fatal [X.nan, X.fin 1] := by
  rintro (h | ⟨s, hs, b, rfl⟩)
  · exact absurd (h (X.fin 1) (by simp)) (by simp)
  · simp at hs

example : framesX defaultParams 44100 (.fin 0) [[X.nan, X.fin 0]] =
    (.fin (defaultParams.frames 44100 0 [[0]]).1, (defaultParams.frames 44100 0 [[0]]).2.map X.fin) :=
  C94_gains_partial _ _ _ (by simp) (by simp) 0

/-- one undefined sample in the middle of a mono signal, ring of two quanta of two frames -/
example : ((Comp.new (0, .fin 0)).run 2 2 (gainStageX (fun _ => defaultParams) 44100 2)
      [[some [.fin 1, .nan]], [some [.fin 1, .fin 1]], [some [.fin 1, .fin 1]]]).2[2]? =
    some ([some [.nan, .nan]], true) := by
  have hv : defaultParams.Valid := by unfold defaultParams; constructor <;> norm_num
  refine C94_negated (p := fun _ => defaultParams) (fun _ => hv) 44100 (R := 2) (N := 2) (by omega) (.fin 0)
    [[some [.fin 1, .nan]], [some [.fin 1, .fin 1]], [some [.fin 1, .fin 1]]] (by simp) (t0 := 0) (t := 2)
    (q := [some [.fin 1, .nan]]) (x := [some [.fin 1, .fin 1]]) rfl ?_ (by omega) (by simp) (by omega) rfl rfl
  exact ⟨1, by omega, Or.inl (by simp [frameOfX, Chan.data])⟩

end

end Verif.Nan
