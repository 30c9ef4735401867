import Verif.Mix.Layouts
import Verif.Float.Error

/-!
# Mixing with rounding

`AudioRenderQuantum::add` and `mix` (`/repo/src/render/quantum.rs` l.113-120, l.274-505, l.532-569) with a rounding after every operation on
samples, as in `f32`; `mul_add` rounds once. `r` is the rounded value of sqrt(0.5). Otherwise as `Verif.Mix.Model`.
-/

namespace Verif.Mix

open Float

section
variable {K : Type} [Field K]

/-! ## The model -/

/-- `AudioRenderQuantumChannel::add`, l.113-120 -/
def Chan.addR (rd : K → K) (next : Nat) (a b : Chan K) : Chan K × Nat :=
  if a.isSilent then (b, next)
  else if b.isSilent then (a, next)
  else (⟨next, fun i => rd (a.data i + b.data i)⟩, next + 1)

/-- `mix_inner`, l.285-505 -/
def mixInnerR (rd : K → K) (r : K) (next : Nat) (cs : List (Chan K)) (m : Nat) (interp : Interp) :
    List (Chan K) × Nat :=
  if interp = .discrete ∨ cs.length > 6 ∨ m > 6 then (fill cs m, next)
  else match cs, m with
    | [a], 2 => ([a, a], next)
    | [a], 4 => ([a, a, zero, zero], next)
    | [a], 6 => ([zero, zero, a, zero, zero, zero], next)
    | [a, b], 4 => ([a, b, zero, zero], next)
    | [a, b], 6 => ([a, b, zero, zero, zero, zero], next)
    | [a, b, sl, sr], 5 => ([a, b, zero, sl, sr], next)
    | [a, b, sl, sr], 6 => ([a, b, zero, zero, sl, sr], next)
    | [a, b], 1 => ([⟨next, fun i => rd (1 / 2 * rd (a.data i + b.data i))⟩], next + 1)
    | [a, b, sl, sr], 1 =>
      ([⟨next, fun i => rd (1 / 4 * rd (rd (rd (a.data i + b.data i) + sl.data i) + sr.data i))⟩], next + 1)
    | [a, b, c, _, sl, sr], 1 =>
      ([⟨next, fun i => rd (r * rd (a.data i + b.data i) + rd (1 / 2 * rd (sl.data i + sr.data i) + c.data i))⟩],
        next + 1)
    | [a, b, sl, sr], 2 =>
      ([⟨next, fun i => rd (1 / 2 * rd (a.data i + sl.data i))⟩,
        ⟨next + 1, fun i => rd (1 / 2 * rd (b.data i + sr.data i))⟩], next + 2)
    | [a, b, c, _, sl, sr], 2 =>
      ([⟨next, fun i => rd (a.data i + rd (r * rd (c.data i + sl.data i)))⟩,
        ⟨next + 1, fun i => rd (b.data i + rd (r * rd (c.data i + sr.data i)))⟩], next + 2)
    | [a, b, c, _, sl, sr], 4 =>
      ([⟨next, fun i => rd (a.data i + rd (r * c.data i))⟩,
        ⟨next + 1, fun i => rd (b.data i + rd (r * c.data i))⟩, sl, sr], next + 2)
    | cs, m => (fill cs m, next)

/-- `mix`, l.274-283 -/
def mixR (rd : K → K) (r : K) (next : Nat) (cs : List (Chan K)) (m : Nat) (interp : Interp) :
    List (Chan K) × Nat :=
  if cs.length = m then (cs, next) else mixInnerR rd r next cs m interp

/-- channelwise sum, l.564-568 -/
def addChansR (rd : K → K) (next : Nat) : List (Chan K) → List (Chan K) → List (Chan K) × Nat
  | a :: as, b :: bs =>
    let (c, n1) := Chan.addR rd next a b
    let (cs, n2) := addChansR rd n1 as bs
    (c :: cs, n2)
  | as, _ => (as, next)

/-- `AudioRenderQuantum::add`, l.532-569 -/
def addR (rd : K → K) (r : K) (mode : Mode) (count : Nat) (interp : Interp) (next : Nat)
    (self other : List (Chan K)) : List (Chan K) × Nat :=
  let m := newCount mode count self.length other.length
  if interp = .speakers && identical self && identical other then
    match self, other with
    | a :: _, b :: _ =>
      let (c, n1) := Chan.addR rd next a b
      mixR rd r n1 [c] m interp
    | _, _ => (self, next)
  else
    let (s, n1) := mixR rd r next self m interp
    let (o, n2) := mixR rd r n1 other m interp
    addChansR rd n2 s o

/-- Summing of several connections into an input, as `sumInto`. -/
def sumIntoR (rd : K → K) (r : K) (mode : Mode) (count : Nat) (interp : Interp) (next : Nat)
    (others : List (List (Chan K))) : List (Chan K) × Nat :=
  others.foldl (fun (s : List (Chan K) × Nat) o => addR rd r mode count interp s.2 s.1 o) ([zero], next)

theorem mixR_id (r : K) (next : Nat) (cs : List (Chan K)) (m : Nat) (interp : Interp) : mixR id r next cs m interp = mix r next cs m interp := rfl

theorem addChansR_id (next : Nat) (as bs : List (Chan K)) : addChansR id next as bs = addChans next as bs := by
  induction as generalizing next bs with
  | nil => rfl
  | cons a as ih =>
    cases bs with
    | nil => rfl
    | cons b bs => simp only [addChansR, addChans, ih]; rfl

/-- without rounding this is the model of `Verif.Mix.Model` -/
theorem sumIntoR_id (r : K) (mode : Mode) (count : Nat) (interp : Interp) (next : Nat) (others : List (List (Chan K))) :
    sumIntoR id r mode count interp next others = sumInto r mode count interp next others := by
  have : (fun (s : List (Chan K) × Nat) o => addR id r mode count interp s.2 s.1 o) = fun s o => add r mode count interp s.2 s.1 o := by
    funext s o
    simp only [addR, add, addChansR_id, mixR_id]
    rfl
  unfold sumIntoR sumInto
  rw [this]

end

/-! ## Errors -/

section
variable {K : Type} [Field K] [LinearOrder K] [IsStrictOrderedRing K]

/-- `x` is within `k` roundings of `y`, which is a sum of terms with absolute values of sum `a` -/
def Err (u : K) (k : Nat) (x y a : K) : Prop := |x - y| ≤ ((1 + u) ^ k - 1) * a ∧ |y| ≤ a

theorem Err.nonneg {u : K} {k : Nat} {x y a : K} (h : Err u k x y a) : 0 ≤ a := (abs_nonneg _).trans h.2

theorem Err.exact (u x : K) : Err u 0 x x |x| := ⟨by simp, le_rfl⟩

theorem Err.zero (u : K) (k : Nat) : Err u k 0 0 0 := ⟨by simp, by simp⟩

theorem Err.mono {u : K} (hu : 0 ≤ u) {k l : Nat} (hkl : k ≤ l) {x y a : K} (h : Err u k x y a) : Err u l x y a := by
  refine ⟨h.1.trans ?_, h.2⟩
  have := pow_le_pow_right₀ (by linarith : 1 ≤ 1 + u) hkl
  exact mul_le_mul_of_nonneg_right (by linarith) h.nonneg

theorem Err.rd {rd : K → K} {u : K} (hr : Near rd u) (hu : 0 ≤ u) {k : Nat} {x y a : K} (h : Err u k x y a) : Err u (k + 1) (rd x) y a := by
  refine ⟨?_, h.2⟩
  have h1 : |x| ≤ (1 + u) ^ k * a := by
    have := abs_add_le (x - y) y
    rw [sub_add_cancel] at this
    linarith [h.1, h.2]
  have h2 := hr x
  have h3 := abs_add_le (rd x - x) (x - y)
  rw [sub_add_sub_cancel] at h3
  have h4 := mul_le_mul_of_nonneg_left h1 hu
  rw [pow_succ]
  linarith [h.1]

theorem Err.add {u : K} {k : Nat} {x y a x' y' a' : K} (h : Err u k x y a) (h' : Err u k x' y' a') : Err u k (x + x') (y + y') (a + a') := by
  refine ⟨?_, (abs_add_le _ _).trans (add_le_add h.2 h'.2)⟩
  rw [show x + x' - (y + y') = (x - y) + (x' - y') by ring, mul_add]
  exact (abs_add_le _ _).trans (add_le_add h.1 h'.1)

theorem Err.scale {u : K} {k : Nat} {x y a : K} {c : K} (hc : 0 ≤ c) (h : Err u k x y a) : Err u k (c * x) (c * y) (c * a) := by
  refine ⟨?_, ?_⟩
  · rw [← mul_sub, abs_mul, abs_of_nonneg hc]
    have := mul_le_mul_of_nonneg_left h.1 hc
    linarith
  · rw [abs_mul, abs_of_nonneg hc]
    exact mul_le_mul_of_nonneg_left h.2 hc

theorem Err.mul {u : K} (hu : 0 ≤ u) {k : Nat} {x y a : K} {c c' : K} (hc : 0 ≤ c) (hc' : |c' - c| ≤ u * c) (h : Err u k x y a) :
    Err u (k + 1) (c' * x) (c * y) (c * a) := by
  refine ⟨?_, (h.scale hc).2⟩
  have h1 : |c'| ≤ (1 + u) * c := by
    have := abs_add_le (c' - c) c
    rw [sub_add_cancel, abs_of_nonneg hc] at this
    linarith
  rw [show c' * x - c * y = c' * (x - y) + (c' - c) * y by ring]
  refine (abs_add_le _ _).trans ?_
  rw [abs_mul, abs_mul]
  have h2 : |c'| * |x - y| ≤ (1 + u) * c * (((1 + u) ^ k - 1) * a) := mul_le_mul h1 h.1 (abs_nonneg _) (by positivity)
  have h3 : |c' - c| * |y| ≤ u * c * a := mul_le_mul hc' h.2 (abs_nonneg _) (by positivity)
  rw [pow_succ]
  linarith

/-- the same channels: rounded, exact, and of absolute values -/
structure Like (u : K) (k : Nat) (x y a : Chan K) : Prop where
  ptr : x.ptr = y.ptr
  abs : a.ptr = y.ptr
  err : ∀ i, Err u k (x.data i) (y.data i) (a.data i)

inductive Likes (u : K) (k : Nat) : List (Chan K) → List (Chan K) → List (Chan K) → Prop
  | nil : Likes u k [] [] []
  | cons {x y a xs ys as} : Like u k x y a → Likes u k xs ys as → Likes u k (x :: xs) (y :: ys) (a :: as)

theorem Like.mono {u : K} (hu : 0 ≤ u) {k l : Nat} (hkl : k ≤ l) {x y a : Chan K} (h : Like u k x y a) : Like u l x y a :=
  ⟨h.ptr, h.abs, fun i => (h.err i).mono hu hkl⟩

theorem Like.zero (u : K) (k : Nat) : Like u k (Mix.zero : Chan K) Mix.zero Mix.zero := ⟨rfl, rfl, fun _ => Err.zero u k⟩

section
variable {u : K} {k : Nat}

theorem Likes.mono (hu : 0 ≤ u) {l : Nat} (hkl : k ≤ l) {xs ys as : List (Chan K)} (h : Likes u k xs ys as) : Likes u l xs ys as := by
  induction h with
  | nil => exact .nil
  | cons h _ ih => exact .cons (h.mono hu hkl) ih

theorem Likes.length {xs ys as : List (Chan K)} (h : Likes u k xs ys as) : xs.length = ys.length ∧ as.length = ys.length := by
  induction h with
  | nil => exact ⟨rfl, rfl⟩
  | cons _ _ ih => simp [ih.1, ih.2]

theorem Likes.append {xs ys as xs' ys' as' : List (Chan K)} (h : Likes u k xs ys as) (h' : Likes u k xs' ys' as') :
    Likes u k (xs ++ xs') (ys ++ ys') (as ++ as') := by
  induction h with
  | nil => exact h'
  | cons h _ ih => exact .cons h ih

theorem Likes.take {xs ys as : List (Chan K)} (h : Likes u k xs ys as) (m : Nat) : Likes u k (xs.take m) (ys.take m) (as.take m) := by
  induction h generalizing m with
  | nil => simpa using .nil
  | cons h _ ih =>
    cases m with
    | zero => simpa using .nil
    | succ m => exact .cons h (ih m)

theorem Likes.silence (n : Nat) : Likes u k (List.replicate n (zero : Chan K)) (List.replicate n zero) (List.replicate n zero) := by
  induction n with
  | zero => exact .nil
  | succ n ih => exact .cons (Like.zero u k) ih

theorem Likes.fill {xs ys as : List (Chan K)} (h : Likes u k xs ys as) (m : Nat) : Likes u k (fill xs m) (fill ys m) (fill as m) := by
  unfold Mix.fill
  rw [h.length.1, h.length.2]
  exact (h.append (Likes.silence _)).take m

theorem Likes.get {xs ys as : List (Chan K)} (h : Likes u k xs ys as) (j : Nat) {x y a : Chan K} (hx : xs[j]? = some x) (hy : ys[j]? = some y)
    (ha : as[j]? = some a) : Like u k x y a := by
  induction h generalizing j with
  | nil => simp at hx
  | cons h _ ih =>
    cases j with
    | zero => cases hx; cases hy; cases ha; exact h
    | succ j => exact ih j hx hy ha

theorem Likes.identical {xs ys as : List (Chan K)} (h : Likes u k xs ys as) :
    Mix.identical xs = Mix.identical ys ∧ Mix.identical as = Mix.identical ys := by
  cases h with
  | nil => exact ⟨rfl, rfl⟩
  | cons h h' =>
    unfold Mix.identical
    dsimp only
    rw [h.ptr, h.abs]
    induction h' with
    | nil => exact ⟨rfl, rfl⟩
    | cons g _ ih => simp only [List.all_cons, ih.1, ih.2, g.ptr, g.abs, and_self]

end

section
variable {rd : K → K} {u : K} (hr : Near rd u) (hu : 0 ≤ u) {k : Nat}
include hr hu

theorem Like.add (next : Nat) {x y a x' y' a' : Chan K} (h : Like u k x y a) (h' : Like u k x' y' a') :
    Like u (k + 1) (Chan.addR rd next x x').1 (Chan.add next y y').1 (Chan.add next a a').1 ∧
      (Chan.addR rd next x x').2 = (Chan.add next y y').2 ∧ (Chan.add next a a').2 = (Chan.add next y y').2 := by
  have e1 : x.isSilent = y.isSilent ∧ a.isSilent = y.isSilent := by simp [Chan.isSilent, h.ptr, h.abs]
  have e2 : x'.isSilent = y'.isSilent ∧ a'.isSilent = y'.isSilent := by simp [Chan.isSilent, h'.ptr, h'.abs]
  unfold Chan.addR Chan.add
  rw [e1.1, e1.2, e2.1, e2.2]
  split
  · exact ⟨h'.mono hu (by omega), rfl, rfl⟩
  · split
    · exact ⟨h.mono hu (by omega), rfl, rfl⟩
    · exact ⟨⟨rfl, rfl, fun i => ((h.err i).add (h'.err i)).rd hr hu⟩, rfl, rfl⟩

theorem Likes.addChans {next : Nat} {xs ys as xs' ys' as' : List (Chan K)} (h : Likes u k xs ys as) (h' : Likes u k xs' ys' as') :
    Likes u (k + 1) (addChansR rd next xs xs').1 (Mix.addChans next ys ys').1 (Mix.addChans next as as').1 ∧
      (addChansR rd next xs xs').2 = (Mix.addChans next ys ys').2 ∧ (Mix.addChans next as as').2 = (Mix.addChans next ys ys').2 := by
  induction h generalizing next xs' ys' as' with
  | nil => cases h' <;> exact ⟨.nil, rfl, rfl⟩
  | cons g t ih =>
    cases h' with
    | nil => exact ⟨(Likes.cons g t).mono hu (by omega), rfl, rfl⟩
    | cons g' t' =>
      obtain ⟨c1, c2, c3⟩ := g.add hr hu next g'
      simp only [addChansR, Mix.addChans]
      rw [c2, c3]
      obtain ⟨d1, d2, d3⟩ := ih t'
      exact ⟨.cons c1 d1, d2, d3⟩

theorem Likes.mix {r r' : K} (h0 : 0 ≤ r) (hrr : |r' - r| ≤ u * r) (next m : Nat) (interp : Interp) {xs ys as : List (Chan K)} (h : Likes u k xs ys as) :
    Likes u (k + 4) (mixR rd r' next xs m interp).1 (Mix.mix r next ys m interp).1 (Mix.mix r next as m interp).1 ∧
      (mixR rd r' next xs m interp).2 = (Mix.mix r next ys m interp).2 ∧ (Mix.mix r next as m interp).2 = (Mix.mix r next ys m interp).2 := by
  have hf : Likes u (k + 4) (Mix.fill xs m) (Mix.fill ys m) (Mix.fill as m) := (h.fill m).mono hu (by omega)
  unfold mixR Mix.mix mixInnerR mixInner
  obtain ⟨l1, l2⟩ := h.length
  rw [l1, l2]
  by_cases hl : ys.length = m
  · rw [if_pos hl, if_pos hl, if_pos hl]
    exact ⟨h.mono hu (by omega), rfl, rfl⟩
  · rw [if_neg hl, if_neg hl, if_neg hl]
    by_cases hd : interp = .discrete ∨ ys.length > 6 ∨ m > 6
    · rw [if_pos hd, if_pos hd, if_pos hd]
      exact ⟨hf, rfl, rfl⟩
    · rw [if_neg hd, if_neg hd, if_neg hd]
      have z : ∀ n, Like u n (zero : Chan K) zero zero := Like.zero u
      have half : (0 : K) ≤ 1 / 2 := by norm_num
      have quarter : (0 : K) ≤ 1 / 4 := by norm_num
      have up : ∀ {x y a : Chan K}, Like u k x y a → Like u (k + 4) x y a := fun h => h.mono hu (by omega)
      have up1 : ∀ {x y a : K}, Err u k x y a → Err u (k + 1) x y a := fun h => h.mono hu (by omega)
      have up2 : ∀ {x y a : K}, Err u k x y a → Err u (k + 2) x y a := fun h => h.mono hu (by omega)
      have up3 : ∀ {x y a : K}, Err u k x y a → Err u (k + 3) x y a := fun h => h.mono hu (by omega)
      cases h with
      | nil => exact ⟨hf, rfl, rfl⟩
      | cons h1 h =>
      cases h with
      | nil =>
        rcases m with _ | _ | _ | _ | _ | _ | _ | m
        case succ.succ.zero => exact ⟨.cons (up h1) (.cons (up h1) .nil), rfl, rfl⟩
        case succ.succ.succ.succ.zero => exact ⟨.cons (up h1) (.cons (up h1) (.cons (z _) (.cons (z _) .nil))), rfl, rfl⟩
        case succ.succ.succ.succ.succ.succ.zero =>
          exact ⟨.cons (z _) (.cons (z _) (.cons (up h1) (.cons (z _) (.cons (z _) (.cons (z _) .nil))))), rfl, rfl⟩
        all_goals exact ⟨hf, rfl, rfl⟩
      | cons h2 h =>
      cases h with
      | nil =>
        rcases m with _ | _ | _ | _ | _ | _ | _ | m
        case succ.zero =>
          refine ⟨.cons ⟨rfl, rfl, fun i => ?_⟩ .nil, rfl, rfl⟩
          exact (((((h1.err i).add (h2.err i)).rd hr hu).scale half).rd hr hu).mono hu (by omega)
        case succ.succ.succ.succ.zero => exact ⟨.cons (up h1) (.cons (up h2) (.cons (z _) (.cons (z _) .nil))), rfl, rfl⟩
        case succ.succ.succ.succ.succ.succ.zero =>
          exact ⟨.cons (up h1) (.cons (up h2) (.cons (z _) (.cons (z _) (.cons (z _) (.cons (z _) .nil))))), rfl, rfl⟩
        all_goals exact ⟨hf, rfl, rfl⟩
      | cons h3 h =>
      cases h with
      | nil =>
        rcases m with _ | _ | _ | _ | _ | _ | _ | m
        all_goals exact ⟨hf, rfl, rfl⟩
      | cons h4 h =>
      cases h with
      | nil =>
        rcases m with _ | _ | _ | _ | _ | _ | _ | m
        case succ.zero =>
          refine ⟨.cons ⟨rfl, rfl, fun i => ?_⟩ .nil, rfl, rfl⟩
          exact ((((((((h1.err i).add (h2.err i)).rd hr hu).add (up1 (h3.err i))).rd hr hu).add (up2 (h4.err i))).rd hr hu).scale quarter).rd hr hu
        case succ.succ.zero =>
          refine ⟨.cons ⟨rfl, rfl, fun i => ?_⟩ (.cons ⟨rfl, rfl, fun i => ?_⟩ .nil), rfl, rfl⟩
          · exact (((((h1.err i).add (h3.err i)).rd hr hu).scale half).rd hr hu).mono hu (by omega)
          · exact (((((h2.err i).add (h4.err i)).rd hr hu).scale half).rd hr hu).mono hu (by omega)
        case succ.succ.succ.succ.succ.zero =>
          exact ⟨.cons (up h1) (.cons (up h2) (.cons (z _) (.cons (up h3) (.cons (up h4) .nil)))), rfl, rfl⟩
        case succ.succ.succ.succ.succ.succ.zero =>
          exact ⟨.cons (up h1) (.cons (up h2) (.cons (z _) (.cons (z _) (.cons (up h3) (.cons (up h4) .nil))))), rfl, rfl⟩
        all_goals exact ⟨hf, rfl, rfl⟩
      | cons h5 h =>
      cases h with
      | nil =>
        rcases m with _ | _ | _ | _ | _ | _ | _ | m
        all_goals exact ⟨hf, rfl, rfl⟩
      | cons h6 h =>
      cases h with
      | nil =>
        rcases m with _ | _ | _ | _ | _ | _ | _ | m
        case succ.zero =>
          refine ⟨.cons ⟨rfl, rfl, fun i => ?_⟩ .nil, rfl, rfl⟩
          exact (((((h1.err i).add (h2.err i)).rd hr hu).mul hu h0 hrr).add
            ((((((h5.err i).add (h6.err i)).rd hr hu).scale half).add (up1 (h3.err i))).rd hr hu)).rd hr hu |>.mono hu (by omega)
        case succ.succ.zero =>
          refine ⟨.cons ⟨rfl, rfl, fun i => ?_⟩ (.cons ⟨rfl, rfl, fun i => ?_⟩ .nil), rfl, rfl⟩
          · exact ((up3 (h1.err i)).add (((((h3.err i).add (h5.err i)).rd hr hu).mul hu h0 hrr).rd hr hu)).rd hr hu
          · exact ((up3 (h2.err i)).add (((((h3.err i).add (h6.err i)).rd hr hu).mul hu h0 hrr).rd hr hu)).rd hr hu
        case succ.succ.succ.succ.zero =>
          refine ⟨.cons ⟨rfl, rfl, fun i => ?_⟩ (.cons ⟨rfl, rfl, fun i => ?_⟩ (.cons (up h5) (.cons (up h6) .nil))), rfl, rfl⟩
          · exact (((up2 (h1.err i)).add (((h3.err i).mul hu h0 hrr).rd hr hu)).rd hr hu).mono hu (by omega)
          · exact (((up2 (h2.err i)).add (((h3.err i).mul hu h0 hrr).rd hr hu)).rd hr hu).mono hu (by omega)
        all_goals exact ⟨hf, rfl, rfl⟩
      | cons h7 h =>
        exfalso
        apply hd
        right; left
        simp only [List.length_cons]
        omega

theorem Likes.add {r r' : K} (h0 : 0 ≤ r) (hrr : |r' - r| ≤ u * r) (mode : Mode) (count : Nat) (interp : Interp) (next : Nat)
    {xs ys as xs' ys' as' : List (Chan K)} (h : Likes u k xs ys as) (h' : Likes u k xs' ys' as') :
    Likes u (k + 5) (addR rd r' mode count interp next xs xs').1 (Mix.add r mode count interp next ys ys').1 (Mix.add r mode count interp next as as').1 ∧
      (addR rd r' mode count interp next xs xs').2 = (Mix.add r mode count interp next ys ys').2 ∧
      (Mix.add r mode count interp next as as').2 = (Mix.add r mode count interp next ys ys').2 := by
  unfold addR Mix.add
  dsimp only
  rw [h.length.1, h.length.2, h'.length.1, h'.length.2, h.identical.1, h.identical.2, h'.identical.1, h'.identical.2]
  split
  · cases h with
    | nil => exact ⟨.nil, rfl, rfl⟩
    | cons g t =>
      cases h' with
      | nil => exact ⟨(Likes.cons g t).mono hu (by omega), rfl, rfl⟩
      | cons g' t' =>
        obtain ⟨c1, c2, c3⟩ := g.add hr hu next g'
        dsimp only
        rw [c2, c3]
        exact Likes.mix hr hu h0 hrr _ _ _ (.cons c1 .nil)
  · obtain ⟨s1, s2, s3⟩ := Likes.mix hr hu h0 hrr next (newCount mode count ys.length ys'.length) interp h
    rw [s2, s3]
    obtain ⟨o1, o2, o3⟩ := Likes.mix hr hu h0 hrr (Mix.mix r next ys (newCount mode count ys.length ys'.length) interp).2
      (newCount mode count ys.length ys'.length) interp h'
    rw [o2, o3]
    exact Likes.addChans hr hu s1 o1

end

/-- the channels with the absolute values of their samples -/
def absChans (cs : List (Chan K)) : List (Chan K) := cs.map fun c => ⟨c.ptr, fun i => |c.data i|⟩

theorem likes_exact (u : K) (cs : List (Chan K)) : Likes u 0 cs cs (absChans cs) := by
  induction cs with
  | nil => exact .nil
  | cons c cs ih => exact .cons ⟨rfl, rfl, fun i => Err.exact u _⟩ ih

theorem sum_likes {rd : K → K} {u : K} (hr : Near rd u) (hu : 0 ≤ u) {r r' : K} (h0 : 0 ≤ r) (hrr : |r' - r| ≤ u * r) (mode : Mode) (count : Nat)
    (interp : Interp) (next : Nat) (bufs : List (List (Chan K))) :
    Likes u (5 * bufs.length) (sumIntoR rd r' mode count interp next bufs).1 (sumInto r mode count interp next bufs).1
      (sumInto r mode count interp next (bufs.map absChans)).1 := by
  have : ∀ (bufs : List (List (Chan K))) (k n : Nat) (xs ys as : List (Chan K)), Likes u k xs ys as →
      Likes u (k + 5 * bufs.length) (bufs.foldl (fun (s : List (Chan K) × Nat) o => addR rd r' mode count interp s.2 s.1 o) (xs, n)).1
        (bufs.foldl (fun (s : List (Chan K) × Nat) o => Mix.add r mode count interp s.2 s.1 o) (ys, n)).1
        ((bufs.map absChans).foldl (fun (s : List (Chan K) × Nat) o => Mix.add r mode count interp s.2 s.1 o) (as, n)).1 := by
    intro bufs
    induction bufs with
    | nil => exact fun k n xs ys as h => h
    | cons b bs ih =>
      intro k n xs ys as h
      obtain ⟨c1, c2, c3⟩ := Likes.add hr hu h0 hrr mode count interp n h ((likes_exact u b).mono hu (Nat.zero_le k))
      simp only [List.map_cons, List.foldl_cons]
      have hs : ∀ p q : List (Chan K) × Nat, p.2 = q.2 → p = (p.1, q.2) := fun p q h => by rw [← h]
      rw [hs _ _ c2, hs _ _ c3, hs (Mix.add r mode count interp n ys b) _ rfl]
      have := ih (k + 5) (Mix.add r mode count interp n ys b).2 _ _ _ c1
      rw [List.length_cons, show k + 5 * (bs.length + 1) = k + 5 + 5 * bs.length by ring]
      exact this
  have := this bufs 0 next [zero] [zero] [zero] (.cons (Like.zero u 0) .nil)
  rw [Nat.zero_add] at this
  exact this

theorem likes_at {u : K} {k : Nat} {xs ys as : List (Chan K)} (h : Likes u k xs ys as) (i j : Nat) :
    |(samplesAt xs i).getD j 0 - (samplesAt ys i).getD j 0| ≤ ((1 + u) ^ k - 1) * (samplesAt as i).getD j 0 := by
  induction h generalizing j with
  | nil => simp [samplesAt]
  | cons h _ ih =>
    cases j with
    | zero => simpa [samplesAt] using (h.err i).1
    | succ j => simpa [samplesAt] using ih j

theorem abs_samples (cs : List (Chan K)) (i : Nat) : samplesAt (absChans cs) i = (samplesAt cs i).map abs := by
  simp [samplesAt, absChans, Function.comp_def]

theorem abs_frames (bufs : List (List (Chan K))) (i : Nat) :
    (bufs.map absChans).map (fun o => samplesAt o i) = bufs.map fun o => (samplesAt o i).map abs := by
  simp [abs_samples, Function.comp_def]

theorem abs_lengths (bufs : List (List (Chan K))) : (bufs.map absChans).map List.length = bufs.map List.length := by
  simp [absChans, Function.comp_def]

theorem abs_memory {next : Nat} {bufs : List (List (Chan K))} (h : Memory next bufs) : Memory next (bufs.map absChans) := by
  obtain ⟨h0, h1, h2⟩ := h
  refine ⟨h0, ?_, ?_⟩
  · intro o ho c hc
    obtain ⟨o, mo, rfl⟩ := List.mem_map.1 ho
    obtain ⟨c, mc, rfl⟩ := List.mem_map.1 hc
    exact ⟨(h1 o mo c mc).1, fun hz i => by simp [(h1 o mo c mc).2 hz i]⟩
  · intro o ho c hc o' ho' c' hc' he
    obtain ⟨o, mo, rfl⟩ := List.mem_map.1 ho
    obtain ⟨c, mc, rfl⟩ := List.mem_map.1 hc
    obtain ⟨o', mo', rfl⟩ := List.mem_map.1 ho'
    obtain ⟨c', mc', rfl⟩ := List.mem_map.1 hc'
    have := h2 o mo c mc o' mo' c' mc' he
    simp only [this]

/-! ## C119 -/

/-- **C119, one signal.** Bringing a signal of any number of channels to any other number in rounded arithmetic gives every sample of the
mixing rules of the Web Audio specification, up to four relative errors of a rounding. (Not from 4 to 5 channels: `C12_negated`.) -/
theorem C119_mix_partial {rd : K → K} {u : K} (hr : Near rd u) (hu : 0 ≤ u) {r r' : K} (h0 : 0 ≤ r) (hrr : |r' - r| ≤ u * r) (next : Nat)
    (cs : List (Chan K)) (m : Nat) (interp : Interp) (hexc : interp = .speakers → ¬ (cs.length = 4 ∧ m = 5)) :
    (mixR rd r' next cs m interp).1.length = m ∧ ∀ i j,
      |(samplesAt (mixR rd r' next cs m interp).1 i).getD j 0 - (w3cMix r interp m (samplesAt cs i)).getD j 0| ≤
        ((1 + u) ^ 4 - 1) * (w3cMix r interp m ((samplesAt cs i).map abs)).getD j 0 := by
  obtain ⟨h, -, -⟩ := Likes.mix hr hu h0 hrr next m interp (likes_exact u cs)
  have e1 := C12_mix_partial r next cs m interp hexc
  have e2 := C12_mix_partial r next (absChans cs) m interp (by simpa [absChans] using hexc)
  refine ⟨h.length.1.trans e1.1, fun i j => ?_⟩
  have := likes_at h i j
  rwa [e1.2, e2.2, abs_samples, Nat.zero_add] at this

/-- **C119, all inputs.** The input of a node computed in rounded arithmetic has the same channels as that of exact arithmetic, and every sample
differs by at most `5 n` relative errors of a rounding, for `n` connections, relative to the sum of the absolute values. -/
theorem C119_sum {rd : K → K} {u : K} (hr : Near rd u) (hu : 0 ≤ u) {r r' : K} (h0 : 0 ≤ r) (hrr : |r' - r| ≤ u * r) (mode : Mode) (count : Nat)
    (interp : Interp) (next : Nat) (bufs : List (List (Chan K))) :
    (sumIntoR rd r' mode count interp next bufs).1.length = (sumInto r mode count interp next bufs).1.length ∧ ∀ i j,
      |(samplesAt (sumIntoR rd r' mode count interp next bufs).1 i).getD j 0 - (samplesAt (sumInto r mode count interp next bufs).1 i).getD j 0| ≤
        ((1 + u) ^ (5 * bufs.length) - 1) * (samplesAt (sumInto r mode count interp next (bufs.map absChans)).1 i).getD j 0 := by
  have h := sum_likes hr hu h0 hrr mode count interp next bufs
  exact ⟨h.length.1, likes_at h⟩

/-- **C119.** The input of a node is the specified sum of the connected signals up to `5 n` relative errors of a rounding (`n` connections),
relative to the specified sum of the absolute values. The restriction of the layouts is that of `C13_sum_partial`. -/
theorem C119_spec_partial {rd : K → K} {u : K} (hr : Near rd u) (hu : 0 ≤ u) {r r' : K} (h0 : 0 ≤ r) (hrr : |r' - r| ≤ u * r) (mode : Mode)
    (count : Nat) (hcount : 0 < count) (interp : Interp) (next : Nat) (bufs : List (List (Chan K))) (hmem : Memory next bufs)
    (hne : bufs ≠ []) (hch : ∀ o ∈ bufs, o ≠ [])
    (hlayout : interp = .speakers → (∀ o ∈ bufs, o.length ≤ 2) ∧ (mode = .explicit → count ≤ 2)) (i j : Nat) :
    |(samplesAt (sumIntoR rd r' mode count interp next bufs).1 i).getD j 0 -
        (specSum r mode count interp (bufs.map fun o => samplesAt o i)).getD j 0| ≤
      ((1 + u) ^ (5 * bufs.length) - 1) * (specSum r mode count interp (bufs.map fun o => (samplesAt o i).map abs)).getD j 0 := by
  have := (C119_sum hr hu h0 hrr mode count interp next bufs).2 i j
  rwa [C13_sum_partial r mode count hcount interp next bufs hmem hne hch hlayout i,
    C13_sum_partial r mode count hcount interp next (bufs.map absChans) (abs_memory hmem) (by simpa using hne)
      (by
        intro o ho
        obtain ⟨o, mo, rfl⟩ := List.mem_map.1 ho
        simpa [absChans] using hch o mo)
      (fun hi => ⟨fun o ho => by
        obtain ⟨o, mo, rfl⟩ := List.mem_map.1 ho
        simpa [absChans] using (hlayout hi).1 o mo, (hlayout hi).2⟩) i, abs_frames] at this

/-- **C119, all speaker layouts.** As `C119_spec_partial` for signals of any number of channels, with the restrictions of `C13_layouts_partial`. -/
theorem C119_layouts_partial {rd : K → K} {u : K} (hr : Near rd u) (hu : 0 ≤ u) {r r' : K} (h0 : 0 ≤ r) (hrr : |r' - r| ≤ u * r) (mode : Mode)
    (count : Nat) (hcount : 0 < count) (next : Nat) (bufs : List (List (Chan K))) (hmem : Memory next bufs)
    (hne : bufs ≠ []) (hch : ∀ o ∈ bufs, o ≠ [])
    (hfirst : mode = .explicit ∨ ∀ a l, bufs = a :: l → ∀ o ∈ l, o.length ≤ a.length)
    (hown : (bufs.flatten.map (·.ptr)).Pairwise fun p q => p = q → p = 0)
    (h45 : ∀ o ∈ bufs, ¬ (o.length = 4 ∧ computedChannels mode count (bufs.map List.length) = 5)) (i j : Nat) :
    |(samplesAt (sumIntoR rd r' mode count .speakers next bufs).1 i).getD j 0 -
        (specSum r mode count .speakers (bufs.map fun o => samplesAt o i)).getD j 0| ≤
      ((1 + u) ^ (5 * bufs.length) - 1) * (specSum r mode count .speakers (bufs.map fun o => (samplesAt o i).map abs)).getD j 0 := by
  have := (C119_sum hr hu h0 hrr mode count .speakers next bufs).2 i j
  rwa [C13_layouts_partial r mode count hcount next bufs hmem hne hch hfirst hown h45 i,
    C13_layouts_partial r mode count hcount next (bufs.map absChans) (abs_memory hmem) (by simpa using hne)
      (by
        intro o ho
        obtain ⟨o, mo, rfl⟩ := List.mem_map.1 ho
        simpa [absChans] using hch o mo)
      (hfirst.imp id fun h a l he o ho => by
        cases bufs with
        | nil => simp at he
        | cons b bs =>
          simp only [List.map_cons, List.cons.injEq] at he
          obtain ⟨rfl, rfl⟩ := he
          obtain ⟨o, mo, rfl⟩ := List.mem_map.1 ho
          simpa [absChans] using h b bs rfl o mo)
      (by
        have : ((bufs.map absChans).flatten.map (·.ptr)) = bufs.flatten.map (·.ptr) := by
          simp [List.map_flatten, absChans, Function.comp_def]
        rw [this]
        exact hown)
      (by
        intro o ho
        rw [abs_lengths]
        obtain ⟨o, mo, rfl⟩ := List.mem_map.1 ho
        simpa [absChans] using h45 o mo) i, abs_frames] at this

theorem specSum_perm (r : K) (mode : Mode) (count : Nat) (interp : Interp) {f g : List (List K)} (h : f.Perm g) :
    specSum r mode count interp f = specSum r mode count interp g := by
  have hc : computedChannels mode count (f.map List.length) = computedChannels mode count (g.map List.length) := by
    have : ∀ a, (f.map List.length).foldl Nat.max a = (g.map List.length).foldl Nat.max a := fun a =>
      (h.map _).foldl_eq' (fun x _ y _ z => Nat.max_right_comm z x y) a
    unfold computedChannels
    cases mode <;> simp only [this]
  unfold specSum
  rw [hc]
  refine List.map_congr_left fun j _ => ?_
  exact (h.map _).sum_eq

/-- **C119, order.** The order in which the connections of an input are summed changes a sample by at most `10 n` relative errors of a rounding. -/
theorem C119_order_partial {rd : K → K} {u : K} (hr : Near rd u) (hu : 0 ≤ u) {r r' : K} (h0 : 0 ≤ r) (hrr : |r' - r| ≤ u * r) (mode : Mode)
    (count : Nat) (hcount : 0 < count) (interp : Interp) (next : Nat) (bufs bufs' : List (List (Chan K))) (hmem : Memory next bufs)
    (hne : bufs ≠ []) (hch : ∀ o ∈ bufs, o ≠ [])
    (hlayout : interp = .speakers → (∀ o ∈ bufs, o.length ≤ 2) ∧ (mode = .explicit → count ≤ 2)) (hperm : bufs'.Perm bufs) (i j : Nat) :
    |(samplesAt (sumIntoR rd r' mode count interp next bufs).1 i).getD j 0 -
        (samplesAt (sumIntoR rd r' mode count interp next bufs').1 i).getD j 0| ≤
      2 * ((1 + u) ^ (5 * bufs.length) - 1) * (specSum r mode count interp (bufs.map fun o => (samplesAt o i).map abs)).getD j 0 := by
  have hm : ∀ o, o ∈ bufs' ↔ o ∈ bufs := fun o => hperm.mem_iff
  have h1 := C119_spec_partial hr hu h0 hrr mode count hcount interp next bufs hmem hne hch hlayout i j
  have h2 := C119_spec_partial hr hu h0 hrr mode count hcount interp next bufs'
    ⟨hmem.1, fun o ho => hmem.2.1 o ((hm o).1 ho), fun o ho c hc o' ho' => hmem.2.2 o ((hm o).1 ho) c hc o' ((hm o').1 ho')⟩
    (fun h => hne (by rw [h] at hperm; exact hperm.symm.eq_nil)) (fun o ho => hch o ((hm o).1 ho))
    (fun hi => ⟨fun o ho => (hlayout hi).1 o ((hm o).1 ho), (hlayout hi).2⟩) i j
  rw [specSum_perm r mode count interp (hperm.map _), specSum_perm r mode count interp (hperm.map fun o => (samplesAt o i).map abs), hperm.length_eq] at h2
  rw [abs_sub_comm] at h2
  have := abs_add_le ((samplesAt (sumIntoR rd r' mode count interp next bufs).1 i).getD j 0 -
    (specSum r mode count interp (bufs.map fun o => samplesAt o i)).getD j 0) ((specSum r mode count interp (bufs.map fun o => samplesAt o i)).getD j 0 -
    (samplesAt (sumIntoR rd r' mode count interp next bufs').1 i).getD j 0)
  rw [sub_add_sub_cancel] at this
  linarith

end

/-- a sum of three stereo signals in `f32` -/
example (a b c d e f : Nat → ℚ) (i j : Nat) (r r' : ℚ) (h0 : 0 ≤ r) (hrr : |r' - r| ≤ 2 ^ (-24 : ℤ) * r) :
    let bufs : List (List (Chan ℚ)) := [[⟨1, a⟩, ⟨2, b⟩], [⟨3, c⟩, ⟨4, d⟩], [⟨5, e⟩, ⟨6, f⟩]]
    |(samplesAt (sumIntoR (rnd 24) r' .max 2 .speakers 7 bufs).1 i).getD j 0 - [a i + (c i + e i), b i + (d i + f i)].getD j 0| ≤
      ((1 + 2 ^ (-24 : ℤ)) ^ 15 - 1) * [|a i| + (|c i| + |e i|), |b i| + (|d i| + |f i|)].getD j 0 := by
  intro bufs
  have := C119_spec_partial (rnd_near 24) (by positivity) h0 hrr .max 2 (by omega) .speakers 7 bufs
    ⟨by omega, by simp [bufs], by simp [bufs]⟩ (by simp [bufs]) (by simp [bufs]) (by simp [bufs]) i j
  simpa [bufs, specSum, computedChannels, w3cMix, w3cMatrix, samplesAt, List.range_succ] using this

/-- The sum depends on the order: `C119_order_partial` is not zero. -/
theorem C119_negated_order : ∃ bufs bufs' : List (List (Chan ℚ)), bufs'.Perm bufs ∧ Memory 4 bufs ∧ ∀ r : ℚ,
    samplesAt (sumIntoR (rnd 24) r .max 2 .speakers 4 bufs).1 0 ≠ samplesAt (sumIntoR (rnd 24) r .max 2 .speakers 4 bufs').1 0 := by
  refine ⟨[[⟨1, fun _ => 2 ^ 24⟩], [⟨2, fun _ => 1⟩], [⟨3, fun _ => 1⟩]], [[⟨2, fun _ => 1⟩], [⟨3, fun _ => 1⟩], [⟨1, fun _ => 2 ^ 24⟩]], ?_,
    ⟨by omega, by simp, by simp⟩, fun r => ?_⟩
  · exact List.Perm.trans (List.Perm.cons _ (List.Perm.swap _ _ _)) (List.Perm.swap _ _ _)
  · show [rnd 24 (rnd 24 (2 ^ 24 + 1) + 1)] ≠ [rnd 24 (rnd 24 (1 + 1) + 2 ^ 24)]
    decide +kernel

end Verif.Mix
