import Verif.Compressor.Model
import Verif.Float.Mono
import Mathlib.Algebra.Ring.Int.Defs
import Mathlib.Tactic.Linarith
import Mathlib.Tactic.NormNum
import Mathlib.Tactic.Positivity

/-!
# C45: the delay line of the compressor
-/

namespace Verif.Compressor

open Verif.Node

section
variable {K D : Type} [Zero K] [Mul K]

/-- Specification: the gains of every quantum. -/
def gainsOf (G : D → Quantum K → D × List K) (d : D) : List (Quantum K) → List (List K)
  | [] => []
  | q :: qs => (G d q).2 :: gainsOf G (G d q).1 qs

/-- the past of the node: silence, then the inputs -/
def hist (R : Nat) (ins : List (Quantum K)) : List (Quantum K) := List.replicate R silence ++ ins

/-- the ring after the inputs `ins` -/
structure Ring (R : Nat) (s : Comp K D) (ins : List (Quantum K)) : Prop where
  len : (fill R s.ring).length = R
  idx : s.idx = ins.length % R
  get : ∀ j : Nat, j < R → (fill R s.ring)[(ins.length + j) % R]? = (hist R ins)[ins.length + j]?

theorem ring_new {R : Nat} (d : D) : Ring R (Comp.new d : Comp K D) [] := by
  refine ⟨by simp [fill, Comp.new], by simp [Comp.new], fun j hj => ?_⟩
  simp [fill, Comp.new, hist, Nat.mod_eq_of_lt hj]

theorem fill_full {R : Nat} {l : List (Quantum K)} (h : l.length = R) : fill R l = l := by
  simp [fill, h]

theorem ring_step {R N : Nat} (hR : 0 < R) (G : D → Quantum K → D × List K) {s : Comp K D} {ins : List (Quantum K)}
    (h : Ring R s ins) (q : Quantum K) :
    Ring R (s.step R N G q).1 (ins ++ [q]) ∧ (s.step R N G q).1.det = (G s.det q).1 ∧
    ∃ x, (hist R (ins ++ [q]))[ins.length + 1]? = some x ∧
      (s.step R N G q).2 = if isSilent x then (silence, false) else (scale N x (G s.det q).2, true) := by
  obtain ⟨h1, h2, h3⟩ := h
  have hm : ins.length % R < R := Nat.mod_lt _ hR
  have hst : (s.step R N G q).1.ring = (fill R s.ring).set s.idx q := by
    simp only [Comp.step]
    split <;> rfl
  have hidx : (s.step R N G q).1.idx = (s.idx + 1) % R := by
    simp only [Comp.step]
    split <;> rfl
  have hdet : (s.step R N G q).1.det = (G s.det q).1 := by
    simp only [Comp.step]
    split <;> rfl
  have hlen : ((fill R s.ring).set s.idx q).length = R := by rw [List.length_set]; exact h1
  have hget : ∀ j : Nat, j < R → ((fill R s.ring).set s.idx q)[(ins.length + 1 + j) % R]? =
      (hist R (ins ++ [q]))[ins.length + 1 + j]? := by
    intro j hj
    rw [h2]
    rcases Nat.lt_or_ge (j + 1) R with hlt | hge
    · have hne : ins.length % R ≠ (ins.length + 1 + j) % R := by
        intro he
        have hd : (ins.length + 1 + j - ins.length) % R = 0 := by
          apply Nat.sub_mod_eq_zero_of_mod_eq he.symm
        rw [show ins.length + 1 + j - ins.length = j + 1 by omega, Nat.mod_eq_of_lt hlt] at hd
        omega
      rw [List.getElem?_set_ne hne, show ins.length + 1 + j = ins.length + (j + 1) by omega, h3 _ hlt]
      rw [show hist R (ins ++ [q]) = hist R ins ++ [q] by simp [hist], List.getElem?_append_left]
      simp [hist]
      omega
    · have hj1 : j + 1 = R := by omega
      have e : (ins.length + 1 + j) % R = ins.length % R := by
        rw [show ins.length + 1 + j = ins.length + R by omega, Nat.add_mod_right]
      rw [e, List.getElem?_set_self (by rw [h1]; exact hm)]
      unfold hist
      rw [← List.append_assoc, List.getElem?_append_right (by simp; omega)]
      simp [show ins.length + 1 + j - (R + ins.length) = 0 by omega]
  refine ⟨⟨?_, ?_, ?_⟩, hdet, ?_⟩
  · rw [hst, fill_full hlen]; exact hlen
  · rw [hidx, h2, List.length_append, List.length_singleton]
    simp
  · intro j hj
    rw [hst, fill_full hlen, List.length_append, List.length_singleton]
    exact hget j hj
  · have h0 := hget 0 hR
    simp only [Nat.add_zero] at h0
    have hlt : ins.length + 1 < (hist R (ins ++ [q])).length := by
      unfold hist
      simp
      omega
    refine ⟨_, List.getElem?_eq_getElem hlt, ?_⟩
    rw [List.getElem?_eq_getElem hlt] at h0
    have hr : (s.idx + 1) % R = (ins.length + 1) % R := by
      rw [h2]
      simp
    have hd : ((fill R s.ring).set s.idx q).getD ((s.idx + 1) % R) silence = (hist R (ins ++ [q]))[ins.length + 1] := by
      rw [List.getD_eq_getElem?_getD, hr, h0]
      rfl
    unfold Comp.step
    simp only [hd]
    split <;> rfl

theorem run_spec {R N : Nat} (hR : 0 < R) (G : D → Quantum K → D × List K) (qs : List (Quantum K)) :
    ∀ (s : Comp K D) (ins : List (Quantum K)), Ring R s ins →
      Ring R (s.run R N G qs).1 (ins ++ qs) ∧ (s.run R N G qs).2.length = qs.length ∧
      ∀ t, t < qs.length → ∃ x, (hist R (ins ++ qs))[ins.length + t + 1]? = some x ∧
        (s.run R N G qs).2[t]? = some (if isSilent x then (silence, false)
          else (scale N x ((gainsOf G s.det qs).getD t []), true)) := by
  induction qs with
  | nil =>
    intro s ins h
    refine ⟨by simpa [Comp.run] using h, rfl, fun t ht => by simp at ht⟩
  | cons q qs ih =>
    intro s ins h
    obtain ⟨h1, h2, x, hx, hs⟩ := ring_step (N := N) hR G h q
    obtain ⟨i1, i2, i3⟩ := ih _ _ h1
    have e : ins ++ [q] ++ qs = ins ++ q :: qs := by simp
    rw [e] at i1 i3
    refine ⟨i1, by simp [Comp.run, i2], fun t ht => ?_⟩
    cases t with
    | zero =>
      refine ⟨x, ?_, ?_⟩
      · rw [← hx]
        unfold hist
        have hlt : ins.length + 1 < (List.replicate R (silence : Quantum K) ++ (ins ++ [q])).length := by simp; omega
        rw [← e, ← List.append_assoc (List.replicate R silence), List.getElem?_append_left hlt]
      · simp only [Comp.run, List.getElem?_cons_zero, Option.some.injEq]
        rw [show (s.step R N G q).2 = _ from hs]
        simp [gainsOf]
    | succ t =>
      have ht' : t < qs.length := by simpa using ht
      obtain ⟨y, hy, hy2⟩ := i3 t ht'
      refine ⟨y, ?_, ?_⟩
      · rw [← hy]
        simp only [List.length_append, List.length_singleton]
        congr 1
        omega
      · simp only [Comp.run, List.getElem?_cons_succ]
        rw [hy2, h2]
        simp [gainsOf]

end

section
variable {K D : Type} [MulZeroClass K]

theorem sample_scale (N : Nat) (q : Quantum K) (g : List K) (c f : Nat) :
    sample (scale N q g) c f = sample q c f * g.getD f 0 := by
  unfold sample scale
  rw [List.getElem?_map]
  cases hc : q[c]? with
  | none => simp
  | some a =>
    have : (List.zipWith (· * ·) (a.data N) g).getD f 0 = (a.data N).getD f 0 * g.getD f 0 := by
      rw [List.getD_eq_getElem?_getD, List.getElem?_zipWith, List.getD_eq_getElem?_getD, List.getD_eq_getElem?_getD]
      cases (a.data N)[f]? <;> cases g[f]? <;> simp
    simp only [Option.map_some, this, data_getD]
    cases a <;> simp

/-- C45: for every input, the output is the input `R - 1` quanta before, times the gain of the moment, frame by frame and
channel by channel; silence at the beginning. The detector sees the input without delay. -/
theorem C45_delay {R N : Nat} (hR : 0 < R) (G : D → Quantum K → D × List K) (d : D) (ins : List (Quantum K)) :
    ((Comp.new d).run R N G ins).2.length = ins.length ∧
    ∀ t o, ((Comp.new d).run R N G ins).2[t]? = some o → ∀ c f,
      sample o.1 c f =
        (if t < R - 1 then 0 else sample (ins.getD (t - (R - 1)) []) c f) * ((gainsOf G d ins).getD t []).getD f 0 := by
  obtain ⟨_, h2, h3⟩ := run_spec (N := N) hR G ins (Comp.new d) [] (ring_new d)
  refine ⟨h2, fun t o ho c f => ?_⟩
  have ht : t < ins.length := by
    rw [← h2]
    exact (List.getElem?_eq_some_iff.1 ho).1
  obtain ⟨x, hx, ho'⟩ := h3 t ht
  rw [ho', Option.some.injEq] at ho
  have hxs : sample x c f = if t < R - 1 then 0 else sample (ins.getD (t - (R - 1)) []) c f := by
    simp only [List.nil_append, List.length_nil, Nat.zero_add] at hx
    unfold hist at hx
    split
    · rename_i hlt
      rw [List.getElem?_append_left (by simp; omega), List.getElem?_replicate_of_lt (by omega), Option.some.injEq] at hx
      rw [← hx, sample_silence]
    · rename_i hge
      rw [List.getElem?_append_right (by simp; omega)] at hx
      rw [List.getD_eq_getElem?_getD, show t - (R - 1) = t + 1 - (List.replicate R (silence : Quantum K)).length by
        simp; omega, hx]
      rfl
  rw [← ho, ← hxs]
  split
  · rename_i hs
    rw [sample_silence, sample_of_isSilent hs, zero_mul]
  · rw [sample_scale]
    rfl

/-- three quanta of two frames through a ring of two: one quantum later, times two -/
example : (((Comp.new ()).run 2 2 (fun _ _ => ((), [2, 2])) [[some [1, 2]], [some [3, 4]], [none]] :
    Comp ℤ Unit × _).2.map (·.1)) = [[none], [some [2, 4]], [some [6, 8]]] := by decide

/-! ## The end -/

theorem tail_eq_run {R N : Nat} (G : D → Quantum K → D × List K) (fuel : Nat) : ∀ s : Comp K D,
    s.tail R N G fuel =
      let l := (s.run R N G (List.replicate fuel silence)).2
      (l.takeWhile (·.2) ++ (l.dropWhile (·.2)).take 1).map (·.1) := by
  induction fuel with
  | zero => intro s; rfl
  | succ fuel ih =>
    intro s
    simp only [Comp.tail, List.replicate_succ, Comp.run, List.takeWhile_cons, List.dropWhile_cons]
    by_cases h : (s.step R N G silence).2.2 = true
    · simp [h, ih]
    · simp [h]

theorem run_append {R N : Nat} (G : D → Quantum K → D × List K) (a b : List (Quantum K)) : ∀ s : Comp K D,
    (s.run R N G (a ++ b)).2 = (s.run R N G a).2 ++ ((s.run R N G a).1.run R N G b).2 := by
  induction a with
  | nil => intro s; rfl
  | cons q a ih => intro s; simp [Comp.run, ih]

/-- the inputs that are in the ring when the inputs end, in the order in which they leave it -/
def pending (R : Nat) (ins : List (Quantum K)) : List (Quantum K) := (hist R ins).drop (ins.length + 1)

theorem pending_length {R : Nat} (ins : List (Quantum K)) : (pending R ins).length = R - 1 := by
  simp [pending, hist]
  omega

theorem split_at {α : Type} {p : α → Bool} {l : List α} {m : Nat} (ht : ∀ (k : Nat) x, k < m → l[k]? = some x → p x = true)
    {y : α} (hm : l[m]? = some y) (hy : p y = false) : l.takeWhile p = l.take m ∧ (l.dropWhile p).take 1 = [y] := by
  induction l generalizing m with
  | nil => simp at hm
  | cons a l ih =>
    cases m with
    | zero =>
      simp at hm
      subst hm
      simp [hy]
    | succ m =>
      have ha : p a = true := ht 0 a (by omega) rfl
      have := ih (m := m) (fun k x hk hx => ht (k + 1) x (by omega) (by simpa using hx)) (by simpa using hm)
      simp [ha, this]

/-- C45, the end, exactly: when the inputs of a dropped compressor end, it still emits what is in its delay line, up to
the first silent quantum. -/
theorem C45_tail_exact {R N : Nat} (hR : 0 < R) (G : D → Quantum K → D × List K) (d : D) (ins : List (Quantum K))
    {fuel : Nat} (hf : R ≤ fuel) :
    let m := ((pending R ins).takeWhile fun x => !isSilent x).length
    let out := ((Comp.new d).run R N G ins).1.tail R N G fuel
    out.length = m + 1 ∧ out[m]? = some silence ∧
    ∀ k x, k < m → (pending R ins)[k]? = some x →
      out[k]? = some (scale N x ((gainsOf G d (ins ++ List.replicate fuel silence)).getD (ins.length + k) [])) := by
  intro m out
  obtain ⟨_, h2, h3⟩ := run_spec (N := N) hR G (ins ++ List.replicate fuel silence) (Comp.new d) [] (ring_new d)
  obtain ⟨_, l2, _⟩ := run_spec (N := N) hR G ins (Comp.new d) [] (ring_new d)
  simp only [List.nil_append, List.length_nil, Nat.zero_add] at h2 h3
  rw [run_append] at h2 h3
  obtain ⟨l, hl⟩ : ∃ l, l = (((Comp.new d).run R N G ins).1.run R N G (List.replicate fuel silence)).2 := ⟨_, rfl⟩
  rw [← hl] at h2 h3
  have hlen : l.length = fuel := by simp [l2] at h2; exact h2
  have hout : out = (l.takeWhile (·.2) ++ (l.dropWhile (·.2)).take 1).map (·.1) := by
    rw [hl]
    exact tail_eq_run G fuel _
  have hh : ∀ k x, (pending R ins)[k]? = some x →
      (hist R (ins ++ List.replicate fuel silence))[ins.length + k + 1]? = some x := by
    intro k x hx
    unfold pending at hx
    rw [List.getElem?_drop] at hx
    rw [show hist R (ins ++ List.replicate fuel silence) = hist R ins ++ List.replicate fuel silence by simp [hist],
      List.getElem?_append_left (by
        have := (List.getElem?_eq_some_iff.1 hx).1
        omega), ← hx]
    congr 1
    omega
  have hget : ∀ k x, k < fuel → (hist R (ins ++ List.replicate fuel silence))[ins.length + k + 1]? = some x →
      l[k]? = some (if isSilent x then (silence, false)
        else (scale N x ((gainsOf G d (ins ++ List.replicate fuel silence)).getD (ins.length + k) []), true)) := by
    intro k x hk hx
    obtain ⟨y, hy, hy2⟩ := h3 (ins.length + k) (by simp; omega)
    rw [hx, Option.some.injEq] at hy
    subst hy
    rw [List.getElem?_append_right (by omega), l2] at hy2
    simpa [Comp.new] using hy2
  have hmle : m ≤ R - 1 := by
    rw [← pending_length ins]
    exact (List.takeWhile_sublist _).length_le
  -- the quanta before `m` are not silent
  have hbefore : ∀ k x, k < m → (pending R ins)[k]? = some x → isSilent x = false := by
    intro k x hk hx
    have hp : (pending R ins).takeWhile (fun x => !isSilent x) <+: pending R ins := List.takeWhile_prefix _
    have hk' : ((pending R ins).takeWhile fun x => !isSilent x)[k]? = some x := by
      obtain ⟨t, ht⟩ := hp
      rw [← hx]
      conv_rhs => rw [← ht]
      rw [List.getElem?_append_left hk]
    have hall := List.all_takeWhile (p := fun x : Quantum K => !isSilent x) (l := pending R ins)
    rw [List.all_eq_true] at hall
    have := hall x (List.mem_of_getElem? hk')
    simpa using this
  -- the one at `m` is
  have hat : ∃ x, (hist R (ins ++ List.replicate fuel silence))[ins.length + m + 1]? = some x ∧ isSilent x = true := by
    rcases Nat.lt_or_ge m (R - 1) with hlt | hge
    · have hx := List.getElem?_eq_getElem (l := pending R ins) (i := m) (by rw [pending_length]; exact hlt)
      refine ⟨_, hh _ _ hx, ?_⟩
      have ht := List.takeWhile_append_dropWhile (p := fun x : Quantum K => !isSilent x) (l := pending R ins)
      have hd : ((pending R ins).dropWhile fun x => !isSilent x)[0]? = (pending R ins)[m]? := by
        conv_rhs => rw [← ht]
        rw [List.getElem?_append_right (Nat.le_refl _), Nat.sub_self]
      rw [hx] at hd
      cases hdw : (pending R ins).dropWhile (fun x => !isSilent x) with
      | nil => rw [hdw] at hd; simp at hd
      | cons a l' =>
        have hne : (pending R ins).dropWhile (fun x => !isSilent x) ≠ [] := by rw [hdw]; simp
        have hna := List.head_dropWhile_not (fun x : Quantum K => !isSilent x) hne
        rw [hdw] at hd
        simp only [List.getElem?_cons_zero, Option.some.injEq] at hd
        rw [← hd]
        simpa [hdw] using hna
    · have : m = R - 1 := by omega
      refine ⟨silence, ?_, by simp [silence, isSilent]⟩
      rw [show hist R (ins ++ List.replicate fuel silence) = hist R ins ++ List.replicate fuel silence by simp [hist],
        List.getElem?_append_right (by simp [hist]; omega)]
      rw [List.getElem?_replicate_of_lt]
      simp [hist]
      omega
  obtain ⟨z, hz, hzs⟩ := hat
  have hlm := hget m z (by omega) hz
  rw [hzs, if_pos rfl] at hlm
  have hlk : ∀ k x, k < m → (pending R ins)[k]? = some x →
      l[k]? = some (scale N x ((gainsOf G d (ins ++ List.replicate fuel silence)).getD (ins.length + k) []), true) := by
    intro k x hk hx
    have := hget k x (by omega) (hh _ _ hx)
    rw [hbefore k x hk hx] at this
    simpa using this
  obtain ⟨t1, t2⟩ := split_at (p := fun o : Quantum K × Bool => o.2) (l := l) (m := m) (by
    intro k o hk ho
    have hx := List.getElem?_eq_getElem (l := pending R ins) (i := k) (by rw [pending_length]; omega)
    rw [hlk k _ hk hx, Option.some.injEq] at ho
    rw [← ho]) hlm rfl
  rw [hout, t1, t2]
  have htl : (l.take m).length = m := by simp; omega
  refine ⟨by simp; omega, ?_, fun k x hk hx => ?_⟩
  · rw [List.getElem?_map, List.getElem?_append_right (by omega), htl]
    simp
  · rw [List.getElem?_map, List.getElem?_append_left (by omega), List.getElem?_take_of_lt hk, hlk k x hk hx]
    rfl

/-- C45, partial: if the input ends with at least `R - 1` quanta that are not silent, the whole of it is emitted, then one
quantum of silence, then the node can go. Missing: an input that is shorter, or that has a silent quantum among its last
`R - 1`. -/
theorem C45_tail_partial {R N : Nat} (hR : 0 < R) (G : D → Quantum K → D × List K) (d : D) (ins : List (Quantum K))
    (hlong : R - 1 ≤ ins.length) (hloud : ∀ q ∈ ins.drop (ins.length - (R - 1)), isSilent q = false) {fuel : Nat}
    (hf : R ≤ fuel) :
    let out := ((Comp.new d).run R N G ins).1.tail R N G fuel
    out.length = R ∧ ∀ k o, k < R - 1 → out[k]? = some o → ∀ c f, sample o c f =
      sample (ins.getD (ins.length - (R - 1) + k) []) c f *
        ((gainsOf G d (ins ++ List.replicate fuel silence)).getD (ins.length + k) []).getD f 0 := by
  intro out
  obtain ⟨h1, h2, h3⟩ := C45_tail_exact (N := N) hR G d ins hf
  have hp : pending R ins = ins.drop (ins.length - (R - 1)) := by
    unfold pending hist
    rw [List.drop_append, List.drop_eq_nil_of_le (by simp; omega), List.nil_append]
    congr 1
    simp
    omega
  have hm : (pending R ins).takeWhile (fun x => !isSilent x) = pending R ins := by
    rw [hp]
    have : ∀ l : List (Quantum K), (∀ q ∈ l, isSilent q = false) → l.takeWhile (fun x => !isSilent x) = l := by
      intro l
      induction l with
      | nil => intro _; rfl
      | cons a l ih =>
        intro h
        rw [List.takeWhile_cons, h a (by simp)]
        simp [ih (fun q hq => h q (by simp [hq]))]
    exact this _ hloud
  rw [hm, pending_length] at h1 h3
  refine ⟨by show (Comp.tail _ _ _ _ _).length = R; omega, fun k o hk ho c f => ?_⟩
  have hx := List.getElem?_eq_getElem (l := pending R ins) (i := k) (by rw [pending_length]; exact hk)
  have := h3 k _ hk hx
  rw [show out[k]? = _ from this, Option.some.injEq] at ho
  rw [← ho, sample_scale]
  congr 2
  rw [List.getD_eq_getElem?_getD, ← List.getElem?_drop, ← hp, hx]
  rfl

end

/-- meets the hypotheses: two quanta that are not silent, in a ring of three -/
example : (((Comp.new ()).run 3 2 (fun _ _ => ((), [1, 1])) [[some [1, 2]], [some [3, 4]]] : Comp ℤ Unit × _).1.tail 3 2
    (fun _ _ => ((), [1, 1])) 9) = [[some [1, 2]], [some [3, 4]], [none]] := by decide

/-- C45 fails at the end: a sound of one quantum, into a compressor with the delay of two quanta, whose handle is dropped;
the gain is one. All that the compressor emits in its life is silence. -/
theorem C45_negated_tail :
    let G : Unit → Quantum ℤ → Unit × List ℤ := fun _ _ => ((), [1, 1])
    let sound : List (Quantum ℤ) := [[some [1, 2]]]
    let r := (Comp.new ()).run 3 2 G sound
    r.2.map (·.1) ++ r.1.tail 3 2 G 100 = [[none], [none]] := by
  decide +kernel

/-- C45 fails at the end: a rest within the last quanta of a sound cuts off what follows. -/
theorem C45_negated_rest :
    let G : Unit → Quantum ℤ → Unit × List ℤ := fun _ _ => ((), [1, 1])
    let sound : List (Quantum ℤ) := [[some [1, 2]], [some [3, 4]], [none], [some [5, 6]]]
    let r := (Comp.new ()).run 3 2 G sound
    r.2.map (·.1) ++ r.1.tail 3 2 G 100 = [[none], [none], [some [1, 2]], [some [3, 4]], [none]] := by
  decide +kernel

/-- C45: the delay is the smallest number of quanta that lasts at least 6 ms. -/
theorem C45_latency {K : Type} [Field K] [LinearOrder K] [IsStrictOrderedRing K] [FloorRing K] {sr : K} (h : 0 < sr)
    {N : Nat} (hN : 0 < N) :
    2 ≤ ringSize sr N ∧ sr * (6 / 1000) ≤ ((ringSize sr N - 1 : Nat) : K) * N ∧
    ((ringSize sr N - 1 : Nat) : K) * N < sr * (6 / 1000) + N := by
  have hN' : (0 : K) < N := by exact_mod_cast hN
  have hx : 0 < sr * (6 / 1000) / N := by positivity
  have hc : 0 < ⌈sr * (6 / 1000) / N⌉ := Int.ceil_pos.2 hx
  obtain ⟨n, hn⟩ := Int.eq_ofNat_of_zero_le hc.le
  have e : ringSize sr N - 1 = n := by
    unfold ringSize
    rw [hn]
    simp
  have hle := Int.le_ceil (sr * (6 / 1000) / (N : K))
  have hlt := Int.ceil_lt_add_one (sr * (6 / 1000) / (N : K))
  rw [hn] at hle hlt
  simp only [Int.cast_natCast] at hle hlt
  refine ⟨?_, ?_, ?_⟩
  · rw [hn] at hc
    have : 0 < n := by simpa using hc
    omega
  · rw [e]
    exact (div_le_iff₀ hN').1 hle
  · rw [e]
    have := (mul_lt_mul_iff_left₀ hN').2 hlt
    rwa [add_mul, one_mul, div_mul_cancel₀ _ hN'.ne'] at this

/-- 44.1 kHz: three quanta -/
example : ringSize (44100 : ℚ) 128 = 4 := by decide +kernel

end Verif.Compressor
