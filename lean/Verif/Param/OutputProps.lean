import Verif.Param.SortProps
import Mathlib.Algebra.Order.Field.Rat
import Mathlib.Data.Rat.Floor

/-!
# C23: the values a processor sees are within the nominal range and not NaN

Models `AudioParamProcessor::mix_to_output` (param.rs l.739-797) and `AudioParamValues::get`
(render/processor.rs l.186-200, l.227).
-/

namespace Verif.Param

/-- Floating point numbers as far as comparison is concerned. -/
inductive Fl (K : Type) where
  | nan
  | ninf
  | fin (x : K)
  | pinf
deriving DecidableEq

section
variable {K : Type} [Field K] [LinearOrder K]

/-- `f32::max(self, m)` for finite `m` -/
def Fl.max (a : Fl K) (m : K) : Fl K :=
  match a with
  | .nan => .fin m
  | .ninf => .fin m
  | .fin x => .fin (Max.max x m)
  | .pinf => .pinf

/-- `f32::min(self, m)` for finite `m` -/
def Fl.min (a : Fl K) (m : K) : Fl K :=
  match a with
  | .nan => .fin m
  | .ninf => .ninf
  | .fin x => .fin (Min.min x m)
  | .pinf => .fin m

/-- NaN is replaced by the default value, other values are brought into the nominal range,
l.754-760, l.770-775, l.789-794. -/
def fix (dflt mn mx : K) (a : Fl K) : Fl K :=
  match a with
  | .nan => .fin dflt
  | _ => (a.max mn).min mx

/-- The (mono) input of the parameter: its samples, and whether it shares the allocator's zero buffer
(`is_silent`). -/
structure Input (K : Type) where
  data : List (Fl K)
  silent : Bool

/-- The output of the parameter. -/
structure Output (K : Type) where
  single : Bool
  data : List (Fl K)

/-- `mix_to_output`, l.739-797. `add` is the addition of floating point numbers. `old` is the content of
the output buffer before. `none` stands for an index out of bounds. The input has `single_valued` false:
only parameters set it and `add` (quantum.rs l.532-569) does not copy it. -/
def mixToOutput (add : Fl K → Fl K → Fl K) (dflt mn mx : K) (aRate : Bool) (buffer : List (Fl K))
    (input : Input K) (old : List (Fl K)) : Option (Output K) :=
  if buffer.length = 1 ∨ aRate = false then
    match buffer[0]? with
    | none => none
    | some value =>
      if input.silent ∨ aRate = false then
        match input.data[0]? with
        | none => none
        | some i => some { single := true, data := old.set 0 (fix dflt mn mx (add value i)) }
      else some { single := false, data := input.data.map fun o => fix dflt mn mx (add o value) }
  else
    some { single := false,
           data := List.zipWith (fun o p => fix dflt mn mx (add o p)) input.data buffer ++
             input.data.drop buffer.length }

/-- What `AudioParamValues::get` returns. -/
def Output.seen (o : Output K) (count : Nat) : List (Fl K) := o.data.take (if o.single then 1 else count)

variable [IsStrictOrderedRing K]

omit [IsStrictOrderedRing K] in
theorem fix_range {dflt mn mx : K} (h1 : mn ≤ dflt) (h2 : dflt ≤ mx) (a : Fl K) :
    ∃ x, fix dflt mn mx a = .fin x ∧ mn ≤ x ∧ x ≤ mx := by
  have h := le_trans h1 h2
  cases a with
  | nan => exact ⟨dflt, rfl, h1, h2⟩
  | ninf => exact ⟨Min.min mn mx, rfl, by simp [h], by simp⟩
  | fin x => exact ⟨Min.min (Max.max x mn) mx, rfl, by simp [h], by simp⟩
  | pinf => exact ⟨mx, rfl, h, le_rfl⟩

/-- C23: whatever was scheduled (any sequence of events, rates and quanta), with any arithmetic on values,
any addition and any input signal, the values a node sees are finite numbers in `[mn, mx]`, and there are
1 or `count` of them. -/
theorem C23_range {T : Type} [Field T] [LinearOrder T] [IsStrictOrderedRing T] [FloorSemiring T]
    {A : Arith T (Fl K)} {dt : T} (hdt : 0 < dt) {count : Nat} (hcount : 0 < count)
    {add : Fl K → Fl K → Fl K} {dflt mn mx : K} (h1 : mn ≤ dflt) (h2 : dflt ≤ mx)
    {s0 s s' : Sys T (Fl K)} {ops : List (Op T (Fl K))} (_h : run A dt count s0 ops = .ok s)
    (h' : step A dt count s .block = .ok s') {input : Input K} (hin : input.data.length = count)
    {old : List (Fl K)} (hold : old.length = count) :
    ∃ o, mixToOutput add dflt mn mx s'.p.aRate s'.p.buffer input old = some o ∧
      ((o.seen count).length = 1 ∨ (o.seen count).length = count) ∧
      ∀ v ∈ o.seen count, ∃ x, v = .fin x ∧ mn ≤ x ∧ x ≤ mx := by
  have hlen : s'.p.buffer.length = 1 ∨ s'.p.buffer.length = count := by
    simp only [step] at h'
    cases hb : computeBuffer A s.p ⟨s.frame * dt, dt, count⟩ with
    | panic => rw [hb] at h'; cases h'
    | fuel => rw [hb] at h'; cases h'
    | ok p =>
      rw [hb] at h'
      cases h'
      have := C24_length (b := ⟨s.frame * dt, dt, count⟩) hdt hb
      split at this
      · exact .inr this
      · exact .inl this
  have hpos : s'.p.buffer ≠ [] := by
    intro h0
    rw [h0] at hlen
    simp at hlen
    omega
  have hin0 : input.data ≠ [] := by intro h0; rw [h0] at hin; simp at hin; omega
  obtain ⟨b0, bs, hb⟩ := List.exists_cons_of_ne_nil hpos
  obtain ⟨i0, is, hi⟩ := List.exists_cons_of_ne_nil hin0
  unfold mixToOutput
  by_cases hc : s'.p.buffer.length = 1 ∨ s'.p.aRate = false
  · rw [if_pos hc, hb]
    simp only [List.getElem?_cons_zero]
    by_cases hs : input.silent ∨ s'.p.aRate = false
    · rw [if_pos (by simpa using hs), hi]
      simp only [List.getElem?_cons_zero]
      refine ⟨_, rfl, ?_⟩
      cases old with
      | nil => simp at hold; omega
      | cons o0 os =>
        simp only [Output.seen, List.set_cons_zero, if_true]
        refine ⟨.inl (by simp), ?_⟩
        intro v hv
        simp only [List.take_succ_cons, List.take_zero, List.mem_singleton] at hv
        subst hv
        exact fix_range h1 h2 _
    · rw [if_neg (by simpa using hs)]
      refine ⟨_, rfl, .inr (by simp [Output.seen, hin]), ?_⟩
      intro v hv
      simp only [Output.seen] at hv
      have := List.mem_of_mem_take hv
      obtain ⟨o, _, rfl⟩ := List.mem_map.1 this
      exact fix_range h1 h2 _
  · rw [if_neg hc]
    push Not at hc
    have hl : s'.p.buffer.length = count := hlen.resolve_left hc.1
    refine ⟨_, rfl, .inr (by simp [Output.seen, hin, hl]), ?_⟩
    intro v hv
    simp only [Output.seen] at hv
    have := List.mem_of_mem_take hv
    rw [hl, ← hin, List.drop_length, List.append_nil] at this
    obtain ⟨a, b, hab⟩ : ∃ a b, v = fix dflt mn mx (add a b) := by
      rw [List.zipWith_eq_zipWith_take_min] at this
      obtain ⟨i, hi, rfl⟩ := List.mem_iff_getElem.1 this
      exact ⟨_, _, List.getElem_zipWith⟩
    rw [hab]
    exact fix_range h1 h2 _

/-- C23, content: where neither NaN nor clamping interferes, the value a node sees for frame `i` is the sum
of the automation value and the input (for a k-rate parameter the first sample of the input). -/
theorem C23_sum {add : Fl K → Fl K → Fl K} (hadd : ∀ x y, add (.fin x) (.fin y) = .fin (x + y))
    {dflt mn mx : K} {aRate : Bool} {buffer : List (Fl K)} {input : Input K} {old : List (Fl K)}
    {count : Nat} (hl : buffer.length = 1 ∨ (aRate = true ∧ buffer.length = count))
    (hin : input.data.length = count) (hold : old.length = count)
    (hsil : input.silent = true → ∀ i ∈ input.data, i = .fin 0) {o : Output K}
    (h : mixToOutput add dflt mn mx aRate buffer input old = some o)
    {i : Nat} (hi : i < count) {x y : K}
    (hx : (if buffer.length = 1 then buffer[0]? else buffer[i]?) = some (.fin x))
    (hy : input.data[if aRate then i else 0]? = some (.fin y)) (h1 : mn ≤ x + y) (h2 : x + y ≤ mx) :
    (if (o.seen count).length = 1 then (o.seen count)[0]? else (o.seen count)[i]?) = some (.fin (x + y)) := by
  have hfix : fix dflt mn mx (.fin (x + y)) = .fin (x + y) := by
    simp [fix, Fl.max, Fl.min, h1, h2]
  have hcomm : add (.fin y) (.fin x) = .fin (x + y) := by rw [hadd, add_comm]
  unfold mixToOutput at h
  by_cases hc : buffer.length = 1 ∨ aRate = false
  · have hb1 : buffer.length = 1 := by
      rcases hl with hl | hl
      · exact hl
      · rcases hc with hc | hc
        · exact hc
        · rw [hl.1] at hc; cases hc
    rw [if_pos hb1] at hx
    rw [if_pos hc, hx] at h
    dsimp only at h
    by_cases hs : input.silent = true ∨ aRate = false
    · rw [if_pos hs] at h
      have h0 : input.data[0]? = some (.fin y) := by
        cases ha : aRate with
        | false => simpa [ha] using hy
        | true =>
          rw [ha] at hs hy
          have hz := hsil (by simpa using hs)
          simp only [if_true] at hy
          have := hz _ (List.mem_of_getElem? hy)
          rw [this]
          have hlt : 0 < input.data.length := by omega
          rw [List.getElem?_eq_getElem hlt]
          exact congrArg some (hz _ (List.getElem_mem hlt))
      rw [h0] at h
      dsimp only at h
      rw [hadd, hfix] at h
      cases h
      cases old with
      | nil => simp at hold; omega
      | cons a as => simp [Output.seen]
    · rw [if_neg hs] at h
      cases h
      have ha : aRate = true := by
        cases aRate with
        | true => rfl
        | false => simp at hs
      simp only [ha, if_true] at hy
      have hlt : i < input.data.length := by omega
      simp only [Output.seen, Bool.false_eq_true, if_false, List.length_take, List.length_map, hin, min_self]
      have hget : (List.take count (input.data.map fun o => fix dflt mn mx (add o (.fin x))))[i]? =
          some (.fin (x + y)) := by
        rw [List.getElem?_take_of_lt hi, List.getElem?_map, hy, Option.map_some, hcomm, hfix]
      split
      · rename_i h1'
        have : i = 0 := by omega
        subst this
        exact hget
      · exact hget
  · rw [if_neg hc] at h
    cases h
    push Not at hc
    have hl' := hl.resolve_left hc.1
    rw [if_neg hc.1] at hx
    rw [hl'.1] at hy
    simp only [if_true] at hy
    have hget : (List.take count (List.zipWith (fun o p => fix dflt mn mx (add o p)) input.data buffer ++
        input.data.drop buffer.length))[i]? = some (.fin (x + y)) := by
      rw [List.getElem?_take_of_lt hi, List.getElem?_append_left (by simp [hin, hl'.2, hi]),
        List.getElem?_zipWith, hx, hy]
      simp [hcomm, hfix]
    have hlen : (List.take count (List.zipWith (fun o p => fix dflt mn mx (add o p)) input.data buffer ++
        input.data.drop buffer.length)).length = count := by simp [hin, hl'.2]
    simp only [Output.seen, Bool.false_eq_true, if_false, hlen]
    have : count ≠ 1 := by rw [← hl'.2]; exact hc.1
    rw [if_neg this]
    exact hget

end

/-- Hypotheses met, with a NaN on the input and an infinite automation value. -/
example : (mixToOutput (K := ℚ) (fun a b => match a, b with
      | .fin x, .fin y => .fin (x + y)
      | .fin _, b => b
      | a, .fin _ => a
      | _, _ => .nan) 0 (-1) 1 true [.fin (1/2), .pinf, .fin 3] ⟨[.fin (1/4), .ninf, .nan], false⟩
      [.fin 0, .fin 0, .fin 0]).map (·.data) = some [.fin (3/4), .fin 0, .fin 0] := by decide +kernel

end Verif.Param
