import Verif.Attr.Model
import Mathlib.Data.List.Induction
import Mathlib.Tactic.Linarith

/-!
# C91: attributes

For each kind of node the expected values of the attributes are given by the list of calls alone. The node always
shows the values for all calls, the renderer has the values for the calls up to some point, and for all calls when no
message is under way.
-/

namespace Verif.Attr

open Verif.Valid (FV)

/-! ## Delay of messages -/

section
variable {Call Ctl Msg Ren : Type} (h : Halves Call Ctl Msg Ren) (specC : List Call → Ctl) (specR : List Call → Ren)

/-- What has to be shown for one call `c` after the calls `cs`. -/
def Follows (cs : List Call) (c : Call) : Prop :=
  (h.call (specC cs) c = none ∧ specC (cs ++ [c]) = specC cs ∧ specR (cs ++ [c]) = specR cs) ∨
  (∃ ctl, h.call (specC cs) c = some (ctl, none) ∧ specC (cs ++ [c]) = ctl ∧ specR (cs ++ [c]) = specR cs) ∨
  (∃ ctl m, h.call (specC cs) c = some (ctl, some m) ∧ specC (cs ++ [c]) = ctl ∧
    h.recv (specR cs) m = some (specR (cs ++ [c])))

/-- the messages of the calls `cs`, which come after the calls `pre` -/
def posts : List Call → List Call → List Msg
  | _, [] => []
  | pre, c :: cs => ((h.call (specC pre) c).bind (·.2)).toList ++ posts (pre ++ [c]) cs

theorem posts_append (pre cs : List Call) (c : Call) :
    posts h specC pre (cs ++ [c]) =
      posts h specC pre cs ++ ((h.call (specC (pre ++ cs)) c).bind (·.2)).toList := by
  induction cs generalizing pre with
  | nil => simp [posts]
  | cons d cs ih => simp [posts, ih]

variable {h specC specR}

theorem posts_nil {P : Call → Prop} (hf : ∀ cs c, P c → Follows h specC specR cs c) {suf : List Call}
    (hP : ∀ c ∈ suf, P c) {pre : List Call} (hp : posts h specC pre suf = []) : specR (pre ++ suf) = specR pre := by
  induction suf generalizing pre with
  | nil => simp
  | cons c suf ih =>
    simp only [posts, List.append_eq_nil_iff] at hp
    have hc := ih (fun d hd => hP d (by simp [hd])) hp.2
    rw [List.append_assoc] at hc
    rw [show pre ++ c :: suf = pre ++ ([c] ++ suf) from rfl, hc]
    rcases hf pre c (hP c (by simp)) with ⟨-, -, g⟩ | ⟨_, -, -, g⟩ | ⟨_, m, g, -, -⟩
    · exact g
    · exact g
    · rw [g] at hp; simp at hp

theorem posts_cons {P : Call → Prop} (hf : ∀ cs c, P c → Follows h specC specR cs c) {suf : List Call}
    (hP : ∀ c ∈ suf, P c) {pre : List Call} {m : Msg} {ms : List Msg} (hp : posts h specC pre suf = m :: ms) :
    ∃ pre' suf', pre ++ suf = pre' ++ suf' ∧ ms = posts h specC pre' suf' ∧
      h.recv (specR pre) m = some (specR pre') ∧ ∀ c ∈ suf', P c := by
  induction suf generalizing pre with
  | nil => simp [posts] at hp
  | cons c suf ih =>
    simp only [posts] at hp
    have hP' : ∀ d ∈ suf, P d := fun d hd => hP d (by simp [hd])
    rcases hf pre c (hP c (by simp)) with ⟨g1, -, g⟩ | ⟨_, g1, -, g⟩ | ⟨_, m', g1, -, g⟩
    · rw [g1] at hp
      obtain ⟨pre', suf', h1, h2, h3, h4⟩ := ih hP' (by simpa using hp)
      exact ⟨pre', suf', by simpa using h1, h2, by rw [← g]; exact h3, h4⟩
    · rw [g1] at hp
      obtain ⟨pre', suf', h1, h2, h3, h4⟩ := ih hP' (by simpa using hp)
      exact ⟨pre', suf', by simpa using h1, h2, by rw [← g]; exact h3, h4⟩
    · rw [g1] at hp
      simp only [Option.bind_some, Option.toList_some, List.cons_append, List.nil_append] at hp
      injection hp with hp1 hp2
      subst hp1
      exact ⟨pre ++ [c], suf, by simp, hp2.symm, g, hP'⟩

/-- The state after the calls `pre ++ suf`, when the messages of `suf` are still under way. -/
structure Late (h : Halves Call Ctl Msg Ren) (specC : List Call → Ctl) (specR : List Call → Ren) (P : Call → Prop)
    (pre suf : List Call) (s : Sys Ctl Msg Ren) : Prop where
  ctl : s.ctl = specC (pre ++ suf)
  chan : s.chan = posts h specC pre suf
  ren : s.ren = specR pre
  ok : ∀ c ∈ suf, P c

theorem run_late {P : Call → Prop} (hf : ∀ cs c, P c → Follows h specC specR cs c) (xs : List (Step Call))
    (hP : ∀ c ∈ calls xs, P c) {pre suf : List Call} {s : Sys Ctl Msg Ren} (hs : Late h specC specR P pre suf s) :
    ∃ t pre' suf', h.run s xs = some t ∧ pre ++ suf ++ calls xs = pre' ++ suf' ∧ Late h specC specR P pre' suf' t := by
  induction xs generalizing pre suf s with
  | nil => exact ⟨s, pre, suf, rfl, by simp [calls], hs⟩
  | cons x xs ih =>
    cases x with
    | call c =>
      have hc : P c := hP c (by simp [calls])
      have hP' : ∀ d ∈ calls xs, P d := fun d hd => hP d (by simpa [calls] using .inr (by simpa [calls] using hd))
      have hstep : ∃ t, h.step s (.call c) = some t ∧ Late h specC specR P pre (suf ++ [c]) t := by
        have hok : ∀ d ∈ suf ++ [c], P d := by
          intro d hd
          rcases List.mem_append.1 hd with hd | hd
          · exact hs.ok d hd
          · rw [List.mem_singleton] at hd; subst hd; exact hc
        simp only [Halves.step]
        rw [hs.ctl]
        rcases hf (pre ++ suf) c hc with ⟨g1, g2, g3⟩ | ⟨ctl, g1, g2, g3⟩ | ⟨ctl, m, g1, g2, g3⟩
        · rw [g1]
          refine ⟨s, rfl, ⟨?_, ?_, hs.ren, hok⟩⟩
          · rw [hs.ctl, ← g2, List.append_assoc]
          · rw [hs.chan, posts_append, g1]; simp
        · rw [g1]
          refine ⟨_, rfl, ⟨?_, ?_, hs.ren, hok⟩⟩
          · rw [← g2, List.append_assoc]
          · rw [posts_append, g1, hs.chan]; simp
        · rw [g1]
          refine ⟨_, rfl, ⟨?_, ?_, hs.ren, hok⟩⟩
          · rw [← g2, List.append_assoc]
          · rw [posts_append, g1, hs.chan]; simp
      obtain ⟨t, ht, hl⟩ := hstep
      obtain ⟨u, pre', suf', h1, h2, h3⟩ := ih hP' hl
      exact ⟨u, pre', suf', by simp [Halves.run, ht, h1], by rw [← h2]; simp [calls], h3⟩
    | deliver =>
      have hP' : ∀ d ∈ calls xs, P d := fun d hd => hP d (by simpa [calls] using hd)
      cases hch : s.chan with
      | nil =>
        obtain ⟨u, pre', suf', h1, h2, h3⟩ := ih hP' hs
        exact ⟨u, pre', suf', by simp [Halves.run, Halves.step, hch, h1], by rw [← h2]; simp [calls], h3⟩
      | cons m ms =>
        rw [hs.chan] at hch
        obtain ⟨p, q, g1, g2, g3, g4⟩ := posts_cons hf hs.ok hch
        have hl : Late h specC specR P p q { s with ren := specR p, chan := ms } :=
          ⟨by rw [hs.ctl, g1], g2, rfl, g4⟩
        obtain ⟨u, pre', suf', h1, h2, h3⟩ := ih hP' hl
        refine ⟨u, pre', suf', ?_, by rw [← h2, g1]; simp [calls], h3⟩
        simp only [Halves.run, Halves.step]
        rw [hs.chan, hch]
        simp only
        rw [hs.ren, g3]
        simpa using h1

/-- If the specification is right call by call, then for all interleavings the node shows the values after all calls and
the renderer has those after the first `k` calls; `k` counts all of them when no message is under way. -/
theorem delayed {P : Call → Prop} (hf : ∀ cs c, P c → Follows h specC specR cs c) {s : Sys Ctl Msg Ren}
    (hc : s.ctl = specC []) (hr : s.ren = specR []) (hm : s.chan = []) (xs : List (Step Call))
    (hP : ∀ c ∈ calls xs, P c) :
    ∃ t k, h.run s xs = some t ∧ t.ctl = specC (calls xs) ∧ k ≤ (calls xs).length ∧
      t.ren = specR ((calls xs).take k) ∧ (t.chan = [] → t.ren = specR (calls xs)) := by
  obtain ⟨t, pre, suf, h1, h2, h3⟩ := run_late hf xs hP (pre := []) (suf := []) (s := s)
    ⟨by simpa using hc, by simpa [posts] using hm, hr, by simp⟩
  simp only [List.nil_append] at h2
  refine ⟨t, pre.length, h1, by rw [h3.ctl, h2], by rw [h2]; simp, by rw [h3.ren, h2]; simp, fun hn => ?_⟩
  rw [h3.chan] at hn
  rw [h3.ren, h2, posts_nil hf h3.ok hn]

end

/-! ## Specification -/

section
variable {Call α : Type}

/-- the last of the values that the calls set, `d` if there is none -/
def last (f : Call → Option α) (d : α) (cs : List Call) : α := ((cs.filterMap f).getLast?).getD d

/-- the first of the values that the calls set -/
def first (f : Call → Option α) (cs : List Call) : Option α := (cs.filterMap f).head?

@[simp] theorem last_nil (f : Call → Option α) (d : α) : last f d [] = d := rfl

@[simp] theorem first_nil (f : Call → Option α) : first f [] = none := rfl

theorem last_append (f : Call → Option α) (d : α) (cs : List Call) (c : Call) :
    last f d (cs ++ [c]) = (f c).getD (last f d cs) := by
  unfold last
  rw [List.filterMap_append]
  cases hc : f c with
  | none => simp [hc]
  | some x => simp [hc]

theorem first_append (f : Call → Option α) (cs : List Call) (c : Call) :
    first f (cs ++ [c]) = (first f cs).or (f c) := by
  unfold first
  rw [List.filterMap_append]
  cases hc : f c with
  | none => cases List.filterMap f cs <;> simp [hc]
  | some x => cases List.filterMap f cs <;> simp [hc]

end

/-! ## Oscillator -/

section
variable {W : Type}

/-- the standard waveform asked for -/
def OscCall.type? : OscCall W → Option OscType
  | .setType .custom => none
  | .setType t => some t
  | .setWave _ => none

def OscCall.wave? : OscCall W → Option W
  | .setWave w => some w
  | .setType _ => none

/-- the expected type: custom as soon as a wave was set, otherwise the standard waveform that was set last -/
def oscType (t : OscType) (cs : List (OscCall W)) : OscType :=
  if t = .custom ∨ (first OscCall.wave? cs).isSome then .custom else last OscCall.type? t cs

/-- custom cannot be set as a type -/
theorem last_custom {t : OscType} {cs : List (OscCall W)} (h : last OscCall.type? t cs = .custom) : t = .custom := by
  induction cs using List.reverseRecOn with
  | nil => exact h
  | append_singleton ds d ih =>
    rw [last_append] at h
    rcases d with u | w
    · cases u <;> simp [OscCall.type?] at h <;> exact ih h
    · exact ih (by simpa [OscCall.type?] using h)

theorem oscType_nil (t : OscType) : oscType t ([] : List (OscCall W)) = t := by
  simp only [oscType, first_nil, last_nil, Option.isSome_none, Bool.false_eq_true, or_false]
  split
  · rename_i h; exact h.symm
  · rfl

/-- C91, oscillator: with every interleaving of calls and messages, `type_()` is as expected, and the renderer has the
type and the wave (the one set last) after the first `k` calls, for all calls when no message is under way. It never
has the type custom without a wave, unless the type custom was given to the constructor. -/
theorem C91_oscillator (t : OscType) (xs : List (Step (OscCall W))) :
    ∃ s k, (osc W).run (oscNew W t) xs = some s ∧ s.ctl = oscType t (calls xs) ∧ k ≤ (calls xs).length ∧
      s.ren.type = oscType t ((calls xs).take k) ∧
      s.ren.wave = last (fun c => c.wave?.map some) none ((calls xs).take k) ∧
      (s.chan = [] → s.ren.type = oscType t (calls xs) ∧
        s.ren.wave = last (fun c => c.wave?.map some) none (calls xs)) ∧
      (t ≠ .custom → s.ren.type = .custom → s.ren.wave.isSome = true) := by
  have hf : ∀ cs c, True → Follows (osc W) (oscType t)
      (fun cs => ⟨oscType t cs, last (fun c => c.wave?.map some) none cs⟩) cs c := by
    intro cs c _
    cases c with
    | setWave w =>
      refine .inr (.inr ⟨.custom, .setWave w, rfl, ?_, ?_⟩)
      · simp [oscType, first_append, OscCall.wave?]
      · simp only [osc, last_append, OscCall.wave?, Option.map_some, Option.getD_some]
        congr 2
        simp [oscType, first_append, OscCall.wave?]
    | setType u =>
      by_cases hu : u = .custom
      · subst hu
        refine .inl ⟨rfl, ?_, ?_⟩
        · simp [oscType, first_append, last_append, OscCall.wave?, OscCall.type?]
        · simp [oscType, first_append, last_append, OscCall.wave?, OscCall.type?]
      · have hty : OscCall.type? (W := W) (.setType u) = some u := by cases u <;> simp_all [OscCall.type?]
        by_cases hc : oscType t cs = .custom
        · have hcond : t = .custom ∨ (first OscCall.wave? cs).isSome = true := by
            by_contra hn
            simp only [oscType, if_neg hn] at hc
            push Not at hn
            exact hn.1 (last_custom hc)
          refine .inr (.inl ⟨.custom, by simp [osc, hu, hc], ?_, ?_⟩)
          · simp [oscType, first_append, OscCall.wave?, hcond]
          · simp [oscType, first_append, last_append, OscCall.wave?, hcond]
        · have hcond : ¬(t = .custom ∨ (first OscCall.wave? cs).isSome = true) := by
            intro hn
            exact hc (by simp [oscType, hn])
          refine .inr (.inr ⟨u, .setType u, by simp [osc, hu, hc], ?_, ?_⟩)
          · simp only [oscType, first_append, OscCall.wave?, Option.or_none, if_neg hcond, last_append, hty,
              Option.getD_some]
          · simp only [osc, last_append, OscCall.wave?, Option.map_none, Option.getD_none]
            simp only [oscType, first_append, OscCall.wave?, Option.or_none, if_neg hcond, last_append, hty,
              Option.getD_some]
  obtain ⟨s, k, h1, h2, h3, h4, h5⟩ := delayed (s := oscNew W t) hf
    (by simp [oscNew, oscType_nil]) (by simp [oscNew, oscType_nil]) rfl xs (by simp)
  refine ⟨s, k, h1, h2, h3, by rw [h4], by rw [h4], fun hn => by rw [h5 hn]; exact ⟨rfl, rfl⟩, fun ht hcu => ?_⟩
  rw [h4] at hcu ⊢
  dsimp only at hcu ⊢
  generalize (calls xs).take k = cs at hcu
  have hw : (first OscCall.wave? cs).isSome = true := by
    by_contra hn
    have hcond : ¬(t = .custom ∨ (first OscCall.wave? cs).isSome = true) := by simp [ht, hn]
    simp only [oscType, if_neg hcond] at hcu
    exact ht (last_custom hcu)
  clear hcu
  induction cs using List.reverseRecOn with
  | nil => cases hw
  | append_singleton cs c ih =>
    rw [last_append]
    cases c with
    | setWave w => simp [OscCall.wave?]
    | setType u =>
      simp only [first_append, OscCall.wave?, Option.or_none] at hw
      simpa [OscCall.wave?] using ih hw

end

/-! ## Buffer source -/

section
variable {B : Type}

def SrcCall.buffer? : SrcCall B → Option B
  | .buffer b => some b
  | _ => none

def SrcCall.loop? : SrcCall B → Option Bool
  | .loop on => some on
  | _ => none

def SrcCall.loopStart? : SrcCall B → Option FV
  | .loopStart x => some x
  | _ => none

def SrcCall.loopEnd? : SrcCall B → Option FV
  | .loopEnd x => some x
  | _ => none

/-- the loop start `x` for a buffer of duration `d`: within the buffer (NaN is not changed) -/
def boundStart (d : ℚ) : FV → FV
  | .nan => .nan
  | .inf => .fin d
  | .ninf => .fin 0
  | .fin x => .fin (max 0 (min d x))

/-- the loop end: the end of the buffer unless positive and within the buffer (NaN is not changed) -/
def boundEnd (d : ℚ) : FV → FV
  | .nan => .nan
  | .inf => .fin d
  | .ninf => .fin d
  | .fin x => .fin (if 0 < x ∧ x ≤ d then x else d)

theorem clamp_start {d : ℚ} (hd : 0 ≤ d) (x : FV) :
    (if x.lt (.fin 0) then .fin 0 else if (FV.fin d).lt x then .fin d else x) = boundStart d x := by
  cases x with
  | nan => rfl
  | inf => rfl
  | ninf => rfl
  | fin q =>
    simp only [FV.lt, boundStart, decide_eq_true_eq]
    split
    · rw [min_eq_right (by linarith), max_eq_left (by linarith)]
    · split
      · rw [min_eq_left (by linarith), max_eq_right hd]
      · rw [min_eq_right (by linarith), max_eq_right (by linarith)]

theorem clamp_end {d : ℚ} (hd : 0 ≤ d) (x : FV) :
    (if x.le (.fin 0) || (FV.fin d).lt x then .fin d else x) = boundEnd d x := by
  cases x with
  | nan => rfl
  | inf => rfl
  | ninf => rfl
  | fin q =>
    simp only [FV.lt, FV.le, boundEnd, Bool.or_eq_true, decide_eq_true_eq]
    split
    · rename_i h
      rw [if_neg]
      rintro ⟨h1, h2⟩
      rcases h with h | h <;> linarith
    · rename_i h
      push Not at h
      rw [if_pos h]

theorem boundStart_twice {d : ℚ} (hd : 0 ≤ d) (x : FV) : boundStart d (boundStart d x) = boundStart d x := by
  cases x with
  | nan => rfl
  | inf => simp [boundStart, hd]
  | ninf => simp [boundStart, hd]
  | fin q =>
    simp only [boundStart, FV.fin.injEq]
    rw [min_eq_right (max_le hd (min_le_left _ _)), max_eq_right (le_max_left _ _)]

theorem boundEnd_twice {d : ℚ} (x : FV) : boundEnd d (boundEnd d x) = boundEnd d x := by
  cases x with
  | nan => rfl
  | inf => simp [boundEnd]
  | ninf => simp [boundEnd]
  | fin q =>
    simp only [boundEnd, FV.fin.injEq]
    split_ifs <;> rfl

theorem clamp_none {dur : B → ℚ} {r : Src B} (h : r.buffer = none) : r.clamp dur = r := by
  simp [Src.clamp, h]

theorem clamp_some {dur : B → ℚ} (hd : ∀ b, 0 ≤ dur b) {r : Src B} {b : B} (h : r.buffer = some b) :
    r.clamp dur = { r with start := boundStart (dur b) r.start, stop := boundEnd (dur b) r.stop } := by
  simp only [Src.clamp, h, clamp_start (hd b), clamp_end (hd b)]

/-- what the getters show -/
def srcShown (loop : Bool) (a b : FV) (cs : List (SrcCall B)) : Src B :=
  ⟨first SrcCall.buffer? cs, last SrcCall.loop? loop cs, last SrcCall.loopStart? a cs, last SrcCall.loopEnd? b cs⟩

/-- the loop points that are used -/
def srcUsed (dur : B → ℚ) (loop : Bool) (a b : FV) (cs : List (SrcCall B)) : Src B :=
  let s := srcShown loop a b cs
  match first SrcCall.buffer? cs with
  | none => s
  | some x => { s with start := boundStart (dur x) s.start, stop := boundEnd (dur x) s.stop }

/-- C91, buffer source: the getters show the values set last (and the buffer, which can be set once); the renderer uses
the same values after the first `k` calls, with the loop points brought into the buffer, in whichever order buffer and
loop points were set. -/
theorem C91_buffer_source {dur : B → ℚ} (hd : ∀ b, 0 ≤ dur b) (loop : Bool) (a b : FV) (xs : List (Step (SrcCall B))) :
    ∃ s k, (src B dur).run (srcNew B loop a b) xs = some s ∧ s.ctl = srcShown loop a b (calls xs) ∧
      k ≤ (calls xs).length ∧ s.ren = srcUsed dur loop a b ((calls xs).take k) ∧
      (s.chan = [] → s.ren = srcUsed dur loop a b (calls xs)) := by
  refine delayed (P := fun _ => True) (s := srcNew B loop a b) ?_ rfl rfl rfl xs (by simp)
  intro cs c _
  cases c with
  | buffer x =>
    cases hb : first SrcCall.buffer? cs with
    | some y =>
      refine .inl ⟨by simp [src, srcShown, hb], ?_, ?_⟩ <;>
        simp [srcShown, srcUsed, first_append, last_append, hb, SrcCall.buffer?, SrcCall.loop?, SrcCall.loopStart?,
          SrcCall.loopEnd?]
    | none =>
      refine .inr (.inr ⟨_, _, by simp only [src, srcShown, hb, Option.isSome_none, Bool.false_eq_true, if_false]; rfl,
        ?_, ?_⟩)
      · simp [srcShown, first_append, last_append, hb, SrcCall.buffer?, SrcCall.loop?, SrcCall.loopStart?,
          SrcCall.loopEnd?]
      · simp only [src, srcUsed, hb, srcShown, Option.isSome_none, Bool.false_eq_true, if_false, Option.some.injEq]
        rw [clamp_some hd (b := x) rfl]
        simp [first_append, last_append, hb, SrcCall.buffer?, SrcCall.loop?, SrcCall.loopStart?, SrcCall.loopEnd?]
  | loop on =>
    refine .inr (.inr ⟨_, _, rfl, ?_, ?_⟩)
    · simp [srcShown, first_append, last_append, SrcCall.buffer?, SrcCall.loop?, SrcCall.loopStart?, SrcCall.loopEnd?]
    · cases hb : first SrcCall.buffer? cs with
      | none =>
        simp only [src, Option.some.injEq]
        rw [clamp_none (by simp [srcShown, srcUsed, hb])]
        simp [srcShown, srcUsed, first_append, last_append, hb, SrcCall.buffer?, SrcCall.loop?, SrcCall.loopStart?,
          SrcCall.loopEnd?]
      | some y =>
        simp only [src, Option.some.injEq]
        rw [clamp_some hd (b := y) (by simp [srcShown, srcUsed, hb])]
        simp [srcShown, srcUsed, first_append, last_append, hb, SrcCall.buffer?, SrcCall.loop?, SrcCall.loopStart?,
          SrcCall.loopEnd?, boundStart_twice (hd y), boundEnd_twice]
  | loopStart x =>
    refine .inr (.inr ⟨_, _, rfl, ?_, ?_⟩)
    · simp [srcShown, first_append, last_append, SrcCall.buffer?, SrcCall.loop?, SrcCall.loopStart?, SrcCall.loopEnd?]
    · cases hb : first SrcCall.buffer? cs with
      | none =>
        simp only [src, Option.some.injEq]
        rw [clamp_none (by simp [srcShown, srcUsed, hb])]
        simp [srcShown, srcUsed, first_append, last_append, hb, SrcCall.buffer?, SrcCall.loop?, SrcCall.loopStart?,
          SrcCall.loopEnd?]
      | some y =>
        simp only [src, Option.some.injEq]
        rw [clamp_some hd (b := y) (by simp [srcShown, srcUsed, hb])]
        simp [srcShown, srcUsed, first_append, last_append, hb, SrcCall.buffer?, SrcCall.loop?, SrcCall.loopStart?,
          SrcCall.loopEnd?, boundStart_twice (hd y), boundEnd_twice]
  | loopEnd x =>
    refine .inr (.inr ⟨_, _, rfl, ?_, ?_⟩)
    · simp [srcShown, first_append, last_append, SrcCall.buffer?, SrcCall.loop?, SrcCall.loopStart?, SrcCall.loopEnd?]
    · cases hb : first SrcCall.buffer? cs with
      | none =>
        simp only [src, Option.some.injEq]
        rw [clamp_none (by simp [srcShown, srcUsed, hb])]
        simp [srcShown, srcUsed, first_append, last_append, hb, SrcCall.buffer?, SrcCall.loop?, SrcCall.loopStart?,
          SrcCall.loopEnd?]
      | some y =>
        simp only [src, Option.some.injEq]
        rw [clamp_some hd (b := y) (by simp [srcShown, srcUsed, hb])]
        simp [srcShown, srcUsed, first_append, last_append, hb, SrcCall.buffer?, SrcCall.loop?, SrcCall.loopStart?,
          SrcCall.loopEnd?, boundStart_twice (hd y), boundEnd_twice]
  | other =>
    refine .inr (.inr ⟨_, _, rfl, ?_, ?_⟩)
    · simp [srcShown, first_append, last_append, SrcCall.buffer?, SrcCall.loop?, SrcCall.loopStart?, SrcCall.loopEnd?]
    · cases hb : first SrcCall.buffer? cs with
      | none =>
        simp only [src, Option.some.injEq]
        rw [clamp_none (by simp [srcShown, srcUsed, hb])]
        simp [srcShown, srcUsed, first_append, last_append, hb, SrcCall.buffer?, SrcCall.loop?, SrcCall.loopStart?,
          SrcCall.loopEnd?]
      | some y =>
        simp only [src, Option.some.injEq]
        rw [clamp_some hd (b := y) (by simp [srcShown, srcUsed, hb])]
        simp [srcShown, srcUsed, first_append, last_append, hb, SrcCall.buffer?, SrcCall.loop?, SrcCall.loopStart?,
          SrcCall.loopEnd?, boundStart_twice (hd y), boundEnd_twice]

end

/-! ## Wave shaper -/

def ShaperCall.curve? : ShaperCall → Option (List ℚ)
  | .curve c => some c
  | .oversample _ => none

def ShaperCall.oversample? : ShaperCall → Option Oversample
  | .curve _ => none
  | .oversample o => some o

/-- C91, wave shaper: `curve()` is the first curve (a second one is refused) and `oversample()` the value set last; the
renderer has the values after the first `k` calls, and passes silence on only if its curve maps zero to (almost) zero.
Missing: an empty curve, for which the renderer panics (`C91_negated_empty`). -/
theorem C91_shaper_partial (o : Oversample) (xs : List (Step ShaperCall)) (hne : .curve [] ∉ calls xs) :
    ∃ s k, shaper.run (shaperNew o) xs = some s ∧
      s.ctl.curve = first ShaperCall.curve? (calls xs) ∧ s.ctl.oversample = last ShaperCall.oversample? o (calls xs) ∧
      k ≤ (calls xs).length ∧ s.ren.curve = first ShaperCall.curve? ((calls xs).take k) ∧
      s.ren.oversample = last ShaperCall.oversample? o ((calls xs).take k) ∧
      (s.chan = [] → s.ren.curve = s.ctl.curve ∧ s.ren.oversample = s.ctl.oversample) ∧
      (s.ren.quiet = true → ∀ c, s.ren.curve = some c → ∃ y, Verif.Node.applyCurve c 0 = some y ∧ |y| < 1 / 10 ^ 9) := by
  have hprop : ∀ c : List ℚ, c ≠ [] → ∃ q, Verif.Node.canPropagate (1 / 10 ^ 9) c = some q := by
    intro c hc
    have hl := List.length_pos_iff.2 hc
    unfold Verif.Node.canPropagate
    split
    · rw [List.getElem?_eq_getElem (by omega)]
      exact ⟨_, rfl⟩
    · rw [if_neg (by omega), List.getElem?_eq_getElem (by omega), List.getElem?_eq_getElem (by omega)]
      exact ⟨_, rfl⟩
  let quiet (c : Option (List ℚ)) : Bool := c.elim true fun c => (Verif.Node.canPropagate (1 / 10 ^ 9) c).getD true
  obtain ⟨s, k, h1, h2, h3, h4, h5⟩ := delayed (h := shaper) (s := shaperNew o) (P := fun c => c ≠ .curve [])
    (specC := fun cs => ⟨first ShaperCall.curve? cs, last ShaperCall.oversample? o cs⟩)
    (specR := fun cs => ⟨first ShaperCall.curve? cs, last ShaperCall.oversample? o cs,
      quiet (first ShaperCall.curve? cs)⟩)
    (by
      intro cs c hc
      cases c with
      | oversample x =>
        refine .inr (.inr ⟨_, _, rfl, ?_, ?_⟩) <;>
          simp [shaper, first_append, last_append, ShaperCall.curve?, ShaperCall.oversample?]
      | curve c =>
        have hc' : c ≠ [] := fun h => hc (by rw [h])
        cases hf : first ShaperCall.curve? cs with
        | some y =>
          refine .inl ⟨by simp [shaper, hf], ?_, ?_⟩ <;>
            simp [first_append, last_append, hf, ShaperCall.curve?, ShaperCall.oversample?]
        | none =>
          obtain ⟨q, hq⟩ := hprop c hc'
          refine .inr (.inr ⟨_, _, by simp only [shaper, hf, Option.isSome_none, Bool.false_eq_true, if_false]; rfl,
            ?_, ?_⟩)
          · simp [first_append, last_append, hf, ShaperCall.curve?, ShaperCall.oversample?]
          · simp only [shaper, hq]
            simp [-one_div, first_append, last_append, hf, ShaperCall.curve?, ShaperCall.oversample?, quiet, hq])
    rfl rfl rfl xs (fun c hc he => hne (he ▸ hc))
  refine ⟨s, k, h1, by rw [h2], by rw [h2], h3, by rw [h4], by rw [h4], fun hn => ?_, fun hq c hc => ?_⟩
  · rw [h5 hn, h2]
    exact ⟨rfl, rfl⟩
  · rw [h4] at hq hc
    dsimp only at hq hc
    rw [hc] at hq
    have hmem : .curve c ∈ calls xs := by
      have := List.mem_of_head? hc
      rw [List.mem_filterMap] at this
      obtain ⟨d, hd, hd'⟩ := this
      cases d with
      | curve d => cases hd'; exact List.mem_of_mem_take hd
      | oversample o => cases hd'
    obtain ⟨q, hq'⟩ := hprop c (by rintro rfl; exact hne hmem)
    simp only [quiet, Option.elim, hq', Option.getD_some] at hq
    subst hq
    obtain ⟨y, hy1, hy2⟩ := Verif.Node.applyCurve_zero hq'
    exact ⟨y, hy1, hy2 rfl⟩

/-- C91 is false for an empty curve: it is accepted, and the renderer panics. -/
theorem C91_negated_empty (o : Oversample) :
    (shaper.run (shaperNew o) [.call (.curve [])]).map (fun s => s.ctl.curve) = some (some []) ∧
      (shaper.run (shaperNew o) [.call (.curve []), .deliver]).isNone = true := by
  constructor
  · rfl
  · simp [Halves.run, Halves.step, shaper, shaperNew, Verif.Node.canPropagate]

/-! ## Convolver -/

section
variable {B : Type}

/-- the accepted buffer -/
def ConvCall.buffer? (ok : B → Bool) : ConvCall B → Option B
  | .buffer b => if ok b then some b else none
  | .normalize _ => none

def ConvCall.normalize? : ConvCall B → Option Bool
  | .buffer _ => none
  | .normalize on => some on

/-- the accepted buffers, each with the value of `normalize` at the time of the call -/
def withNormalize (ok : B → Bool) : Bool → List (ConvCall B) → List (B × Bool)
  | _, [] => []
  | n, .buffer b :: cs => if ok b then (b, n) :: withNormalize ok n cs else withNormalize ok n cs
  | _, .normalize on :: cs => withNormalize ok on cs

theorem withNormalize_append (ok : B → Bool) (n : Bool) (cs ds : List (ConvCall B)) :
    withNormalize ok n (cs ++ ds) =
      withNormalize ok n cs ++ withNormalize ok (last ConvCall.normalize? n cs) ds := by
  induction cs generalizing n with
  | nil => rfl
  | cons c cs ih =>
    have hl : last ConvCall.normalize? n (c :: cs) =
        last ConvCall.normalize? (((ConvCall.normalize? c).getD n)) cs := by
      unfold last
      cases hc : ConvCall.normalize? c with
      | none => simp [hc]
      | some x => simp [hc, List.getLast?_cons]
    rw [hl]
    cases c with
    | buffer b =>
      simp only [List.cons_append, withNormalize, ConvCall.normalize?, Option.getD_none]
      split
      · rw [ih]; rfl
      · rw [ih]
    | normalize on => simp only [List.cons_append, withNormalize, ConvCall.normalize?, Option.getD_some, ih]

/-- C91, convolver: the getters show the buffer accepted last and the value of `normalize` set last; the renderer uses
the buffer accepted last among the first `k` calls, normalized or not as was set when the buffer was given. -/
theorem C91_convolver (ok : B → Bool) (n : Bool) (xs : List (Step (ConvCall B))) :
    ∃ s k, (conv B ok).run (convNew B n) xs = some s ∧
      s.ctl.buffer = last (fun c => (ConvCall.buffer? ok c).map some) none (calls xs) ∧
      s.ctl.normalize = last ConvCall.normalize? n (calls xs) ∧ k ≤ (calls xs).length ∧
      s.ren = (withNormalize ok n ((calls xs).take k)).getLast? ∧
      (s.chan = [] → s.ren = (withNormalize ok n (calls xs)).getLast?) := by
  obtain ⟨s, k, h1, h2, h3, h4, h5⟩ := delayed (h := conv B ok) (s := convNew B n) (P := fun _ => True)
    (specC := fun cs => ⟨last (fun c => (ConvCall.buffer? ok c).map some) none cs, last ConvCall.normalize? n cs⟩)
    (specR := fun cs => (withNormalize ok n cs).getLast?)
    (by
      intro cs c _
      cases c with
      | normalize on =>
        refine .inr (.inl ⟨_, rfl, ?_, ?_⟩)
        · simp [last_append, ConvCall.buffer?, ConvCall.normalize?]
        · simp [withNormalize_append, withNormalize]
      | buffer b =>
        by_cases hb : ok b = true
        · refine .inr (.inr ⟨_, _, by simp only [conv, hb, if_true]; rfl, ?_, ?_⟩)
          · simp [last_append, ConvCall.buffer?, ConvCall.normalize?, hb]
          · simp [conv, withNormalize_append, withNormalize, hb]
        · refine .inl ⟨by simp [conv, hb], ?_, ?_⟩
          · simp [last_append, ConvCall.buffer?, ConvCall.normalize?, hb]
          · simp [withNormalize_append, withNormalize, hb])
    rfl rfl rfl xs (by simp)
  exact ⟨s, k, h1, by rw [h2], by rw [h2], h3, h4, h5⟩

end

/-! ## Panner -/

/-- is the value acceptable for the attribute: distances and the rolloff factor not negative (the maximal distance
positive), the gain of the cone between 0 and 1; NaN is not acceptable for these -/
def PanCall.Acceptable : PanCall → Prop
  | .refDistance x => x = .inf ∨ ∃ q ≥ 0, x = .fin q
  | .maxDistance x => x = .inf ∨ ∃ q > 0, x = .fin q
  | .rolloffFactor x => x = .inf ∨ ∃ q ≥ 0, x = .fin q
  | .coneOuterGain x => ∃ q ≥ 0, q ≤ 1 ∧ x = .fin q
  | _ => True

theorem ok_iff (c : PanCall) : c.ok = true ↔ c.Acceptable := by
  have h0 : ∀ x : FV, (FV.fin 0).le x = true ↔ (x = .inf ∨ ∃ q ≥ 0, x = .fin q) := by
    intro x; cases x <;> simp [FV.le]
  have h1 : ∀ x : FV, (FV.fin 0).lt x = true ↔ (x = .inf ∨ ∃ q > 0, x = .fin q) := by
    intro x; cases x <;> simp [FV.lt]
  cases c with
  | refDistance x => exact h0 x
  | maxDistance x => exact h1 x
  | rolloffFactor x => exact h0 x
  | coneOuterGain x => cases x <;> simp [PanCall.ok, PanCall.Acceptable, FV.le]
  | _ => simp [PanCall.ok, PanCall.Acceptable]

open Classical in
/-- the calls with acceptable values -/
noncomputable def acceptable (cs : List PanCall) : List PanCall := cs.filter fun c => decide c.Acceptable

def PanCall.distanceModel? : PanCall → Option DistModel
  | .distanceModel m => some m
  | _ => none
def PanCall.refDistance? : PanCall → Option FV
  | .refDistance x => some x
  | _ => none
def PanCall.maxDistance? : PanCall → Option FV
  | .maxDistance x => some x
  | _ => none
def PanCall.rolloffFactor? : PanCall → Option FV
  | .rolloffFactor x => some x
  | _ => none
def PanCall.coneInnerAngle? : PanCall → Option FV
  | .coneInnerAngle x => some x
  | _ => none
def PanCall.coneOuterAngle? : PanCall → Option FV
  | .coneOuterAngle x => some x
  | _ => none
def PanCall.coneOuterGain? : PanCall → Option FV
  | .coneOuterGain x => some x
  | _ => none
def PanCall.hrtf? : PanCall → Option Bool
  | .panningModel h => some h
  | _ => none

/-- each attribute has the acceptable value set last -/
noncomputable def panExpected (p : Pan) (cs : List PanCall) : Pan where
  distanceModel := last PanCall.distanceModel? p.distanceModel (acceptable cs)
  refDistance := last PanCall.refDistance? p.refDistance (acceptable cs)
  maxDistance := last PanCall.maxDistance? p.maxDistance (acceptable cs)
  rolloffFactor := last PanCall.rolloffFactor? p.rolloffFactor (acceptable cs)
  coneInnerAngle := last PanCall.coneInnerAngle? p.coneInnerAngle (acceptable cs)
  coneOuterAngle := last PanCall.coneOuterAngle? p.coneOuterAngle (acceptable cs)
  coneOuterGain := last PanCall.coneOuterGain? p.coneOuterGain (acceptable cs)
  hrtf := last PanCall.hrtf? p.hrtf (acceptable cs)

theorem panExpected_append (p : Pan) (cs : List PanCall) (c : PanCall) :
    panExpected p (cs ++ [c]) = if c.ok then (panExpected p cs).assign c else panExpected p cs := by
  have ha : acceptable (cs ++ [c]) = if c.ok then acceptable cs ++ [c] else acceptable cs := by
    unfold acceptable
    rw [List.filter_append]
    by_cases h : c.ok = true
    · rw [if_pos h, List.filter_cons_of_pos (by simpa using (ok_iff c).1 h)]
      rfl
    · rw [if_neg h, List.filter_cons_of_neg (by simpa using fun hc => h ((ok_iff c).2 hc))]
      simp
  by_cases h : c.ok = true
  · rw [if_pos h] at ha ⊢
    simp only [panExpected, ha, last_append]
    cases c <;> rfl
  · rw [if_neg h] at ha ⊢
    simp only [panExpected, ha]

/-- C91, panner: the constructor refuses unacceptable options (and only these); then every attribute shows the
acceptable value set last, other values are refused and change nothing, and the renderer has the values after the first
`k` calls (of which the first is the panning model of the options). -/
theorem C91_panner (p : Pan) :
    ((panNew p).isSome = true ↔ (PanCall.refDistance p.refDistance).Acceptable ∧
      (PanCall.maxDistance p.maxDistance).Acceptable ∧ (PanCall.rolloffFactor p.rolloffFactor).Acceptable ∧
      (PanCall.coneOuterGain p.coneOuterGain).Acceptable) ∧
    ∀ s0, panNew p = some s0 → ∀ xs, ∃ s k, pan.run s0 xs = some s ∧ s.ctl = panExpected p (calls xs) ∧
      k ≤ (calls xs).length + 1 ∧
      s.ren = panExpected { p with hrtf := false } ((.panningModel p.hrtf :: calls xs).take k) ∧
      (s.chan = [] → s.ren = s.ctl) := by
  constructor
  · unfold panNew
    rw [← ok_iff, ← ok_iff, ← ok_iff, ← ok_iff]
    split
    · rename_i h
      simp only [Bool.and_eq_true] at h
      simp only [Halves.step, pan, PanCall.ok, if_true, Option.isSome_some, true_iff]
      exact ⟨h.1.1.1, h.1.1.2, h.1.2, h.2⟩
    · rename_i h
      simp only [Bool.and_eq_true] at h
      simp only [Option.isSome_none, Bool.false_eq_true, false_iff]
      rintro ⟨h1, h2, h3, h4⟩
      exact h ⟨⟨⟨h1, h2⟩, h3⟩, h4⟩
  · intro s0 h0 xs
    have hrun : pan.run s0 xs = pan.run { ctl := p, ren := { p with hrtf := false } } (.call (.panningModel p.hrtf) :: xs) := by
      unfold panNew at h0
      split at h0
      · simp only [Halves.run, h0, Option.bind_some]
      · cases h0
    have hcalls : calls (Step.call (PanCall.panningModel p.hrtf) :: xs) = .panningModel p.hrtf :: calls xs := by
      simp [calls]
    have hnil : ∀ q, panExpected q [] = q := by intro q; cases q; rfl
    have hfirst : ∀ cs, panExpected { p with hrtf := false } (.panningModel p.hrtf :: cs) = panExpected p cs := by
      intro cs
      induction cs using List.reverseRecOn with
      | nil =>
        rw [hnil, show [PanCall.panningModel p.hrtf] = [] ++ [PanCall.panningModel p.hrtf] from rfl,
          panExpected_append, hnil]
        rfl
      | append_singleton cs c ih =>
        rw [show PanCall.panningModel p.hrtf :: (cs ++ [c]) = (PanCall.panningModel p.hrtf :: cs) ++ [c] from rfl,
          panExpected_append, panExpected_append, ih]
    obtain ⟨s, k, h1, h2, h3, h4, h5⟩ := delayed (h := pan) (P := fun _ => True)
      (s := { ctl := p, ren := { p with hrtf := false } }) (specC := panExpected p)
      (specR := panExpected { p with hrtf := false })
      (by
        intro cs c _
        by_cases hc : c.ok = true
        · refine .inr (.inr ⟨_, c, by simp only [pan, hc, if_true]; rfl, ?_, ?_⟩)
          · rw [panExpected_append, if_pos hc]
          · rw [panExpected_append, if_pos hc]
            rfl
        · refine .inl ⟨by simp [pan, hc], ?_, ?_⟩ <;> rw [panExpected_append, if_neg hc])
      (hnil p).symm (hnil _).symm rfl (.call (.panningModel p.hrtf) :: xs) (by simp)
    rw [hcalls] at h2 h3 h4 h5
    have hctl : s.ctl = panExpected p (calls xs) := by
      rw [h2]
      have : ∀ cs, panExpected p (.panningModel p.hrtf :: cs) = panExpected p cs := by
        intro cs
        induction cs using List.reverseRecOn with
        | nil =>
          rw [hnil, show [PanCall.panningModel p.hrtf] = [] ++ [PanCall.panningModel p.hrtf] from rfl,
            panExpected_append, hnil]
          rfl
        | append_singleton cs c ih =>
          rw [show PanCall.panningModel p.hrtf :: (cs ++ [c]) = (PanCall.panningModel p.hrtf :: cs) ++ [c] from rfl,
            panExpected_append, panExpected_append, ih]
      exact this _
    exact ⟨s, k, by rw [hrun]; exact h1, hctl, by simpa using h3, h4, fun hn => by rw [h5 hn, hfirst, hctl]⟩

/-! ## Biquad filter -/

/-- C91, biquad filter: the getter shows the type set last, the renderer has the one after the first `k` calls. -/
theorem C91_biquad {T : Type} (t : T) (xs : List (Step T)) :
    ∃ s k, (biquad T).run (biquadNew T t) xs = some s ∧ s.ctl = (calls xs).getLast?.getD t ∧ k ≤ (calls xs).length ∧
      s.ren = ((calls xs).take k).getLast?.getD t ∧ (s.chan = [] → s.ren = s.ctl) := by
  obtain ⟨s, k, h1, h2, h3, h4, h5⟩ := delayed (h := biquad T) (P := fun _ => True) (s := biquadNew T t)
    (specC := fun cs => cs.getLast?.getD t) (specR := fun cs => cs.getLast?.getD t)
    (fun cs c _ => .inr (.inr ⟨c, c, rfl, by simp, by simp [biquad]⟩)) rfl rfl rfl xs (by simp)
  exact ⟨s, k, h1, h2, h3, h4, fun hn => by rw [h5 hn, h2]⟩

/-! ## Examples -/

/-- a type, then a wave, then another type, which is ignored; two of the three messages have arrived -/
example : ((osc Nat).run (oscNew Nat .sine)
      [.call (.setType .square), .call (.setWave 7), .deliver, .call (.setType .triangle)]).map
      (fun s => (s.ctl, s.ren.type, s.ren.wave, s.chan.length)) = some (.custom, .square, none, 1) := by decide +kernel

/-- loop points that do not fit, set before the buffer -/
example : ((src Nat fun _ => 2).run (srcNew Nat true (.fin 0) (.fin 0))
      [.call (.loopStart (.fin 5)), .call (.buffer 3), .deliver, .deliver]).map
      (fun s => (s.ctl.start, s.ctl.stop, s.ren.start, s.ren.stop)) =
    some (.fin 5, .fin 0, .fin 2, .fin 2) := by decide +kernel

/-- a second curve is refused -/
example : (shaper.run (shaperNew .none) [.call (.curve [-1, 0, 1]), .call (.curve [1]), .deliver]).map
      (fun s => (s.ctl.curve, s.ren.curve, s.ren.quiet)) = some (some [-1, 0, 1], some [-1, 0, 1], true) := by
  decide +kernel

/-- `normalize` changes nothing until the next buffer -/
example : ((conv Nat fun b => b < 5).run (convNew Nat true)
      [.call (.buffer 3), .call (.normalize false), .call (.buffer 9), .deliver]).map
      (fun s => (s.ctl.buffer, s.ctl.normalize, s.ren)) = some (some 3, false, some (3, true)) := by decide +kernel

/-- a negative distance is refused, the panning model of the options arrives as a message -/
example : (panNew ⟨.inverse, .fin 1, .fin 10000, .fin 1, .fin 360, .fin 360, .fin 0, true⟩).bind (fun s =>
      (pan.run s [.call (.refDistance (.fin (-1))), .call (.refDistance (.fin 2)), .deliver]).map
      (fun s => (s.ctl.refDistance, s.ren.refDistance, s.ctl.hrtf, s.ren.hrtf))) =
    some (.fin 2, .fin 1, true, true) := by decide +kernel

example : ((biquad Nat).run (biquadNew Nat 0) [.call 1, .call 2, .deliver]).map (fun s => (s.ctl, s.ren)) = some (2, 1) := by
  decide +kernel

end Verif.Attr
