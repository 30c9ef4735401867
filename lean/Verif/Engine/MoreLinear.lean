import Verif.Engine.Superpose
import Verif.Engine.More
import Verif.Convolver.Props

/-!
# Biquad filter, stereo panner and convolver are linear

As `Verif.Engine.Linear`, for the further nodes of `Verif.Engine.More`: biquad filter
(`/repo/src/node/biquad_filter.rs`), stereo panner (`/repo/src/node/stereo_panner.rs`), convolver
(`/repo/src/node/convolver.rs`).
-/

namespace Verif.Engine

open Verif.Render

/-! ## Biquad filter -/

/-- sum of two memories -/
def plusXY (a b : Filter.XY) : Filter.XY := ⟨a.x1 + b.x1, a.x2 + b.x2, a.y1 + b.y1, a.y2 + b.y2⟩

theorem plusXY_zero : plusXY Filter.XY.zero Filter.XY.zero = Filter.XY.zero := by simp [plusXY, Filter.XY.zero]

theorem xyRun_length (ks : List Filter.Coefs) : ∀ (s : Filter.XY) (xs : List ℝ),
    (s.run ks xs).2.length = min ks.length xs.length := by
  induction ks with
  | nil => intro s xs; cases xs <;> simp [Filter.XY.run]
  | cons k ks ih =>
    intro s xs
    cases xs with
    | nil => simp [Filter.XY.run]
    | cons x xs =>
      simp only [Filter.XY.run, List.length_cons, ih]
      omega

theorem xyRun_plus (ks : List Filter.Coefs) : ∀ (s s' : Filter.XY) (xs xs' : List ℝ), xs.length = xs'.length →
    (plusXY s s').run ks (plus xs xs') =
      (plusXY (s.run ks xs).1 (s'.run ks xs').1, plus (s.run ks xs).2 (s'.run ks xs').2) := by
  induction ks with
  | nil => intro s s' xs xs' _; cases xs <;> cases xs' <;> simp [Filter.XY.run, plus]
  | cons k ks ih =>
    intro s s' xs xs' h
    match xs, xs', h with
    | [], [], _ => simp [Filter.XY.run, plus]
    | x :: xs, x' :: xs', h =>
      have h1 : (plusXY s s').step k (x + x') = (plusXY (s.step k x).1 (s'.step k x').1, (s.step k x).2 + (s'.step k x').2) := by
        have : k.b0 * (x + x') + k.b1 * (s.x1 + s'.x1) + k.b2 * (s.x2 + s'.x2) - k.a1 * (s.y1 + s'.y1) -
            k.a2 * (s.y2 + s'.y2) = k.b0 * x + k.b1 * s.x1 + k.b2 * s.x2 - k.a1 * s.y1 - k.a2 * s.y2 +
            (k.b0 * x' + k.b1 * s'.x1 + k.b2 * s'.x2 - k.a1 * s'.y1 - k.a2 * s'.y2) := by ring
        simp only [Filter.XY.step, plusXY, this]
      have h2 := ih (s.step k x).1 (s'.step k x').1 xs xs' (by simpa using h)
      rw [show plus (x :: xs) (x' :: xs') = (x + x') :: plus xs xs' from rfl]
      simp only [Filter.XY.run, h1, h2]
      rfl

theorem xyRun_zeros (ks : List Filter.Coefs) : ∀ N, (Filter.XY.zero.run ks (zeros N)).1 = Filter.XY.zero ∧
    ∀ i, (Filter.XY.zero.run ks (zeros N)).2.getD i 0 = 0 := by
  induction ks with
  | nil => intro N; cases N <;> simp [Filter.XY.run, zeros, List.replicate_succ]
  | cons k ks ih =>
    intro N
    cases N with
    | zero => simp [Filter.XY.run, zeros]
    | succ N =>
      have h1 : Filter.XY.zero.step k 0 = (Filter.XY.zero, 0) := by simp [Filter.XY.step, Filter.XY.zero]
      rw [show (zeros (N + 1) : List ℝ) = 0 :: zeros N from List.replicate_succ]
      simp only [Filter.XY.run, h1]
      refine ⟨(ih N).1, fun i => ?_⟩
      cases i with
      | zero => rfl
      | succ i => simpa using (ih N).2 i

/-- memory of a channel -/
noncomputable def xyAt (xy : List Filter.XY) (k : Nat) : Filter.XY := xy.getD k Filter.XY.zero

/-- a filter with `n` channels, or without memory -/
def XyOk (n : Nat) (xy : List Filter.XY) : Prop := xy.length = n ∨ ∀ s ∈ xy, s = Filter.XY.zero

theorem xyAt_zero {xy : List Filter.XY} (h : ∀ s ∈ xy, s = Filter.XY.zero) (k : Nat) : xyAt xy k = Filter.XY.zero := by
  unfold xyAt
  rw [List.getD_eq_getElem?_getD]
  cases hk : xy[k]? with
  | none => rfl
  | some s => exact h s (List.mem_of_getElem? hk)

theorem headD_silent {q : Sig ℝ} (h : Node.isSilent q = true) : q.headD none = none := by
  cases q with
  | nil => rfl
  | cons c q =>
    unfold Node.isSilent at h
    simp only [List.all_cons, Bool.and_eq_true] at h
    simpa using h.1

/-- What the filter does: each of the `n` channels runs on its own. -/
theorem biquad_spec {N n : Nat} (hn : 0 < n) {xy : List Filter.XY} (hx : XyOk n xy) {ks : List Filter.Coefs}
    (hk : ks.length = N) {q : Sig ℝ} (hq : Full N q) (hs : Shape n q) :
    XyOk n (Filter.biquad N xy ks q).1 ∧ Full N (Filter.biquad N xy ks q).2.1 ∧
      Shape n (Filter.biquad N xy ks q).2.1 ∧
      (∀ k, xyAt (Filter.biquad N xy ks q).1 k = if k < n then ((xyAt xy k).run ks (inAt N q k)).1 else Filter.XY.zero) ∧
      ∀ k i, Node.sample (Filter.biquad N xy ks q).2.1 k i =
        if k < n then ((xyAt xy k).run ks (inAt N q k)).2.getD i 0 else 0 := by
  unfold Filter.biquad
  by_cases h1 : Node.isSilent q = true ∧ ∀ s ∈ xy, s = Filter.XY.zero
  · rw [if_pos h1]
    have e1 := fun k => xyAt_zero h1.2 k
    have e2 := fun k => inAt_silent h1.1 N k
    refine ⟨hx, silence_full N, silence_shape n, fun k => ?_, fun k i => ?_⟩
    · simp only [e1, e2, xyRun_zeros, ite_self]
    · simp only [e1, e2, xyRun_zeros, ite_self, Node.sample_silence]
  · rw [if_neg h1]
    simp only
    generalize hst : (if Node.isSilent q = true then xy
      else xy.take q.length ++ List.replicate (q.length - xy.length) Filter.XY.zero) = sts
    have hlen : sts.length = n := by
      rw [← hst]
      split
      · rename_i h2
        rcases hx with h3 | h3
        · exact h3
        · exact absurd ⟨h2, h3⟩ h1
      · rename_i h2
        rcases hs with h3 | h3
        · rw [← h3]
          simp
          omega
        · exact absurd h3 h2
    have hget : ∀ k, k < n → sts.getD k Filter.XY.zero = xyAt xy k := by
      intro k hk
      rw [← hst]
      unfold xyAt
      split
      · rfl
      · rename_i h2
        have hn' : q.length = n := by
          rcases hs with h3 | h3
          · exact h3
          · exact absurd h3 h2
        rw [hn', List.getD_eq_getElem?_getD, List.getD_eq_getElem?_getD]
        by_cases h4 : k < xy.length
        · rw [List.getElem?_append_left (by simp; omega), List.getElem?_take, if_pos hk]
        · rw [List.getElem?_append_right (by simp; omega), List.getElem?_eq_none (l := xy) (by omega),
            List.getElem?_replicate_of_lt (by simp; omega)]
          rfl
    have hin : ∀ k, Node.Chan.data N (if Node.isSilent q = true then q.headD none else q.getD k none) = inAt N q k := by
      intro k
      split
      · rename_i h2
        rw [inAt_silent h2, headD_silent h2]
        rfl
      · rfl
    rw [hlen]
    have hrun : ((List.range n).map fun c => (sts.getD c Filter.XY.zero).run ks
          (Node.Chan.data N (if Node.isSilent q = true then q.headD none else q.getD c none))) =
        (List.range n).map fun c => (xyAt xy c).run ks (inAt N q c) := by
      refine List.map_congr_left fun c hc => ?_
      rw [hget c (List.mem_range.1 hc), hin]
    rw [hrun, List.map_map, List.map_map]
    refine ⟨.inl (by simp), ⟨fun h => ?_, fun l hl => ?_⟩, .inl (by simp), fun k => ?_, fun k i => ?_⟩
    · have := List.map_eq_nil_iff.1 h
      rw [List.range_eq_nil] at this
      omega
    · obtain ⟨c, _, hc⟩ := List.mem_map.1 hl
      simp only [Function.comp_apply, Option.some.injEq] at hc
      rw [← hc, xyRun_length, inAt_length hq, hk, min_self]
    · conv => lhs; unfold xyAt
      rw [List.getD_eq_getElem?_getD, List.getElem?_map]
      by_cases hk : k < n
      · rw [List.getElem?_range hk, if_pos hk]
        rfl
      · rw [List.getElem?_eq_none (by simpa using hk), if_neg hk]
        rfl
    · rw [sample_getD, List.getD, List.getElem?_map]
      by_cases hk : k < n
      · rw [List.getElem?_range hk, if_pos hk]
        rfl
      · rw [List.getElem?_eq_none (by simpa using hk), if_neg hk]
        rfl

/-- three filters, the memory of the third is the sum of the others -/
structure Xy3 (n : Nat) (f g h : List Filter.XY) : Prop where
  okf : XyOk n f
  okg : XyOk n g
  okh : XyOk n h
  adds : ∀ k, xyAt h k = plusXY (xyAt f k) (xyAt g k)

theorem inAt_plus {N n : Nat} {x y z : Sig ℝ} (hs : Sum3 N n x y z) (k : Nat) : inAt N z k = plus (inAt N x k) (inAt N y k) := by
  refine List.ext_getElem ?_ fun i h1 h2 => ?_
  · simp [plus, inAt_length hs.fx, inAt_length hs.fy, inAt_length hs.fz]
  · have hi : i < N := by rw [inAt_length hs.fz] at h1; exact h1
    have e := hs.adds k i hi
    rw [← inAt_getD N, ← inAt_getD N, ← inAt_getD N] at e
    simp only [List.getD] at e
    rw [List.getElem?_eq_getElem h1, List.getElem?_eq_getElem (by rw [inAt_length hs.fx]; exact hi),
      List.getElem?_eq_getElem (by rw [inAt_length hs.fy]; exact hi)] at e
    simp only [Option.getD_some] at e
    simp only [plus, List.getElem_zipWith]
    exact e

/-- A biquad filter is linear. -/
theorem biquad_sum3 {N n : Nat} (hn : 0 < n) {f g h : List Filter.XY} (h3 : Xy3 n f g h) {ks : List Filter.Coefs}
    (hk : ks.length = N) {x y z : Sig ℝ} (hs : Sum3 N n x y z) :
    Xy3 n (Filter.biquad N f ks x).1 (Filter.biquad N g ks y).1 (Filter.biquad N h ks z).1 ∧
      Sum3 N n (Filter.biquad N f ks x).2.1 (Filter.biquad N g ks y).2.1 (Filter.biquad N h ks z).2.1 := by
  obtain ⟨a2, a3, a4, a5, a6⟩ := biquad_spec hn h3.okf hk hs.fx hs.sx
  obtain ⟨b2, b3, b4, b5, b6⟩ := biquad_spec hn h3.okg hk hs.fy hs.sy
  obtain ⟨c2, c3, c4, c5, c6⟩ := biquad_spec hn h3.okh hk hs.fz hs.sz
  have hrun : ∀ k, (xyAt h k).run ks (inAt N z k) =
      (plusXY ((xyAt f k).run ks (inAt N x k)).1 ((xyAt g k).run ks (inAt N y k)).1,
        plus ((xyAt f k).run ks (inAt N x k)).2 ((xyAt g k).run ks (inAt N y k)).2) := by
    intro k
    rw [inAt_plus hs, h3.adds]
    exact xyRun_plus _ _ _ _ _ (by rw [inAt_length hs.fx, inAt_length hs.fy])
  refine ⟨⟨a2, b2, c2, fun k => ?_⟩, ⟨a3, b3, c3, a4, b4, c4, ?_⟩⟩
  · rw [a5, b5, c5, hrun]
    split
    · rfl
    · rw [plusXY_zero]
  · intro k i hi
    rw [a6, b6, c6, hrun]
    split
    · simp only [plus]
      refine Mix.getD_zipWith_add _ _ ?_ i
      rw [xyRun_length, xyRun_length, inAt_length hs.fx, inAt_length hs.fy]
    · rw [add_zero]

/-! ## Stereo panner -/

/-- what comes out of channel `k` for the samples `a`, `b` of `n` channels -/
noncomputable def panOut (n : Nat) (p : ℝ) (k : Nat) (a b : ℝ) : ℝ :=
  let r := if n = 1 then Node.panMono p a else Node.panStereo p a b
  if k = 0 then r.1 else if k = 1 then r.2 else 0

theorem panOut_add (n : Nat) (p : ℝ) (k : Nat) (a b a' b' : ℝ) :
    panOut n p k (a + a') (b + b') = panOut n p k a b + panOut n p k a' b' := by
  unfold panOut Node.panMono Node.panStereo
  by_cases h1 : n = 1
  · simp only [if_pos h1]
    split
    · ring
    · split <;> ring
  · simp only [if_neg h1]
    by_cases h2 : p ≤ 0
    · simp only [if_pos h2]
      split
      · ring
      · split <;> ring
    · simp only [if_neg h2]
      split
      · ring
      · split <;> ring

theorem panOut_zero (n : Nat) (p : ℝ) (k : Nat) : panOut n p k 0 0 = 0 := by
  have := panOut_add n p k 0 0 0 0
  simp only [add_zero] at this
  linarith

/-- What the panner does. -/
theorem panner_spec {N n : Nat} (hn : n = 1 ∨ n = 2) (pan : List ℝ) {q : Sig ℝ} (hs : Shape n q) :
    ∃ r, Node.panner N pan q = some r ∧ Full N r ∧ Shape 2 r ∧
      ∀ k f, f < N → Node.sample r k f = panOut n (Node.panAt pan f) k (Node.sample q 0 f) (Node.sample q 1 f) := by
  unfold Node.panner
  by_cases h0 : Node.isSilent q = true
  · rw [if_pos h0]
    refine ⟨_, rfl, silence_full N, silence_shape 2, fun k f _ => ?_⟩
    rw [Node.sample_silence, Node.sample_of_isSilent h0, Node.sample_of_isSilent h0, panOut_zero]
  · rw [if_neg h0]
    have hl : q.length = n := hs.resolve_right h0
    have hd : ∀ (m : Node.Chan ℝ) (f : Nat), (m.data N)[f]?.getD 0 = at' m f := by
      intro m f
      have := Node.data_getD N m f
      rw [List.getD_eq_getElem?_getD] at this
      rw [this]
      cases m <;> rfl
    rcases hn with rfl | rfl
    · match q, hl with
      | [m], _ =>
        refine ⟨_, rfl, ⟨by simp, by simp⟩, .inl rfl, fun k f hf => ?_⟩
        have e0 : Node.sample [m] 0 f = at' m f := by rw [sample_getD]; rfl
        rw [e0]
        match k with
        | 0 => simp [Node.sample, panOut, hf, hd]
        | 1 => simp [Node.sample, panOut, hf, hd]
        | k + 2 => simp [Node.sample, panOut]
    · match q, hl with
      | [l, r], _ =>
        refine ⟨_, rfl, ⟨by simp, by simp⟩, .inl rfl, fun k f hf => ?_⟩
        have e0 : Node.sample [l, r] 0 f = at' l f := by rw [sample_getD]; rfl
        have e1 : Node.sample [l, r] 1 f = at' r f := by rw [sample_getD]; rfl
        rw [e0, e1]
        match k with
        | 0 => simp [Node.sample, panOut, hf, hd]
        | 1 => simp [Node.sample, panOut, hf, hd]
        | k + 2 => simp [Node.sample, panOut]

/-- A stereo panner is linear. -/
theorem panner_sum3 {N n : Nat} (hn : n = 1 ∨ n = 2) (pan : List ℝ) {x y z : Sig ℝ} (hs : Sum3 N n x y z) :
    ∃ a b d, Node.panner N pan x = some a ∧ Node.panner N pan y = some b ∧ Node.panner N pan z = some d ∧
      Sum3 N 2 a b d := by
  obtain ⟨a, a1, a2, a3, a4⟩ := panner_spec (N := N) hn pan hs.sx
  obtain ⟨b, b1, b2, b3, b4⟩ := panner_spec (N := N) hn pan hs.sy
  obtain ⟨d, d1, d2, d3, d4⟩ := panner_spec (N := N) hn pan hs.sz
  refine ⟨a, b, d, a1, b1, d1, a2, b2, d2, a3, b3, d3, fun k f hf => ?_⟩
  rw [a4 k f hf, b4 k f hf, d4 k f hf, hs.adds 0 f hf, hs.adds 1 f hf, panOut_add]

end Verif.Engine
