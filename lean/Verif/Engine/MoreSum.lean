import Verif.Engine.MoreLinear

/-!
# C102 with biquad filters, stereo panners and convolvers
-/

namespace Verif.Engine

open Verif.Render

/-! ## Convolver -/

theorem conv_plus (h : List ℝ) {xs ys : List ℝ} (hl : xs.length = ys.length) (n : Nat) :
    Convolver.conv h (plus xs ys) n = Convolver.conv h xs n + Convolver.conv h ys n := by
  unfold Convolver.conv
  rw [← Finset.sum_add_distrib]
  refine Finset.sum_congr rfl fun k _ => ?_
  split
  · rw [show (plus xs ys).getD (n - k) 0 = _ from Mix.getD_zipWith_add _ _ hl _, mul_add]
  · simp

/-- one channel or as many as the node has -/
def Lens (n : Nat) (q : Sig ℝ) : Prop := q.length = 1 ∨ q.length = n

/-- three inputs of a node, with a number of channels that the convolver can take -/
structure In3 (N n : Nat) (x y z : Sig ℝ) : Prop where
  sum : Sum3 N n x y z
  lx : Lens n x
  ly : Lens n y
  lz : Lens n z

theorem chan_shape {N n : Nat} {q : Sig ℝ} (h : Shape n q) (c : Nat) :
    Convolver.chan N q (min c (q.length - 1)) = inAt N q (min c (n - 1)) := by
  rcases h with h | h
  · rw [h]; rfl
  · rw [Convolver.chan_silent h, inAt_silent h]; rfl

theorem stream_plus {N n : Nat} (c : Nat) (ins : List (Sig ℝ × Sig ℝ × Sig ℝ))
    (h : ∀ x ∈ ins, In3 N n x.1 x.2.1 x.2.2) :
    Convolver.stream N c (ins.map (·.2.2)) =
      plus (Convolver.stream N c (ins.map (·.1))) (Convolver.stream N c (ins.map (·.2.1))) := by
  induction ins with
  | nil => rfl
  | cons x ins ih =>
    have hx := (h x (by simp)).sum
    have := ih fun y hy => h y (by simp [hy])
    unfold Convolver.stream at this ⊢
    simp only [List.map_cons, List.flatMap_cons, this, chan_shape hx.sx, chan_shape hx.sy, chan_shape hx.sz, inAt_plus hx]
    unfold plus
    rw [List.zipWith_append (by rw [inAt_length hx.fx, inAt_length hx.fy])]

theorem feed_length (xs : List ℝ) : ∀ e : Convolver.Engine ℝ, (e.feed xs).2.length = xs.length := by
  induction xs with
  | nil => intro e; rfl
  | cons x xs ih => intro e; simp [Convolver.Engine.feed, ih]

/-- how many channels come out -/
def width (n : Nat) (w : List Nat) : Nat := if n = 4 then 2 else w.length

/-- The shape of the output of a running convolver. -/
theorem conv_shape {N n : Nat} {w : List Nat} {s s' : Convolver.Conv ℝ} {q : Sig ℝ} {o : Sig ℝ × Bool}
    {es : List (Convolver.Engine ℝ)} (he : s.engines = some es) (hn : s.chans = n) (hw : n = 4 → w.length = 4) (h0 : w ≠ [])
    (hp : Convolver.plan q.length n = some (w.map fun c => min c (q.length - 1))) (hq : Full N q)
    (h : s.step N q = some (s', o)) : Full N o.1 ∧ Shape (width n w) o.1 := by
  unfold Convolver.Conv.step at h
  split at h
  · cases h
    exact ⟨silence_full N, silence_shape _⟩
  · simp only [he, hn, hp] at h
    split at h
    · cases h
    · rename_i hlen
      rw [List.length_map] at hlen
      simp only [Option.some.injEq, Prod.mk.injEq] at h
      obtain ⟨-, rfl⟩ := h
      simp only
      generalize hO : List.zipWith (fun e c => (Convolver.Engine.feed e (Convolver.chan N q c)).2) es
        (w.map fun c => min c (q.length - 1)) = outs
      have hl : outs.length = w.length := by rw [← hO]; simp; omega
      have ho : ∀ l ∈ outs, l.length = N := by
        intro l hl
        rw [← hO] at hl
        obtain ⟨k, hk⟩ := List.mem_iff_getElem?.1 hl
        rw [List.getElem?_zipWith] at hk
        split at hk
        · rw [← Option.some.inj hk, feed_length]
          exact Convolver.chan_length hq _
        · cases hk
      unfold Convolver.mixDown width
      by_cases h4 : n = 4
      · rw [if_pos h4, if_pos h4]
        have hg : ∀ j, j < 4 → (outs.getD j []).length = N := by
          intro j hj
          have := hw h4
          rw [List.getD_eq_getElem?_getD, List.getElem?_eq_getElem (by omega)]
          exact ho _ (List.getElem_mem _)
        refine ⟨⟨by simp, fun l hl => ?_⟩, .inl rfl⟩
        simp only [List.mem_cons, Option.some.injEq, List.not_mem_nil, or_false] at hl
        rcases hl with rfl | rfl
        · rw [List.length_zipWith, hg 0 (by omega), hg 2 (by omega), min_self]
        · rw [List.length_zipWith, hg 1 (by omega), hg 3 (by omega), min_self]
      · rw [if_neg h4, if_neg h4]
        refine ⟨⟨fun h => ?_, fun l hl => ?_⟩, .inl (by rw [List.length_map, hl])⟩
        · have := List.map_eq_nil_iff.1 h
          rw [this] at hl
          exact h0 (List.length_eq_zero_iff.1 hl.symm)
        · obtain ⟨l', hl', e⟩ := List.mem_map.1 hl
          cases e
          exact ho _ hl'

theorem sample_beyond {m : Nat} {q : Sig ℝ} (h : Shape m q) {k : Nat} (hk : m ≤ k) (f : Nat) : Node.sample q k f = 0 := by
  rcases h with h | h
  · unfold Node.sample
    rw [List.getElem?_eq_none (by omega)]
  · exact Node.sample_of_isSilent h k f

/-- three convolvers of `m` channels without an impulse response, or with the same one and with inputs of which the third
is the sum of the others -/
inductive Conv3 (N m : Nat) : Convolver.Conv ℝ → Convolver.Conv ℝ → Convolver.Conv ℝ → Prop
  | empty (s s' s'' : Convolver.Conv ℝ) (h : s.engines = none) (h' : s'.engines = none) (h'' : s''.engines = none) :
    Conv3 N m s s' s''
  | full (s s' s'' : Convolver.Conv ℝ) (n L : Nat) (w : List Nat) (irs : List (List ℝ)) (ins : List (Sig ℝ × Sig ℝ × Sig ℝ))
    (hins : ∀ x ∈ ins, In3 N m x.1 x.2.1 x.2.2) (h0 : w ≠ []) (hw : n = 4 → w.length = 4)
    (hirs : ∀ h ∈ irs, h.length ≤ L)
    (hp : ∀ j, j = 1 ∨ j = m → Convolver.plan j n = some (w.map fun c => min c (j - 1)))
    (h : Convolver.Inv N n L w irs s (ins.map (·.1))) (h' : Convolver.Inv N n L w irs s' (ins.map (·.2.1)))
    (h'' : Convolver.Inv N n L w irs s'' (ins.map (·.2.2))) : Conv3 N m s s' s''

/-- without an impulse response the input is passed on -/
theorem conv_empty {N n : Nat} {s : Convolver.Conv ℝ} (h : s.engines = none) {q : Sig ℝ} (hq : Full N q) (hs : Shape n q) :
    ∃ s' o, s.step N q = some (s', o) ∧ s'.engines = none ∧ Full N o.1 ∧ Shape n o.1 ∧
      ∀ k f, Node.sample o.1 k f = Node.sample q k f := by
  unfold Convolver.Conv.step
  split
  · rename_i h1
    exact ⟨_, _, rfl, h, silence_full N, silence_shape n, fun k f => by
      rw [Node.sample_silence, Node.sample_of_isSilent h1.1]⟩
  · simp only [h]
    exact ⟨_, _, rfl, rfl, hq, hs, fun k f => rfl⟩

/-- A convolver is linear, if it has a stereo or "true stereo" response, or mono inputs. -/
theorem conv_sum3 {N m : Nat} {s s' s'' : Convolver.Conv ℝ} (hc : Conv3 N m s s' s'') {x y z : Sig ℝ} (hi : In3 N m x y z) :
    ∃ a b d, s.step N x = some a ∧ s'.step N y = some b ∧ s''.step N z = some d ∧ Conv3 N m a.1 b.1 d.1 ∧
      ∃ n, Sum3 N n a.2.1 b.2.1 d.2.1 := by
  have hs := hi.sum
  cases hc with
  | empty h h' h'' =>
    obtain ⟨a, o, a1, a2, a3, a4, a5⟩ := conv_empty h hs.fx hs.sx
    obtain ⟨b, p, b1, b2, b3, b4, b5⟩ := conv_empty h' hs.fy hs.sy
    obtain ⟨d, r, d1, d2, d3, d4, d5⟩ := conv_empty h'' hs.fz hs.sz
    refine ⟨_, _, _, a1, b1, d1, .empty _ _ _ a2 b2 d2, m, a3, b3, d3, a4, b4, d4, fun k f hf => ?_⟩
    simp only [a5, b5, d5]
    exact hs.adds k f hf
  | full n L w irs ins hins h0 hw hirs hp h h' h'' =>
    have hins' : ∀ q ∈ ins ++ [(x, y, z)], In3 N m q.1 q.2.1 q.2.2 := by
      intro q hq
      rcases List.mem_append.1 hq with hq | hq
      · exact hins q hq
      · rw [List.mem_singleton.1 hq]; exact hi
    obtain ⟨a, o, a1, a2, a3, -, -⟩ := Convolver.step_good h (by
      intro q hq
      obtain ⟨t, ht, rfl⟩ := List.mem_map.1 hq
      exact (hins t ht).sum.fx) (q := x) hs.fx (hp _ hi.lx) hw hirs
    obtain ⟨b, p, b1, b2, b3, -, -⟩ := Convolver.step_good h' (by
      intro q hq
      obtain ⟨t, ht, rfl⟩ := List.mem_map.1 hq
      exact (hins t ht).sum.fy) (q := y) hs.fy (hp _ hi.ly) hw hirs
    obtain ⟨d, r, d1, d2, d3, -, -⟩ := Convolver.step_good h'' (by
      intro q hq
      obtain ⟨t, ht, rfl⟩ := List.mem_map.1 hq
      exact (hins t ht).sum.fz) (q := z) hs.fz (hp _ hi.lz) hw hirs
    obtain ⟨es, he, -⟩ := h.ex
    obtain ⟨es', he', -⟩ := h'.ex
    obtain ⟨es'', he'', -⟩ := h''.ex
    obtain ⟨a4, a5⟩ := conv_shape he h.chans hw h0 (hp _ hi.lx) hs.fx a1
    obtain ⟨b4, b5⟩ := conv_shape he' h'.chans hw h0 (hp _ hi.ly) hs.fy b1
    obtain ⟨d4, d5⟩ := conv_shape he'' h''.chans hw h0 (hp _ hi.lz) hs.fz d1
    have ea : ins.map (·.1) ++ [x] = (ins ++ [(x, y, z)]).map (·.1) := by simp
    have eb : ins.map (·.2.1) ++ [y] = (ins ++ [(x, y, z)]).map (·.2.1) := by simp
    have ed : ins.map (·.2.2) ++ [z] = (ins ++ [(x, y, z)]).map (·.2.2) := by simp
    rw [ea] at a2 a3
    rw [eb] at b2 b3
    rw [ed] at d2 d3
    simp only [List.length_map] at a3 b3 d3
    have hcv : ∀ (l : List ℝ) (c t : Nat), Convolver.conv l (Convolver.stream N c ((ins ++ [(x, y, z)]).map (·.2.2))) t =
        Convolver.conv l (Convolver.stream N c ((ins ++ [(x, y, z)]).map (·.1))) t +
          Convolver.conv l (Convolver.stream N c ((ins ++ [(x, y, z)]).map (·.2.1))) t := by
      intro l c t
      rw [stream_plus c _ hins', conv_plus]
      rw [Convolver.stream_length, Convolver.stream_length, List.length_map, List.length_map]
      · intro q hq
        obtain ⟨t, ht, rfl⟩ := List.mem_map.1 hq
        exact (hins' t ht).sum.fy
      · intro q hq
        obtain ⟨t, ht, rfl⟩ := List.mem_map.1 hq
        exact (hins' t ht).sum.fx
    refine ⟨_, _, _, a1, b1, d1, .full _ _ _ n L w irs _ hins' h0 hw hirs hp a2 b2 d2, width n w, a4, b4, d4, a5, b5, d5,
      fun k f hf => ?_⟩
    by_cases hk : width n w ≤ k
    · rw [sample_beyond a5 hk, sample_beyond b5 hk, sample_beyond d5 hk, add_zero]
    · have ga := a3 f hf
      have gb := b3 f hf
      have gd := d3 f hf
      unfold width at hk
      by_cases h4 : n = 4
      · rw [if_pos h4] at ga gb gd hk
        rw [ga k (by omega), gb k (by omega), gd k (by omega), hcv, hcv]
        ring
      · rw [if_neg h4] at ga gb gd hk
        rw [ga k (by omega), gb k (by omega), gd k (by omega), hcv]

/-- `set_buffer` -/
theorem conv_set3 {N m : Nat} (s s' s'' : Convolver.Conv ℝ) {ir : List (List ℝ)} (scale : ℝ) {L : Nat}
    (hL : ∀ h ∈ ir, h.length = L) (hm : m = 1 ∨ m = 2)
    (hc : ir.length = 2 ∨ ir.length = 4 ∨ (ir.length = 1 ∧ m = 1)) :
    Conv3 N m (s.setBuffer ir scale) (s'.setBuffer ir scale) (s''.setBuffer ir scale) := by
  have h0 : ir ≠ [] := by
    intro h
    rw [h] at hc
    simp at hc
  have hirs : ∀ h ∈ (Convolver.makeEngines ir scale).map (·.ir), h.length ≤ L := by
    intro h hh
    obtain ⟨e, he, rfl⟩ := List.mem_map.1 hh
    unfold Convolver.makeEngines at he
    obtain ⟨i, _, rfl⟩ := List.mem_map.1 he
    rw [List.length_map]
    apply le_of_eq
    apply hL
    rw [List.getD_eq_getElem?_getD, List.getElem?_eq_getElem (by
      have : 0 < ir.length := List.length_pos_iff.2 h0
      omega)]
    exact List.getElem_mem _
  have hw : ∃ w : List Nat, w ≠ [] ∧ w.length ≤ max ir.length 2 ∧ (ir.length = 4 → w.length = 4) ∧
      ∀ j, j = 1 ∨ j = m → Convolver.plan j ir.length = some (w.map fun c => min c (j - 1)) := by
    rcases hc with h | h | ⟨h, h'⟩
    · refine ⟨[0, 1], by simp, by simp, by omega, fun j hj => ?_⟩
      have : j = 1 ∨ j = 2 := by omega
      rcases this with rfl | rfl <;> simp [h, Convolver.plan]
    · refine ⟨[0, 0, 1, 1], by simp, by simp [h], by simp, fun j hj => ?_⟩
      have : j = 1 ∨ j = 2 := by omega
      rcases this with rfl | rfl <;> simp [h, Convolver.plan]
    · refine ⟨[0], by simp, by simp, by omega, fun j hj => ?_⟩
      have : j = 1 := by omega
      subst this
      simp [h, Convolver.plan]
  obtain ⟨w, w0, w1, w2, w3⟩ := hw
  exact .full _ _ _ ir.length L w _ [] (by simp) w0 w2 hirs w3 (Convolver.inv_set s scale h0 hL w1)
    (Convolver.inv_set s' scale h0 hL w1) (Convolver.inv_set s'' scale h0 hL w1)

/-! ## The three renderings -/

/-- related processors; `M` is the greatest number of channels of a convolver -/
inductive RProc3 (N M : Nat) (c : Cfg) : RProc → RProc → RProc → Prop
  | base (p q r : Proc ℝ) (h : Proc3 N c p q r) : RProc3 N M c (.base p) (.base q) (.base r)
  | biquad (coefs : Nat → List Filter.Coefs) (k : Nat) (f g h : List Filter.XY) (hc : ∀ j, (coefs j).length = N)
    (h3 : Xy3 c.count f g h) : RProc3 N M c (.biquad coefs k f) (.biquad coefs k g) (.biquad coefs k h)
  | stereo (pan : Nat → List ℝ) (k : Nat) (hc : c.count ≤ 2) : RProc3 N M c (.stereo pan k) (.stereo pan k) (.stereo pan k)
  | conv (s s' s'' : Convolver.Conv ℝ) (hc : c.count ≤ M) (h : Conv3 N c.count s s' s'') :
    RProc3 N M c (.conv s) (.conv s') (.conv s'')

/-- related messages: sources get other things to play, convolvers the same impulse response, of one channel only if
convolvers have one channel -/
inductive RMsg3 (N M : Nat) : RMsg → RMsg → RMsg → Prop
  | play (p q r : Nat → Sig ℝ × Bool) (h : PlaysSum N p q r) : RMsg3 N M (.play p) (.play q) (.play r)
  | buffer (ir : List (List ℝ)) (scale : ℝ) (L : Nat) (hL : ∀ h ∈ ir, h.length = L)
    (hc : ir.length = 2 ∨ ir.length = 4 ∨ (ir.length = 1 ∧ M = 1)) : RMsg3 N M (.buffer ir scale) (.buffer ir scale) (.buffer ir scale)

theorem rprocess_three (e : Consts ℝ) (M : Nat) (c : Cfg) (hc : Explicit c) (p q r : RProc)
    (ins outs : List (Sig ℝ × Sig ℝ × Sig ℝ)) (hp : RProc3 e.N M c p q r) (hi : ∀ x ∈ ins, In3 e.N c.count x.1 x.2.1 x.2.2)
    (ho : ∀ x ∈ outs, ∃ n, Sum3 e.N n x.1 x.2.1 x.2.2) :
    (rprocess e p (ins.map (·.1)) (outs.map (·.1)) = none ∧ rprocess e q (ins.map (·.2.1)) (outs.map (·.2.1)) = none ∧
      rprocess e r (ins.map (·.2.2)) (outs.map (·.2.2)) = none) ∨
    ∃ a b d, rprocess e p (ins.map (·.1)) (outs.map (·.1)) = some a ∧
      rprocess e q (ins.map (·.2.1)) (outs.map (·.2.1)) = some b ∧
      rprocess e r (ins.map (·.2.2)) (outs.map (·.2.2)) = some d ∧
      RProc3 e.N M c a.1 b.1 d.1 ∧ ∀ (k : Nat) x y z, a.2.1[k]? = some x → b.2.1[k]? = some y → d.2.1[k]? = some z →
        ∃ n, Sum3 e.N n x y z := by
  have htail : ∀ (os : List (Sig ℝ × Sig ℝ × Sig ℝ)), (∀ x ∈ os, ∃ n, Sum3 e.N n x.1 x.2.1 x.2.2) →
      ∀ (u v w : Sig ℝ), (∃ n, Sum3 e.N n u v w) → ∀ (k : Nat) x y z, (u :: os.map (·.1))[k]? = some x →
        (v :: os.map (·.2.1))[k]? = some y → (w :: os.map (·.2.2))[k]? = some z → ∃ n, Sum3 e.N n x y z := by
    intro os hos u v w huvw k x y z hx hy hz
    cases k with
    | zero =>
      simp only [List.getElem?_cons_zero, Option.some.injEq] at hx hy hz
      subst hx hy hz
      exact huvw
    | succ k =>
      simp only [List.getElem?_cons_succ, List.getElem?_map, Option.map_eq_some_iff] at hx hy hz
      obtain ⟨o, h1, rfl⟩ := hx
      obtain ⟨o', h2, rfl⟩ := hy
      obtain ⟨o'', h3, rfl⟩ := hz
      rw [h1] at h2 h3
      cases h2
      cases h3
      exact hos o (List.mem_of_getElem? h1)
  cases hp with
  | base p q r h =>
    rcases process_three e c hc p q r ins outs h (fun x hx => (hi x hx).sum) ho with ⟨h1, h2, h3⟩ | ⟨a, b, d, h1, h2, h3, h4, h5⟩
    · refine .inl ⟨?_, ?_, ?_⟩
      · simp only [rprocess, h1, Option.map_none]
      · simp only [rprocess, h2, Option.map_none]
      · simp only [rprocess, h3, Option.map_none]
    · refine .inr ⟨(.base a.1, a.2), (.base b.1, b.2), (.base d.1, d.2), ?_, ?_, ?_, .base _ _ _ h4, h5⟩
      · simp only [rprocess, h1, Option.map_some]
      · simp only [rprocess, h2, Option.map_some]
      · simp only [rprocess, h3, Option.map_some]
  | biquad coefs k f g h hk h3 =>
    cases ins with
    | nil => exact .inl ⟨rfl, rfl, rfl⟩
    | cons i ins =>
      cases outs with
      | nil => exact .inl ⟨rfl, rfl, rfl⟩
      | cons o os =>
        have hs := biquad_sum3 hc.2 h3 (hk k) (hi i (by simp)).sum
        refine .inr ⟨_, _, _, rfl, rfl, rfl, .biquad coefs (k + 1) _ _ _ hk hs.1, ?_⟩
        exact htail os (fun x hx => ho x (by simp [hx])) _ _ _ ⟨_, hs.2⟩
  | stereo pan k h2 =>
    cases ins with
    | nil => exact .inl ⟨rfl, rfl, rfl⟩
    | cons i ins =>
      cases outs with
      | nil => exact .inl ⟨rfl, rfl, rfl⟩
      | cons o os =>
        obtain ⟨a, b, d, a1, b1, d1, hs⟩ := panner_sum3 (by have := hc.2; omega) (pan k) (hi i (by simp)).sum
        simp only [List.map_cons, rprocess, a1, b1, d1, Option.map_some]
        refine .inr ⟨_, _, _, rfl, rfl, rfl, .stereo pan (k + 1) h2, ?_⟩
        exact htail os (fun x hx => ho x (by simp [hx])) _ _ _ ⟨_, hs⟩
  | conv s s' s'' h2 h3 =>
    cases ins with
    | nil => exact .inl ⟨rfl, rfl, rfl⟩
    | cons i ins =>
      cases outs with
      | nil => exact .inl ⟨rfl, rfl, rfl⟩
      | cons o os =>
        obtain ⟨a, b, d, a1, b1, d1, hs, h4⟩ := conv_sum3 h3 (hi i (by simp))
        simp only [List.map_cons, rprocess, a1, b1, d1, Option.map_some]
        refine .inr ⟨_, _, _, rfl, rfl, rfl, .conv _ _ _ h2 hs, ?_⟩
        exact htail os (fun x hx => ho x (by simp [hx])) _ _ _ h4

theorem addSig_lens (N : Nat) (r : ℝ) (c : Cfg) (hm : 2 ≤ c.mode) {x y : Sig ℝ} (hx : Full N x) (hy : Full N y) :
    Lens c.count (addSig N r c x y) := by
  right
  rw [addSig_length N r c hx.1 hy.1]
  unfold sumCount
  have : modeOf c.mode = .explicit := by
    unfold modeOf
    split
    · omega
    · omega
    · rfl
  rw [this]
  rfl

/-- The three renderings. -/
noncomputable def rsuperposed (e : Consts ℝ) (M : Nat) (hM : M ≤ 2) : Trio (rsem e) where
  okP c p q r := Explicit c ∧ RProc3 e.N M c p q r
  okI c x y z := In3 e.N c.count x y z
  okO x y z := ∃ n, Sum3 e.N n x y z
  okM := RMsg3 e.N M
  okC := Explicit
  okP_okC _ _ _ _ h := h.1
  process c p q r ins outs _ hp hi ho := by
    rcases rprocess_three e M c hp.1 p q r ins outs hp.2 hi ho with h | ⟨a, b, d, h1, h2, h3, h4, h5⟩
    · exact .inl h
    · exact .inr ⟨a, b, d, h1, h2, h3, ⟨hp.1, h4⟩, h5⟩
  onmessage c p q r m m' m'' hp hm := by
    obtain ⟨hc, hp⟩ := hp
    cases hp with
    | base p q r h =>
      cases hm with
      | buffer ir scale L hL hn => exact .inr ⟨_, _, _, rfl, rfl, rfl, hc, .base _ _ _ h⟩
      | play m m' m'' hm =>
        rcases (superposed e).onmessage c p q r m m' m'' ⟨hc, h⟩ hm with ⟨h1, h2, h3⟩ | ⟨a, b, d, h1, h2, h3, h4⟩
        · refine .inl ⟨?_, ?_, ?_⟩
          · show ((sem e).onmessage p m).map RProc.base = none
            rw [h1]; rfl
          · show ((sem e).onmessage q m').map RProc.base = none
            rw [h2]; rfl
          · show ((sem e).onmessage r m'').map RProc.base = none
            rw [h3]; rfl
        · refine .inr ⟨.base a, .base b, .base d, ?_, ?_, ?_, hc, .base _ _ _ h4.2⟩
          · show ((sem e).onmessage p m).map RProc.base = _
            rw [h1]; rfl
          · show ((sem e).onmessage q m').map RProc.base = _
            rw [h2]; rfl
          · show ((sem e).onmessage r m'').map RProc.base = _
            rw [h3]; rfl
    | biquad coefs k f g h hk h3 =>
      cases hm <;> exact .inr ⟨_, _, _, rfl, rfl, rfl, hc, .biquad coefs k f g h hk h3⟩
    | stereo pan k h2 => cases hm <;> exact .inr ⟨_, _, _, rfl, rfl, rfl, hc, .stereo pan k h2⟩
    | conv s s' s'' h2 h3 =>
      cases hm with
      | play m m' m'' hm => exact .inr ⟨_, _, _, rfl, rfl, rfl, hc, .conv s s' s'' h2 h3⟩
      | buffer ir scale L hL hn =>
        refine .inr ⟨_, _, _, rfl, rfl, rfl, hc, .conv _ _ _ h2 (conv_set3 s s' s'' scale hL ?_ ?_)⟩
        · have := hc.2; omega
        · have := hc.2; omega
  silence_okI c := ⟨silence_sum3 e.N c.count, .inl rfl, .inl rfl, .inl rfl⟩
  silence_okO := ⟨1, silence_sum3 e.N 1⟩
  add c x y z x' y' z' hc h h' := by
    obtain ⟨n, h'⟩ := h'
    exact ⟨addSig_sum3 e.N e.r c hc.1 hc.2 h.sum h', addSig_lens e.N e.r c hc.1 h.sum.fx h'.fx,
      addSig_lens e.N e.r c hc.1 h.sum.fy h'.fy, addSig_lens e.N e.r c hc.1 h.sum.fz h'.fz⟩

/-! ## C102 -/

/-- Nodes that are not sources and have not processed anything: gain, filters, stereo panner, convolver, splitter,
merger. A biquad filter has coefficients for each frame; the panners and convolvers have at most two channels (the API
rejects more); a convolver that may get a response of one channel has one channel. -/
inductive Fresh (N M : Nat) (c : Cfg) : RProc → Prop
  | gain (v : Nat → List ℝ) : Fresh N M c (.base (.gain v 0))
  | iir (b a : List ℝ) : Fresh N M c (.base (.iir (Filter.Iir.new b a)))
  | splitter (n : Nat) : Fresh N M c (.base (.splitter n))
  | merger : Fresh N M c (.base .merger)
  | biquad (coefs : Nat → List Filter.Coefs) (hc : ∀ j, (coefs j).length = N) : Fresh N M c (.biquad coefs 0 [])
  | stereo (pan : Nat → List ℝ) (hc : c.count ≤ 2) : Fresh N M c (.stereo pan 0)
  | conv (hc : c.count ≤ M) : Fresh N M c (.conv Convolver.Conv.new)

/-- Steps of three histories: the same nodes are created, the same connections are made and cut, the same impulse responses
are set, the same quanta are rendered. Only what sources play differs, the third time it is the sum of the other two. No
handle is dropped, channel configurations are not changed after creation and are `explicit`. -/
inductive SameButSources' (N M : Nat) : Op RProc RMsg → Op RProc RMsg → Op RProc RMsg → Prop
  | acquire : SameButSources' N M .acquire .acquire .acquire
  | recv : SameButSources' N M .recv .recv .recv
  | quantum : SameButSources' N M .quantum .quantum .quantum
  | breaker (x : Handle) : SameButSources' N M (.breaker x) (.breaker x) (.breaker x)
  | connect (a b : Handle) (o i : Nat) : SameButSources' N M (.connect a b o i) (.connect a b o i) (.connect a b o i)
  | disconnect (a : Handle) (o d i : Option Nat) :
    SameButSources' N M (.disconnect a o d i) (.disconnect a o d i) (.disconnect a o d i)
  | node (id : Nat) (p : RProc) (nin nout : Nat) (c : Cfg) (hc : Explicit c) (h : Fresh N M c p) :
    SameButSources' N M (.register id p nin nout c) (.register id p nin nout c) (.register id p nin nout c)
  | source (id : Nat) (p q r : Nat → Sig ℝ × Bool) (nin nout : Nat) (c : Cfg) (hc : Explicit c) (h : PlaysSum N p q r) :
    SameButSources' N M (.register id (.base (.source p 0)) nin nout c) (.register id (.base (.source q 0)) nin nout c)
      (.register id (.base (.source r 0)) nin nout c)
  | play (x : Handle) (p q r : Nat → Sig ℝ × Bool) (h : PlaysSum N p q r) :
    SameButSources' N M (.post x (.play p)) (.post x (.play q)) (.post x (.play r))
  | buffer (x : Handle) (ir : List (List ℝ)) (scale : ℝ) (L : Nat) (hL : ∀ h ∈ ir, h.length = L)
    (hc : ir.length = 2 ∨ ir.length = 4 ∨ (ir.length = 1 ∧ M = 1)) :
    SameButSources' N M (.post x (.buffer ir scale)) (.post x (.buffer ir scale)) (.post x (.buffer ir scale))

theorem same_ops' (e : Consts ℝ) {M : Nat} (hM : M ≤ 2) {x y z : Op RProc RMsg} (h : SameButSources' e.N M x y z) :
    (rsuperposed e M hM).Ops x y z := by
  cases h with
  | acquire => exact .acquire
  | recv => exact .recv
  | quantum => exact .quantum
  | breaker x => exact .breaker x
  | connect a b o i => exact .connect a b o i
  | disconnect a o d i => exact .disconnect a o d i
  | node id p nin nout c hc h =>
    refine .register _ _ _ _ _ _ _ ⟨hc, ?_⟩
    cases h with
    | gain v => exact .base _ _ _ (.gain v 0)
    | iir b a => exact .base _ _ _ (.iir _ _ _ (new_iir3 _ b a))
    | splitter n => exact .base _ _ _ (.splitter n)
    | merger => exact .base _ _ _ .merger
    | biquad coefs hk =>
      refine .biquad coefs 0 [] [] [] hk ⟨.inr (by simp), .inr (by simp), .inr (by simp), fun k => ?_⟩
      rw [xyAt_zero (by simp), plusXY_zero]
    | stereo pan h2 => exact .stereo pan 0 h2
    | conv h2 => exact .conv _ _ _ h2 (.empty _ _ _ rfl rfl rfl)
  | source id p q r nin nout c hc h => exact .register _ _ _ _ _ _ _ ⟨hc, .base _ _ _ (.source p q r 0 h)⟩
  | play x p q r h => exact .post x _ _ _ (.play p q r h)
  | buffer x ir scale L hL hc => exact .post x _ _ _ (.buffer ir scale L hL hc)

/-- C102 with more nodes: if in three renderings of the same graph the sources play `p`, `q` and `p + q`, the sound of the
third is the sum of the sounds of the others, in every quantum, channel and frame, for all graphs of gain, IIR and biquad
filter, stereo panner, convolver, splitter and merger nodes in mode `explicit`, with cycles, changing connections and
responses. Either convolvers have one channel (`M = 1`), or there are no responses of one channel: with those the sum is
wrong, `C102_negated_reverb`. -/
theorem C102_superposition_more_partial (e : Consts ℝ) {M : Nat} (hM : M ≤ 2) (cfg : Cfg) (hcfg : Explicit cfg)
    (l : List (Op RProc RMsg × Op RProc RMsg × Op RProc RMsg))
    (h : ∀ x ∈ l, SameButSources' e.N M x.1 x.2.1 x.2.2) :
    (Sys.sound (rsem e) (Sys.init (rsem e) (.base .destination) cfg) (l.map (·.1)) = none ∧
      Sys.sound (rsem e) (Sys.init (rsem e) (.base .destination) cfg) (l.map (·.2.1)) = none ∧
      Sys.sound (rsem e) (Sys.init (rsem e) (.base .destination) cfg) (l.map (·.2.2)) = none) ∨
    ∃ a b d, Sys.sound (rsem e) (Sys.init (rsem e) (.base .destination) cfg) (l.map (·.1)) = some a ∧
      Sys.sound (rsem e) (Sys.init (rsem e) (.base .destination) cfg) (l.map (·.2.1)) = some b ∧
      Sys.sound (rsem e) (Sys.init (rsem e) (.base .destination) cfg) (l.map (·.2.2)) = some d ∧
      b.2.length = a.2.length ∧ d.2.length = a.2.length ∧
      ∀ (t : Nat) x y z, a.2[t]? = some x → b.2[t]? = some y → d.2[t]? = some z →
        ∀ k f, f < e.N → Node.sample z k f = Node.sample x k f + Node.sample y k f := by
  have hd : (rsuperposed e M hM).okP cfg (.base .destination) (.base .destination) (.base .destination) :=
    ⟨hcfg, .base _ _ _ .destination⟩
  rcases (rsuperposed e M hM).sound hd l (fun x hx => same_ops' e hM (h x hx)) with h | ⟨a, b, d, h1, h2, h3, h4, h5, h6⟩
  · exact .inl h
  · refine .inr ⟨a, b, d, h1, h2, h3, h4, h5, fun t x y z hx hy hz => ?_⟩
    obtain ⟨n, hn⟩ := h6 t x y z hx hy hz
    exact hn.adds

/-- a convolver of two channels with a response of one channel, quanta of one frame -/
def reverbed (ins : List (Sig ℚ)) : Option (List (Sig ℚ)) :=
  ((Convolver.Conv.new.setBuffer [[1, 1]] 1).run 1 ins).map fun r => r.2.map (·.1)

/-- C102, negated for a response of one channel and a convolver of two. The inputs are those of mode `explicit`: two
channels while something is connected, otherwise a silence of one channel, in which the engine of the right channel
stands still. Something plays on the right, is disconnected, and silence is connected; another source plays. Alone, the
first is heard once and the second once; together, the rest of the first is heard again on the right with the second. -/
theorem C102_negated_reverb :
    reverbed [[some [0], some [1]], Node.silence, Node.silence, [none, none]] =
      some [[some [0], some [1]], [some [0]], [some [0]], Node.silence] ∧
    reverbed [[none, none], Node.silence, Node.silence, [some [1], some [1]]] =
      some [[some [0], some [0]], [some [0]], Node.silence, [some [1], some [1]]] ∧
    reverbed [[some [0], some [1]], Node.silence, Node.silence, [some [1], some [1]]] =
      some [[some [0], some [1]], [some [0]], [some [0]], [some [1], some [2]]] := by
  decide +kernel

/-! ### A history that meets the hypotheses -/

/-- parameters of the example: quanta of two frames -/
noncomputable def quadConsts : Consts ℝ := ⟨1 / 1000000, 2, 7 / 10⟩

/-- a coefficient for each of the two frames -/
def passing : Filter.Coefs := ⟨1, 0, 0, 0, 0⟩

/-- a source into a convolver, a stereo panner and a biquad filter, and to the destination -/
noncomputable def chain (p : Nat → Sig ℝ × Bool) : List (Op RProc RMsg) :=
  [.acquire, .register 11 (.base (.source p 0)) 0 1 ⟨2, 2, 0⟩, .acquire, .register 12 (.conv Convolver.Conv.new) 1 1 ⟨2, 2, 0⟩,
   .post ⟨12, 2, 1, 1⟩ (.buffer [[1, 2, 3], [3, 2, 1]] 2), .acquire,
   .register 13 (.stereo (fun _ => [1 / 2]) 0) 1 1 ⟨2, 2, 0⟩,
   .acquire, .register 14 (.biquad (fun _ => [passing, passing]) 0 []) 1 1 ⟨2, 2, 0⟩,
   .connect ⟨11, 1, 0, 1⟩ ⟨12, 2, 1, 1⟩ 0 0, .connect ⟨12, 2, 1, 1⟩ ⟨13, 3, 1, 1⟩ 0 0,
   .connect ⟨13, 3, 1, 1⟩ ⟨14, 4, 1, 1⟩ 0 0,
   .connect ⟨14, 4, 1, 1⟩ ⟨0, 0, 1, 1⟩ 0 0, .recv, .recv, .recv, .recv, .recv, .recv, .recv, .recv, .recv,
   .quantum, .quantum]

/-- something to play -/
noncomputable def melody (v : ℝ) : Nat → Sig ℝ × Bool := fun _ => ([some [v, 2 * v]], true)

theorem melody_sum (v w : ℝ) : PlaysSum 2 (melody v) (melody w) (melody (v + w)) := fun _ => by
  refine ⟨1, ⟨by simp [melody], by simp [melody]⟩, ⟨by simp [melody], by simp [melody]⟩,
    ⟨by simp [melody], by simp [melody]⟩, .inl rfl, .inl rfl, .inl rfl, fun k f hf => ?_⟩
  match k with
  | 0 =>
    match f, hf with
    | 0, _ => rfl
    | 1, _ => simp [melody, Node.sample, mul_add]
  | k + 1 => simp [melody, Node.sample]

example : (∀ x ∈ (chain (melody 1)).zip ((chain (melody 2)).zip (chain (melody (1 + 2)))),
      SameButSources' quadConsts.N 2 x.1 x.2.1 x.2.2) ∧
    (∀ op ∈ chain (melody 1), RNew op) ∧
    (Sys.sound (rsem quadConsts) (Sys.init (rsem quadConsts) (.base .destination) ⟨2, 2, 0⟩) (chain (melody 1))).isSome = true := by
  have he : ∀ n i, Explicit ⟨n + 1, 2, i⟩ := fun n i => ⟨le_rfl, Nat.succ_pos n⟩
  refine ⟨?_, ?_, ?_⟩
  · simp only [chain, List.zip_cons_cons, List.zip_nil_right, List.forall_mem_cons, List.not_mem_nil, false_imp_iff,
      implies_true, and_true]
    exact ⟨.acquire, .source _ _ _ _ _ _ _ (he 1 0) (melody_sum 1 2), .acquire, .node _ _ _ _ _ (he 1 0) (.conv le_rfl),
      .buffer _ _ _ 3 (by simp) (.inl rfl), .acquire, .node _ _ _ _ _ (he 1 0) (.stereo _ le_rfl), .acquire,
      .node _ _ _ _ _ (he 1 0) (.biquad _ (fun _ => rfl)),
      .connect _ _ _ _, .connect _ _ _ _, .connect _ _ _ _, .connect _ _ _ _, .recv, .recv, .recv, .recv, .recv, .recv,
      .recv, .recv, .recv, .quantum, .quantum⟩
  · simp [chain, RNew, Convolver.Conv.new]
  · rfl

end Verif.Engine
