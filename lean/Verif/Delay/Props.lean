import Verif.Delay.Proofs
import Verif.Float.Round
import Mathlib.Data.Nat.ModEq

/-!
# C35: the delay node
-/

namespace Verif.Delay

section
variable {K : Type} [Field K] [LinearOrder K] [FloorRing K]

/-! ## Writing -/

omit [FloorRing K] in
theorem write_spec {e : Env K} {s : St K} {ins : List (Quantum K)} {q : Quantum K}
    (hu : ∀ p ∈ ins, Uniform (chansOf p) p) (hq : Uniform (chansOf q) q)
    (h : View s.ring (layout ins) (ins.length - s.ring.length) (past e ins))
    (hw : s.writeIndex = ins.length % s.ring.length) :
    ∃ s', s.write e q = some s' ∧ s'.ring.length = s.ring.length ∧
      View s'.ring (layout (ins ++ [q])) ((ins ++ [q]).length - s'.ring.length) (past e (ins ++ [q])) ∧
      s'.writeIndex = (ins ++ [q]).length % s'.ring.length ∧ s'.readIndex = s.readIndex ∧ s'.latest = some s.now ∧
      s'.inCycle = s.inCycle ∧ s'.lastWritten = s.lastWritten ∧ s'.lastChecked = s.lastChecked ∧ s'.now = s.now := by
  have hpos := h.pos
  obtain ⟨ring, hr⟩ : ∃ ring, remix e s.ring (chansOf q) = ring := ⟨_, rfl⟩
  have hrem : ring.length = s.ring.length ∧ ∀ b : Int, (ins.length - s.ring.length : Int) ≤ b → b < ins.length →
      ring[(b % s.ring.length).toNat]? = some (past e (ins ++ [q]) b) := by
    rw [← hr]
    unfold remix
    rw [h.head]
    split
    · rename_i hc
      refine ⟨rfl, fun b h1 h2 => ?_⟩
      rw [h.slot b h1 (by omega), past_old e ins q h2]
      congr 1
      funext i
      have hl := past_uniform e ins hu b i
      rw [← hc, ← hl, Mix.mixF_self]
    · refine ⟨by simp, fun b h1 h2 => ?_⟩
      rw [List.getElem?_map, h.slot b h1 (by omega), past_old e ins q h2]
      rfl
  obtain ⟨hlen, hslot⟩ := hrem
  have hwlt : ins.length % s.ring.length < s.ring.length := Nat.mod_lt _ hpos
  refine ⟨⟨ring.set s.writeIndex q, (s.writeIndex + 1) % ring.length, s.readIndex, some s.now, s.inCycle,
    s.lastWritten, s.lastChecked, s.now⟩, ?_, ?_⟩
  · unfold St.write
    dsimp only
    rw [hr, if_pos (by rw [hw, hlen]; exact hwlt)]
  · dsimp only
    have hu' : ∀ p ∈ ins ++ [q], Uniform (chansOf p) p := by
      intro p hp
      rcases List.mem_append.1 hp with h | h
      · exact hu p h
      · simp only [List.mem_singleton] at h
        rw [h]; exact hq
    rw [List.length_set, hlen]
    refine ⟨rfl, ⟨by rw [List.length_set, hlen]; exact hpos, fun b h1 h2 => ?_,
      fun b _ _ => past_uniform e _ hu' b⟩, ?_, rfl, rfl, rfl, rfl, rfl, rfl⟩
    · rw [List.length_append, List.length_singleton] at h1 h2
      rw [List.length_set, hlen] at h2 ⊢
      push_cast at h1 h2
      by_cases hb : b = ins.length
      · rw [hb, past_new, hw]
        have : (((ins.length : Nat) : Int) % (s.ring.length : Int)).toNat = ins.length % s.ring.length := by
          omega
        rw [this, List.getElem?_set_self (by rw [hlen]; exact hwlt)]
      · rw [List.getElem?_set_ne ?_]
        · exact hslot b (by omega) (by omega)
        · rw [hw]
          intro hc
          have h3 : (b % (s.ring.length : Int)) = (ins.length : Int) % s.ring.length := by
            have := Int.emod_nonneg b (by omega : (s.ring.length : Int) ≠ 0)
            omega
          have h4 := Int.emod_emod_of_dvd b (dvd_refl (s.ring.length : Int))
          have h5 : ((ins.length : Int) - b) % s.ring.length = 0 := by
            rw [Int.sub_emod, h3]; simp
          have h6 : ((ins.length : Int) - b) % s.ring.length = ins.length - b :=
            Int.emod_eq_of_lt (by omega) (by omega)
          omega
    · rw [hw, List.length_append, List.length_singleton, Nat.mod_add_mod]

/-! ## Quanta with writer and reader -/

/-- a quantum with both processors: in a cycle or not, input, values of the delay parameter -/
abbrev Round (K : Type) := Bool × Quantum K × List K

def Round.turn (x : Round K) : Turn K := if x.1 then .cycle x.2.1 x.2.2 else .forward x.2.1 x.2.2

/-- well formed input and parameter values that fit into the ring -/
structure Fits (e : Env K) (cap : Nat) (q : Quantum K) (delays : List K) : Prop where
  uniform : Uniform (chansOf q) q
  length : delays.length = 1 ∨ delays.length = e.N
  range : ∀ i, i < e.N → 0 ≤ delayAt delays i ∧ delayAt delays i * e.sr ≤ (e.N * (cap - 1 : Nat) : Nat)

/-- the state after the rounds `ts` -/
structure Inv (e : Env K) (cap : Nat) (ts : List (Round K)) (s : St K) : Prop where
  len : s.ring.length = cap
  view : View s.ring (layout (ts.map (·.2.1))) ((ts.map (·.2.1)).length - s.ring.length) (past e (ts.map (·.2.1)))
  writeIndex : s.writeIndex = (ts.map (·.2.1)).length % s.ring.length
  readIndex : s.readIndex = ts.length % s.ring.length
  latest : ∀ m, s.latest = some m → m < ts.length
  inCycle : s.inCycle = ts.any (·.1)
  lastWritten : s.lastWritten = none
  lastChecked : s.lastChecked = none
  now : s.now = ts.length

omit [LinearOrder K] [FloorRing K] in
theorem Inv.new (e : Env K) {cap : Nat} (hcap : 2 ≤ cap) : Inv e cap [] (St.new cap) := by
  have hl : (St.new (K := K) cap).ring.length = cap := by simp [St.new]
  refine ⟨hl, ⟨by omega, fun b h1 h2 => ?_, fun b _ _ => past_uniform e [] (by simp) b⟩, ?_, ?_, ?_, rfl, rfl, rfl, rfl⟩
  · have h3 : past e [] b = silence 1 := by
      unfold past
      split
      · simp [layout]
      · rfl
    rw [List.map_nil, h3]
    show (List.replicate cap (silence 1))[_]? = _
    rw [List.getElem?_replicate, if_pos]
    rw [hl]
    have := Int.emod_lt_of_pos b (by omega : (0 : Int) < cap)
    have := Int.emod_nonneg b (by omega : (cap : Int) ≠ 0)
    omega
  · simp [St.new]
  · simp [St.new]
  · intro m hm; cases hm

/-- what is written when the reader of round `t` is processed -/
def written (ts : List (Round K)) (t : Nat) (x : Round K) : List (Quantum K) :=
  (ts.take (if x.1 then t else t + 1)).map (·.2.1)

variable [IsStrictOrderedRing K]

omit [FloorRing K] in
theorem delayFrames_range {e : Env K} (hsr : 0 < e.sr) {cap : Nat} (hcap : 2 ≤ cap) {d : K}
    (h : 0 ≤ d ∧ d * e.sr ≤ (e.N * (cap - 1 : Nat) : Nat)) (cyc : Bool) :
    0 ≤ delayFrames e cyc d ∧ delayFrames e cyc d ≤ (e.N * (cap - 1 : Nat) : Nat) := by
  have h0 : 0 ≤ d * e.sr := mul_nonneg h.1 hsr.le
  have h1 : (e.N : K) ≤ (e.N * (cap - 1 : Nat) : Nat) := by
    have : e.N * 1 ≤ e.N * (cap - 1) := Nat.mul_le_mul_left _ (by omega)
    rw [Nat.mul_one] at this
    exact_mod_cast this
  unfold delayFrames
  split
  · exact ⟨le_max_of_le_left h0, max_le h.2 h1⟩
  · exact ⟨h0, h.2⟩

theorem Inv.round {e : Env K} (hsr : 0 < e.sr) (hN : 0 < e.N) {cap : Nat} (hcap : 2 ≤ cap) {ts : List (Round K)}
    {s : St K} (hi : Inv e cap ts s) (hu : ∀ x ∈ ts, Uniform (chansOf x.2.1) x.2.1) (x : Round K)
    (hx : Fits e cap x.2.1 x.2.2) :
    ∃ o s', s.turn e x.turn = some (o, true, s') ∧ Inv e cap (ts ++ [x]) s' ∧ o.length = e.N ∧
      ∀ i, i < e.N → ∀ j, j < layout ((if x.1 then ts else ts ++ [x]).map (·.2.1)) → heard o i j =
        between e (past e ((if x.1 then ts else ts ++ [x]).map (·.2.1)))
          ((ts.length * e.N + i : Nat) - delayFrames e ((ts ++ [x]).any (·.1)) (delayAt x.2.2 i)) j := by
  obtain ⟨b, q, d⟩ := x
  obtain ⟨hq, hdl, hdr⟩ := hx
  have hrange : ∀ cyc i, i < e.N → 0 ≤ delayFrames e cyc (delayAt d i) ∧
      delayFrames e cyc (delayAt d i) ≤ (e.N * (cap - 1 : Nat) : Nat) :=
    fun cyc i h => delayFrames_range hsr hcap (hdr i h) cyc
  have hu' : ∀ p ∈ ts.map (·.2.1), Uniform (chansOf p) p := by
    intro p hp
    obtain ⟨y, hy, rfl⟩ := List.mem_map.1 hp
    exact hu y hy
  have hlatest : s.latest ≠ some s.now := by
    intro h
    have := hi.latest _ h
    rw [hi.now] at this
    omega
  have hlen := hi.len
  cases b with
  | true =>
    -- the reader first
    have hcyc : true = (s.inCycle || decide (s.latest ≠ some s.now)) := by simp [hlatest]
    obtain ⟨o, al, s1, h1, haf, hol, hov⟩ := read_spec hsr hN hi.view hi.readIndex hcyc hdl
      (by rw [hlen]; exact hrange true) (by rw [List.length_map]; omega)
      (Or.inr ⟨rfl, by rw [List.length_map]; omega⟩)
    have hal : al = true := by rw [haf.goesOn, hi.lastChecked]; rfl
    subst hal
    have hv1 : View s1.ring (layout (ts.map (·.2.1))) ((ts.map (·.2.1)).length - s1.ring.length)
        (past e (ts.map (·.2.1))) := by rw [haf.ring]; exact hi.view
    obtain ⟨s2, w1, w2, w3, w4, w5, w6, w7, w8, w9, w10⟩ := write_spec (q := q) hu' hq hv1
      (by rw [haf.writeIndex, haf.ring]; exact hi.writeIndex)
    refine ⟨o, s2.tick, ?_, ?_, hol, ?_⟩
    · show (s.read e d).bind _ = _
      rw [h1, Option.bind_some]
      show (s1.write e q).map _ = _
      rw [w1]
      rfl
    · have hmap : (ts ++ [((true, q, d) : Round K)]).map (·.2.1) = ts.map (·.2.1) ++ [q] := by simp
      refine ⟨?_, by rw [hmap]; exact w3, by rw [hmap]; exact w4, ?_, ?_, ?_, ?_, ?_, ?_⟩
      · show s2.ring.length = cap
        rw [w2, haf.ring, hlen]
      · show s2.readIndex = (ts ++ [((true, q, d) : Round K)]).length % s2.ring.length
        rw [w5, haf.readIndex, if_pos rfl, w2, haf.ring, hi.readIndex]
        simp
      · intro m hm
        have hm : s2.latest = some m := hm
        rw [w6, haf.now, hi.now] at hm
        cases hm
        simp
      · show s2.inCycle = _
        rw [w7, haf.inCycle]; simp
      · show s2.lastWritten = _
        rw [w8, haf.lastWritten, hi.lastWritten]
      · show s2.lastChecked = _
        rw [w9, haf.lastChecked, if_neg (by rw [hi.lastWritten]; simp), hi.lastChecked]
      · show s2.now + 1 = _
        rw [w10, haf.now, hi.now]; simp
    · intro i h j hj
      have hany : (ts ++ [((true, q, d) : Round K)]).any (·.1) = true := by simp
      rw [hany]
      exact hov i h j hj
  | false =>
    obtain ⟨s1, w1, w2, w3, w4, w5, w6, w7, w8, w9, w10⟩ := write_spec (q := q) hu' hq hi.view hi.writeIndex
    have hmap : (ts ++ [((false, q, d) : Round K)]).map (·.2.1) = ts.map (·.2.1) ++ [q] := by simp
    have hany : (ts ++ [((false, q, d) : Round K)]).any (·.1) = ts.any (·.1) := by simp
    have hcyc : ts.any (·.1) = (s1.inCycle || decide (s1.latest ≠ some s1.now)) := by
      rw [w6, w10, w7, hi.inCycle]; simp
    have hri : s1.readIndex = ts.length % s1.ring.length := by rw [w5, hi.readIndex, w2]
    obtain ⟨o, al, s2, h1, haf, hol, hov⟩ := read_spec hsr hN w3 hri hcyc hdl
      (by rw [w2, hlen]; exact hrange _) (by simp)
      (Or.inl (by simp))
    have hal : al = true := by rw [haf.goesOn, w9, hi.lastChecked]; rfl
    subst hal
    refine ⟨o, s2.tick, ?_, ?_, hol, ?_⟩
    · show (s.write e q).bind _ = _
      rw [w1, Option.bind_some]
      show (s1.read e d).map _ = _
      rw [h1]
      rfl
    · refine ⟨?_, ?_, ?_, ?_, ?_, ?_, ?_, ?_, ?_⟩
      · show s2.ring.length = cap
        rw [haf.ring, w2, hlen]
      · rw [hmap]
        show View s2.ring _ ((ts.map (·.2.1) ++ [q]).length - s2.ring.length) _
        rw [haf.ring]; exact w3
      · rw [hmap]
        show s2.writeIndex = (ts.map (·.2.1) ++ [q]).length % s2.ring.length
        rw [haf.writeIndex, haf.ring]; exact w4
      · show s2.readIndex = (ts ++ [((false, q, d) : Round K)]).length % s2.ring.length
        rw [haf.readIndex, if_pos rfl, haf.ring, hri]
        simp
      · intro m hm
        have hm : s2.latest = some m := hm
        rw [haf.latest, w6, hi.now] at hm
        cases hm
        simp
      · show s2.inCycle = _
        rw [haf.inCycle, hany]
      · show s2.lastWritten = _
        rw [haf.lastWritten, w8, hi.lastWritten]
      · show s2.lastChecked = _
        rw [haf.lastChecked, if_neg (by rw [w8, hi.lastWritten]; simp), w9, hi.lastChecked]
      · show s2.now + 1 = _
        rw [haf.now, w10, hi.now]; simp
    · intro i h j hj
      rw [hany]
      have hif : (if ((false, q, d) : Round K).1 = true then ts else ts ++ [((false, q, d) : Round K)]).map (·.2.1) =
          ts.map (·.2.1) ++ [q] := by simp
      rw [hif] at hj ⊢
      exact hov i h j hj

omit [IsStrictOrderedRing K] in
theorem run_append {e : Env K} {s s' : St K} {a b : List (Turn K)} {o : List (List (List K) × Bool)}
    (h : St.run e s a = some (o, s')) : St.run e s (a ++ b) = (St.run e s' b).map fun r => (o ++ r.1, r.2) := by
  induction a generalizing s o with
  | nil =>
    cases h
    rw [List.nil_append]
    cases St.run e s' b <;> rfl
  | cons t a ih =>
    rw [List.cons_append, St.run]
    rw [St.run] at h
    cases ht : s.turn e t with
    | none => rw [ht] at h; cases h
    | some r =>
      rw [ht, Option.bind_some] at h
      rw [Option.bind_some]
      cases hr : St.run e r.2.2 a with
      | none => rw [hr] at h; cases h
      | some p =>
        obtain ⟨o', s1⟩ := p
        rw [hr] at h
        cases h
        rw [ih hr, Option.map_map]
        rfl

theorem Inv.rounds {e : Env K} (hsr : 0 < e.sr) (hN : 0 < e.N) {cap : Nat} (hcap : 2 ≤ cap) (ts : List (Round K))
    (ht : ∀ x ∈ ts, Fits e cap x.2.1 x.2.2) :
    ∃ outs s, St.run e (St.new cap) (ts.map Round.turn) = some (outs, s) ∧ Inv e cap ts s ∧
      outs.length = ts.length ∧
      ∀ t x, ts[t]? = some x → ∃ o, outs[t]? = some (o, true) ∧ o.length = e.N ∧
        ∀ i, i < e.N → ∀ j, j < layout (written ts t x) → heard o i j =
          between e (past e (written ts t x))
            ((t * e.N + i : Nat) - delayFrames e ((ts.take (t + 1)).any (·.1)) (delayAt x.2.2 i)) j := by
  induction ts using List.reverseRecOn with
  | nil => exact ⟨[], _, rfl, Inv.new e hcap, rfl, by simp⟩
  | append_singleton ts x ih =>
    obtain ⟨outs, s, h1, h2, h3, h4⟩ := ih fun y hy => ht y (by simp [hy])
    obtain ⟨o, s', g1, g2, g3, g4⟩ := h2.round hsr hN hcap (fun y hy => (ht y (by simp [hy])).uniform) x
      (ht x (by simp))
    refine ⟨outs ++ [(o, true)], s', ?_, g2, by simp [h3], ?_⟩
    · rw [List.map_append, run_append h1]
      show (St.run e s [x.turn]).map _ = _
      rw [St.run, g1]
      rfl
    · intro t y hy
      by_cases htl : t < ts.length
      · rw [List.getElem?_append_left htl] at hy
        obtain ⟨o', k1, k2, k3⟩ := h4 t y hy
        refine ⟨o', ?_, k2, ?_⟩
        · rw [List.getElem?_append_left (by omega)]; exact k1
        · have e1 : written (ts ++ [x]) t y = written ts t y := by
            unfold written
            rw [List.take_append_of_le_length (by split <;> omega)]
          rw [e1, List.take_append_of_le_length (by omega)]
          exact k3
      · have htl' : t = ts.length := by
          have : t < (ts ++ [x]).length := by
            by_contra hc
            rw [List.getElem?_eq_none (by omega)] at hy; cases hy
          simp at this
          omega
        subst htl'
        have hxy : y = x := by simpa using hy.symm
        subst hxy
        refine ⟨o, ?_, g3, ?_⟩
        · rw [← h3]; simp
        · have e1 : written (ts ++ [y]) ts.length y = (if y.1 then ts else ts ++ [y]).map (·.2.1) := by
            unfold written
            split
            · simp
            · simp
          rw [e1, List.take_of_length_le (by simp)]
          exact g4

/-- C35: for every number of quanta, every input with any changes of the channel layout, every delay curve, in or
out of cycles and in any mixture of both: the output at frame `n` is the input at `n` minus the delay, between
frames on the straight line; the input before the beginning is silence; the input is mixed to the layouts that
followed; in a cycle the delay is at least a quantum. No index is out of bounds. The reader stays alive. -/
theorem C35_delay_partial {e : Env K} (hsr : 0 < e.sr) (hN : 0 < e.N) {cap : Nat} (hcap : 2 ≤ cap)
    (ts : List (Round K)) (ht : ∀ x ∈ ts, Fits e cap x.2.1 x.2.2) :
    ∃ outs s, St.run e (St.new cap) (ts.map Round.turn) = some (outs, s) ∧ outs.length = ts.length ∧
      ∀ t x, ts[t]? = some x → ∃ o, outs[t]? = some (o, true) ∧ o.length = e.N ∧
        ∀ i, i < e.N → ∀ j, j < layout (written ts t x) → heard o i j =
          between e (past e (written ts t x))
            ((t * e.N + i : Nat) - delayFrames e ((ts.take (t + 1)).any (·.1)) (delayAt x.2.2 i)) j := by
  obtain ⟨outs, s, h1, _, h3, h4⟩ := Inv.rounds hsr hN hcap ts ht
  exact ⟨outs, s, h1, h3, h4⟩

/-- C35: the ring is large enough for every delay up to the maximum, for any capacity the allocator gives. -/
theorem C35_ring_size {e : Env K} (hsr : 0 < e.sr) (hN : 0 < e.N) {maxDelay : K} (hm : 0 < maxDelay) {cap : Nat}
    (hcap : ringSize e maxDelay ≤ cap) : 2 ≤ cap ∧
      ∀ d, d ≤ maxDelay → d * e.sr ≤ (e.N * (cap - 1 : Nat) : Nat) := by
  have hN' : (0 : K) < e.N := by exact_mod_cast hN
  have hpos : 0 < maxDelay * e.sr / e.N := div_pos (mul_pos hm hsr) hN'
  have hc : 0 < ⌈maxDelay * e.sr / e.N⌉ := Int.ceil_pos.2 hpos
  obtain ⟨m, hm'⟩ := Int.eq_ofNat_of_zero_le hc.le
  unfold ringSize at hcap
  rw [hm', Int.toNat_natCast] at hcap
  rw [hm'] at hc
  refine ⟨by omega, fun d hd => ?_⟩
  have h1 : maxDelay * e.sr / e.N ≤ (m : K) := by
    have := Int.le_ceil (maxDelay * e.sr / e.N)
    rw [hm'] at this
    exact_mod_cast this
  rw [div_le_iff₀ hN'] at h1
  have h2 : d * e.sr ≤ maxDelay * e.sr := mul_le_mul_of_nonneg_right hd hsr.le
  have h3 : ((m * e.N : Nat) : K) ≤ (e.N * (cap - 1 : Nat) : Nat) := by
    have : m * e.N ≤ e.N * (cap - 1) := by
      rw [Nat.mul_comm]; exact Nat.mul_le_mul_left _ (by omega)
    exact_mod_cast this
  push_cast at h3 ⊢
  linarith

/-! ## After the writer is gone -/

/-- The ring after the writer is gone: quanta never written show what was in their place a turn of the ring
before. -/
def ghost (e : Env K) (ins : List (Quantum K)) (cap : Nat) (b : Int) : Quantum K :=
  if b < ins.length then past e ins b else past e ins (b - cap)

omit [LinearOrder K] [IsStrictOrderedRing K] [FloorRing K] in
theorem ghost_view {e : Env K} {ring : List (Quantum K)} {ins : List (Quantum K)}
    (h : View ring (layout ins) (ins.length - ring.length) (past e ins)) {lo : Int}
    (h1 : (ins.length : Int) - ring.length ≤ lo) (h2 : lo ≤ ins.length) :
    View ring (layout ins) lo (ghost e ins ring.length) := by
  refine ⟨h.pos, fun b b1 b2 => ?_, fun b b1 b2 => ?_⟩
  · unfold ghost
    split
    · exact h.slot b (by omega) (by omega)
    · rw [← h.slot (b - ring.length) (by omega) (by omega), Int.sub_emod_right]
  · unfold ghost
    split
    · exact h.uniform b (by omega) (by omega)
    · exact h.uniform (b - ring.length) (by omega) (by omega)

/-- the state when the writer is gone and `m` further quanta have been rendered -/
structure Gone (e : Env K) (cap : Nat) (ins : List (Quantum K)) (m : Nat) (s : St K) : Prop where
  len : s.ring.length = cap
  view : View s.ring (layout ins) (ins.length - s.ring.length) (past e ins)
  readIndex : s.readIndex = (ins.length + m) % cap
  latest : ∀ n, s.latest = some n → n < ins.length + m
  now : s.now = ins.length + m
  lastWritten : s.lastWritten = some ((ins.length + cap - 1) % cap)
  lastChecked : s.lastChecked = if m = 0 then none else some ((ins.length + cap - 1) % cap)

theorem Gone.step {e : Env K} (hsr : 0 < e.sr) (hN : 0 < e.N) {cap : Nat} (hcap : 2 ≤ cap) {ins : List (Quantum K)}
    {m : Nat} (hm : m < cap) {s : St K} (hi : Gone e cap ins m s) {d : List K}
    (hdl : d.length = 1 ∨ d.length = e.N)
    (hdr : ∀ i, i < e.N → 0 ≤ delayAt d i ∧ delayAt d i * e.sr ≤ (e.N * (cap - 1 : Nat) : Nat)) :
    ∃ o s', s.turn e (.alone d) = some (o, decide (m ≠ cap - 1), s') ∧ (m ≠ cap - 1 → Gone e cap ins (m + 1) s') ∧
      o.length = e.N ∧
      ∀ i, i < e.N → ∀ j, j < layout ins → heard o i j =
        between e (ghost e ins cap) (((ins.length + m) * e.N + i : Nat) - delayFrames e true (delayAt d i)) j := by
  have hlen := hi.len
  have hlatest : s.latest ≠ some s.now := by
    intro h
    have := hi.latest _ h
    rw [hi.now] at this
    omega
  have hview := ghost_view (lo := ins.length + m + 1 - cap) hi.view (by omega) (by omega)
  rw [hlen] at hview
  obtain ⟨o, al, s1, h1, haf, hol, hov⟩ := read_spec (cyc := true) hsr hN hview
    (by rw [hlen]; exact hi.readIndex) (by simp [hlatest]) hdl
    (by rw [hlen]; exact fun i h => delayFrames_range hsr hcap (hdr i h) true)
    (by rw [hlen]; push_cast; omega) (Or.inl (by rw [hlen]; push_cast; omega))
  have hidx : ((ins.length + cap - 1) % cap = (ins.length + m) % cap) ↔ m = cap - 1 := by
    constructor
    · intro h
      have h2 : Nat.ModEq cap (ins.length + cap - 1) (ins.length + m) := h
      have h3 : Nat.ModEq cap (ins.length + (cap - 1)) (ins.length + m) := by
        rw [← Nat.add_sub_assoc (by omega)]; exact h2
      have h4 := Nat.ModEq.add_left_cancel' _ h3
      have h5 : (cap - 1) % cap = m % cap := h4
      rw [Nat.mod_eq_of_lt (by omega), Nat.mod_eq_of_lt hm] at h5
      exact h5.symm
    · rintro rfl
      congr 1
      omega
  have hal : al = decide (m ≠ cap - 1) := by
    rw [haf.goesOn, hi.lastChecked, hi.readIndex]
    by_cases h0 : m = 0
    · rw [if_pos h0]
      have : m ≠ cap - 1 := by omega
      simp [this]
    · rw [if_neg h0]
      simp [hidx]
  refine ⟨o, s1.tick, ?_, ?_, hol, hov⟩
  · show (s.read e d).map _ = _
    rw [h1, ← hal]
    rfl
  · intro hne
    have hal' : al = true := by rw [hal]; simp [hne]
    refine ⟨?_, ?_, ?_, ?_, ?_, ?_, ?_⟩
    · show s1.ring.length = cap
      rw [haf.ring, hlen]
    · show View s1.ring _ (ins.length - s1.ring.length) _
      rw [haf.ring]; exact hi.view
    · show s1.readIndex = _
      rw [haf.readIndex, if_pos hal', hlen, hi.readIndex]
      simp [Nat.add_assoc]
    · intro n hn
      have hn : s1.latest = some n := hn
      rw [haf.latest] at hn
      have := hi.latest n hn
      omega
    · show s1.now + 1 = _
      rw [haf.now, hi.now]; omega
    · show s1.lastWritten = _
      rw [haf.lastWritten, hi.lastWritten]
    · show s1.lastChecked = _
      rw [haf.lastChecked, hi.lastWritten, hi.lastChecked, if_neg (Nat.succ_ne_zero m)]
      by_cases h0 : m = 0
      · simp [h0, hal']
      · simp [h0]

omit [IsStrictOrderedRing K] [FloorRing K] in
theorem Inv.dropped {e : Env K} {cap : Nat} (hcap : 2 ≤ cap) {ts : List (Round K)} {s : St K} (hi : Inv e cap ts s) :
    Gone e cap (ts.map (·.2.1)) 0 s.drop := by
  refine ⟨hi.len, hi.view, ?_, ?_, ?_, ?_, ?_⟩
  · show s.readIndex = _
    rw [hi.readIndex, hi.len]; simp
  · intro n hn
    have := hi.latest n hn
    simpa using this
  · show s.now = _
    rw [hi.now]; simp
  · show some (if s.writeIndex = 0 then s.ring.length - 1 else s.writeIndex - 1) = _
    rw [hi.writeIndex, hi.len, List.length_map]
    congr 1
    generalize ts.length = n
    have h1 := Nat.div_add_mod n cap
    have h2 := Nat.mod_lt n (by omega : 0 < cap)
    split
    · rename_i h
      have : n + cap - 1 = cap * (n / cap) + (cap - 1) := by omega
      rw [this, Nat.mul_add_mod, Nat.mod_eq_of_lt (by omega)]
    · rename_i h
      have : n + cap - 1 = cap * (n / cap + 1) + (n % cap - 1) := by rw [Nat.mul_add, Nat.mul_one]; omega
      rw [this, Nat.mul_add_mod, Nat.mod_eq_of_lt (a := n % cap - 1) (by omega)]
  · show s.lastChecked = _
    rw [hi.lastChecked]; rfl

/-- C35, the end: exactly what is heard after the writer is freed. The reader goes on for `cap - 1` quanta and
returns false in the last; it then reads, with a delay of at least a quantum, the quanta that the writer left in the
ring: for every quantum that was not written any more the one that was written `cap` quanta before. -/
theorem C35_shutdown_exact {e : Env K} (hsr : 0 < e.sr) (hN : 0 < e.N) {cap : Nat} (hcap : 2 ≤ cap)
    (ts : List (Round K)) (ht : ∀ x ∈ ts, Fits e cap x.2.1 x.2.2) (after : List (List K))
    (ha : ∀ d ∈ after, (d.length = 1 ∨ d.length = e.N) ∧
      ∀ i, i < e.N → 0 ≤ delayAt d i ∧ delayAt d i * e.sr ≤ (e.N * (cap - 1 : Nat) : Nat))
    (hlen : after.length ≤ cap) :
    ∃ outs s outs' s', St.run e (St.new cap) (ts.map Round.turn) = some (outs, s) ∧
      St.run e s.drop (after.map .alone) = some (outs', s') ∧
      ∀ m d, after[m]? = some d → ∃ o, outs'[m]? = some (o, decide (m ≠ cap - 1)) ∧ o.length = e.N ∧
        ∀ i, i < e.N → ∀ j, j < layout (ts.map (·.2.1)) → heard o i j =
          between e (ghost e (ts.map (·.2.1)) cap)
            (((ts.length + m) * e.N + i : Nat) - delayFrames e true (delayAt d i)) j := by
  obtain ⟨outs, s, h1, h2, _, _⟩ := Inv.rounds hsr hN hcap ts ht
  have key : ∀ (l : List (List K)) (m : Nat) (r : St K), (∀ d ∈ l, (d.length = 1 ∨ d.length = e.N) ∧
      ∀ i, i < e.N → 0 ≤ delayAt d i ∧ delayAt d i * e.sr ≤ (e.N * (cap - 1 : Nat) : Nat)) →
      m + l.length ≤ cap → (l ≠ [] → Gone e cap (ts.map (·.2.1)) m r) →
      ∃ outs' s', St.run e r (l.map .alone) = some (outs', s') ∧
        ∀ n d, l[n]? = some d → ∃ o, outs'[n]? = some (o, decide (m + n ≠ cap - 1)) ∧ o.length = e.N ∧
        ∀ i, i < e.N → ∀ j, j < layout (ts.map (·.2.1)) → heard o i j =
          between e (ghost e (ts.map (·.2.1)) cap)
            (((ts.length + (m + n)) * e.N + i : Nat) - delayFrames e true (delayAt d i)) j := by
    intro l
    induction l with
    | nil => intro m r _ _ _; exact ⟨[], r, rfl, by simp⟩
    | cons d l ih =>
      intro m r hl hml hr
      rw [List.length_cons] at hml
      obtain ⟨hd1, hd2⟩ := hl d (by simp)
      obtain ⟨o, r', g1, g2, g3, g4⟩ := (hr (by simp)).step hsr hN hcap (by omega) hd1 hd2
      obtain ⟨os, s', k1, k2⟩ := ih (m + 1) r' (fun x hx => hl x (by simp [hx])) (by omega) (by
        intro hne
        have : 0 < l.length := List.length_pos_iff.2 hne
        exact g2 (by omega))
      refine ⟨(o, decide (m ≠ cap - 1)) :: os, s', ?_, ?_⟩
      · rw [List.map_cons, St.run, g1, Option.bind_some, k1]
        rfl
      · intro n x hx
        cases n with
        | zero =>
          cases hx
          refine ⟨o, rfl, g3, ?_⟩
          intro i hi j hj
          rw [g4 i hi j hj, List.length_map]
          rfl
        | succ n =>
          obtain ⟨o', q1, q2, q3⟩ := k2 n x (by simpa using hx)
          refine ⟨o', ?_, q2, ?_⟩
          · rw [List.getElem?_cons_succ, q1]
            have : m + 1 + n = m + (n + 1) := by omega
            rw [this]
          · have : m + (n + 1) = m + 1 + n := by omega
            rw [this]
            exact q3
  obtain ⟨outs', s', k1, k2⟩ := key after 0 s.drop ha (by omega) fun _ => h2.dropped hcap
  refine ⟨outs, s, outs', s', h1, k1, ?_⟩
  intro m d hd
  obtain ⟨o, q1, q2, q3⟩ := k2 m d hd
  rw [Nat.zero_add] at q1 q3
  exact ⟨o, q1, q2, q3⟩

/-- C35, the end: with a delay of at least a quantum everything that has been written is heard at its time. What is
missing to the full statement is the silence afterwards, see `C35_negated_echo`, and delays below a quantum, see
`C35_negated_repeat`. -/
theorem C35_shutdown_partial {e : Env K} (hN : 0 < e.N) {cap : Nat} (ins : List (Quantum K)) {m i : Nat} {d : K}
    (hd : (e.N : K) ≤ d * e.sr)
    (hin : (((ins.length + m) * e.N + i : Nat) : K) - d * e.sr ≤ (ins.length * e.N : Nat) - 1) (j : Nat) :
    between e (ghost e ins cap) (((ins.length + m) * e.N + i : Nat) - delayFrames e true d) j =
      between e (past e ins) (((ins.length + m) * e.N + i : Nat) - d * e.sr) j := by
  have hdf : delayFrames e true d = d * e.sr := by
    unfold delayFrames
    rw [if_pos rfl, max_eq_left hd]
  rw [hdf]
  generalize (((ins.length + m) * e.N + i : Nat) : K) - d * e.sr = p at hin
  have hN' : (0 : Int) < e.N := by exact_mod_cast hN
  have hg : ∀ n : Int, n < ins.length * e.N → sample e (ghost e ins cap) n j = sample e (past e ins) n j := by
    intro n hn
    have : n / (e.N : Int) < ins.length := Int.ediv_lt_of_lt_mul hN' hn
    unfold sample ghost
    rw [if_pos this]
  have hfl : ((⌊p⌋ : Int) : K) ≤ p := Int.floor_le p
  have h1 : (((⌊p⌋ + 1 : Int)) : K) ≤ ((ins.length * e.N : Nat) : Int) := by
    push_cast at hin ⊢
    linarith
  have h2 : ⌊p⌋ + 1 ≤ ((ins.length * e.N : Nat) : Int) := by exact_mod_cast h1
  push_cast at h2
  unfold between
  rw [hg ⌊p⌋ (by omega)]
  by_cases hlt : ⌊p⌋ + 1 < ins.length * e.N
  · rw [hg _ hlt]
  · have hp : Int.fract p = 0 := by
      have h3 : ⌊p⌋ = ((ins.length * e.N : Nat) : Int) - 1 := by push_cast; omega
      have h4 : ((⌊p⌋ : Int) : K) = ((ins.length * e.N : Nat) : K) - 1 := by
        rw [h3]; push_cast; ring
      have : p = ⌊p⌋ := le_antisymm (by rw [h4]; exact hin) hfl
      rw [this, Int.fract_intCast]
    rw [hp]
    ring

end

/-! ## Concrete cases -/

/-- quanta of two frames at 2 Hz -/
def e2 : Env ℚ := ⟨2, 2, 7 / 10⟩

def mono (a b : ℚ) : Quantum ℚ := fun i => if i = 0 then [a] else [b]
def stereo (a b c d : ℚ) : Quantum ℚ := fun i => if i = 0 then [a, b] else [c, d]

def outputs {K : Type} (r : Option (List (List (List K) × Bool) × St K)) : Option (List (List (List K) × Bool)) :=
  r.map (·.1)

theorem mono_uniform (a b : ℚ) : Uniform (chansOf (mono a b)) (mono a b) := by
  intro i
  unfold mono chansOf
  split <;> rfl

/-- One and a half frames of delay, the ring of five quanta turns. -/
example : outputs (St.run e2 (St.new 3) [.forward (mono 2 4) [3 / 4], .forward (mono 6 8) [3 / 4],
      .forward (mono 0 0) [3 / 4], .forward (mono 2 2) [3 / 4], .forward (mono 4 4) [3 / 4]]) =
    some [([[0], [1]], true), ([[3], [5]], true), ([[7], [4]], true), ([[0], [1]], true), ([[2], [3]], true)] := by
  decide +kernel

/-- In a cycle the delay is a quantum; what was mono is heard in both channels when stereo follows. -/
example : outputs (St.run e2 (St.new 3) [.cycle (mono 2 4) [0], .cycle (stereo 1 2 3 4) [0], .cycle (mono 0 0) [1 / 2, 2],
      .forward (mono 0 0) [2]]) =
    some [([[0], [0]], true), ([[2], [4]], true), ([[1, 2], [4, 4]], true), ([[3 / 2], [7 / 2]], true)] := by
  decide +kernel

example : Fits e2 3 (mono 2 4) [3 / 4] :=
  ⟨mono_uniform 2 4, Or.inl rfl, by
    intro i _
    show (0 : ℚ) ≤ 3 / 4 ∧ (3 / 4 : ℚ) * 2 ≤ ((2 * (3 - 1) : Nat) : ℚ)
    norm_num⟩

/-- C35 is false at the end: the delay is one quantum, the ring has room for two. The writer is freed after three
quanta with the samples 1 to 6. The delayed samples 5 and 6 are heard, and then the samples 1 to 4 a second time. -/
theorem C35_negated_echo :
    (St.run e2 (St.new 3) [.forward (mono 1 2) [1], .forward (mono 3 4) [1], .forward (mono 5 6) [1]]).bind
      (fun r => outputs (St.run e2 r.2.drop [.alone [1], .alone [1], .alone [1]])) =
    some [([[5], [6]], true), ([[1], [2]], true), ([[3], [4]], false)] := by
  decide +kernel

/-- C35 is false at the end: with a delay of zero the last quantum is heard a second time. -/
theorem C35_negated_repeat :
    (St.run e2 (St.new 2) [.forward (mono 0 0) [0], .forward (mono 5 6) [0]]).bind
      (fun r => (outputs (St.run e2 r.2.drop [.alone [0]])).map fun x => (r.1, x)) =
    some ([([[0], [0]], true), ([[5], [6]], true)], [([[5], [6]], true)]) := by
  decide +kernel

/-- C35 is false when a quantum is rendered after the reader is registered and before the writer is: the reader is
then a quantum ahead. A delay of two quanta becomes a delay of one: 1, 2 is written in the second quantum (frames 2
and 3) and heard in the third. -/
theorem C35_negated_race :
    outputs (St.run e2 (St.new 3) [.alone [2], .forward (mono 1 2) [2], .forward (mono 0 0) [2], .forward (mono 0 0) [2]]) =
    some [([[0], [0]], true), ([[0], [0]], true), ([[1], [2]], true), ([[0], [0]], true)] := by
  decide +kernel

/-- C35 is false in floating point: a maximum of 8 ms at 48 kHz is three quanta, the ring has four. The value of the
parameter is an `f32`: 8 ms is rounded up, to more than 384 frames, and the address of the frame before the playhead
is the last frame of the quantum that is being written: the future. -/
theorem C35_negated_max :
    let e : Env ℚ := ⟨48000, 128, 7 / 10⟩
    let d := Float.rnd 24 (8 / 1000)
    ringSize e (8 / 1000) = 4 ∧ d ≠ 0 ∧
      (playInfo e false 4 2 0 d).map (fun p => (p.block, p.frame, decide (0 < 1 - p.k))) = some (2, 127, true) := by
  decide +kernel

end Verif.Delay
