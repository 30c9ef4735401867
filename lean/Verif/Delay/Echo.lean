import Verif.Delay.Props
import Verif.Graph.OrderModel
import Mathlib.Algebra.BigOperators.Ring.Finset
import Mathlib.Algebra.Order.BigOperators.Group.Finset

/-!
# Echoes: a delay node in a feedback loop

The loop that applications build: an input and the output of the delay, times a gain, are summed at the input of the
delay. The loop contains both processors of the delay node (`/repo/src/node/delay.rs` l.283-743), a gain node and the
summing of connections; the graph cuts the loop between the writer and the reader and processes the reader, the gain
and the writer in this order (`/repo/src/render/graph.rs` l.331-487; see the example at the end).

Simplifications: exact arithmetic; the gain is the factor that the gain node applies to a frame (C40); input and loop
have the same number of channels.
-/

namespace Verif.Delay

section
variable {K : Type} [Field K] [LinearOrder K] [FloorRing K]

/-- a quantum of the loop: input, values of the delay parameter, factors of the gain node for each frame -/
abbrev Beat (K : Type) := Quantum K × List K × (Nat → K)

/-- what the writer gets: the input plus the amplified output of the reader, mixed to the channels of the input -/
def feed (e : Env K) (c : Nat) (gain : Nat → K) (x : Quantum K) (o : List (List K)) : Quantum K := fun i =>
  List.zipWith (fun a b => a + gain i * b) (x i) (Mix.mixF e.r .speakers c (o.getD i [0]))

/-- The loop, quantum by quantum: the reader, the gain, the writer. The outputs of the reader. -/
def echo (e : Env K) (c : Nat) : St K → List (Beat K) → Option (List (List (List K)) × St K)
  | s, [] => some ([], s)
  | s, b :: bs =>
    (s.read e b.2.1).bind fun r => (r.2.2.write e (feed e c b.2.2 b.1 r.1)).bind fun s' =>
      (echo e c s'.tick bs).map fun q => (r.1 :: q.1, q.2)

/-! ## Specification -/

/-- the input at frame `n` -/
def dry (e : Env K) (bs : List (Beat K)) (n j : Nat) : K :=
  (((bs[n / e.N]?).map fun b => b.1 (n % e.N)).getD []).getD j 0

/-- the gain at frame `n` -/
def gainAt (e : Env K) (bs : List (Beat K)) (n : Nat) : K := ((bs[n / e.N]?).map fun b => b.2.2 (n % e.N)).getD 0

/-- the delay at frame `n`, in frames, at least a quantum -/
def lag (e : Env K) (bs : List (Beat K)) (n : Nat) : K :=
  max (((bs[n / e.N]?).map fun b => delayAt b.2.1 (n % e.N)).getD 0 * e.sr) e.N

/-- the output at frame `n` -/
def wet (e : Env K) (outs : List (List (List K))) (n j : Nat) : K := heard ((outs[n / e.N]?).getD []) (n % e.N) j

/-- what goes into the delay at frame `n`: nothing before the beginning -/
def into (e : Env K) (bs : List (Beat K)) (outs : List (List (List K))) (n : Int) (j : Nat) : K :=
  if 0 ≤ n then dry e bs n.toNat j + gainAt e bs n.toNat * wet e outs n.toNat j else 0

/-- a loop with `c` channels and delays that fit into the ring -/
structure Loop (e : Env K) (cap c : Nat) (bs : List (Beat K)) : Prop where
  uniform : ∀ b ∈ bs, Uniform c b.1
  length : ∀ b ∈ bs, b.2.1.length = 1 ∨ b.2.1.length = e.N
  range : ∀ b ∈ bs, ∀ i, i < e.N → 0 ≤ delayAt b.2.1 i ∧ delayAt b.2.1 i * e.sr ≤ (e.N * (cap - 1 : Nat) : Nat)

/-! ## Proofs -/

theorem mapM_mem {α β : Type} {f : α → Option β} : ∀ {l : List α} {r : List β}, l.mapM f = some r →
    ∀ y ∈ r, ∃ x ∈ l, f x = some y := by
  intro l
  induction l with
  | nil => intro r h y hy; simp at h; subst h; cases hy
  | cons a l ih =>
    intro r h y hy
    rw [List.mapM_cons] at h
    cases h1 : f a with
    | none => rw [h1] at h; cases h
    | some b =>
      cases h2 : l.mapM f with
      | none => rw [h1, h2] at h; cases h
      | some bs =>
        rw [h1, h2] at h
        cases h
        rcases List.mem_cons.1 hy with rfl | hy
        · exact ⟨a, List.mem_cons_self, h1⟩
        · obtain ⟨x, hx, hf⟩ := ih h2 y hy
          exact ⟨x, List.mem_cons_of_mem _ hx, hf⟩

theorem read_frames {e : Env K} {s s' : St K} {d : List K} {o : List (List K)} {b : Bool}
    (h : s.read e d = some (o, b, s')) : ∀ f ∈ o, f = [0] ∨ f.length = chansOf (s.ring.headD (silence 1)) := by
  unfold St.read at h
  rw [Option.bind_eq_some_iff] at h
  obtain ⟨ps, _, h⟩ := h
  rw [Option.map_eq_some_iff] at h
  obtain ⟨out, hm, h⟩ := h
  have h1 : ∀ f ∈ out, f.length = chansOf (s.ring.headD (silence 1)) := by
    intro f hf
    obtain ⟨p, _, hp⟩ := mapM_mem hm f hf
    unfold outFrame at hp
    rw [Option.bind_eq_some_iff] at hp
    obtain ⟨a, _, hp⟩ := hp
    rw [Option.map_eq_some_iff] at hp
    obtain ⟨b, _, rfl⟩ := hp
    simp
  have h2 : o = if out.all (fun f => f.all fun x => x = 0) then List.replicate e.N [0] else out := by
    dsimp only at h
    split at h <;> cases h <;> rfl
  intro f hf
  rw [h2] at hf
  split at hf
  · exact .inl (List.eq_of_mem_replicate hf)
  · exact .inr (h1 f hf)

theorem echo_append {e : Env K} {c : Nat} {bs : List (Beat K)} : ∀ {s s' : St K} {outs : List (List (List K))} {b : Beat K}
    {o : List (List K)} {t : Bool} {s1 s2 : St K}, echo e c s bs = some (outs, s') →
    s'.read e b.2.1 = some (o, t, s1) → s1.write e (feed e c b.2.2 b.1 o) = some s2 →
    echo e c s (bs ++ [b]) = some (outs ++ [o], s2.tick) := by
  induction bs with
  | nil =>
    intro s s' outs b o t s1 s2 h h1 h2
    simp only [echo, Option.some.injEq, Prod.mk.injEq] at h
    obtain ⟨rfl, rfl⟩ := h
    simp [echo, h1, h2]
  | cons a bs ih =>
    intro s s' outs b o t s1 s2 h h1 h2
    rw [echo, Option.bind_eq_some_iff] at h
    obtain ⟨r, hr, h⟩ := h
    rw [Option.bind_eq_some_iff] at h
    obtain ⟨s3, hw, h⟩ := h
    rw [Option.map_eq_some_iff] at h
    obtain ⟨q, hq, h⟩ := h
    cases h
    rw [List.cons_append, echo, hr, Option.bind_some, hw, Option.bind_some, ih hq h1 h2]
    rfl

variable [IsStrictOrderedRing K]

/-- The loop runs, and its writer gets what it should. -/
theorem echo_run {e : Env K} (hsr : 0 < e.sr) (hN : 0 < e.N) {cap : Nat} (hcap : 2 ≤ cap) {c : Nat} (hc : 0 < c)
    {bs : List (Beat K)} (hl : Loop e cap c bs) :
    ∃ (ts : List (Round K)) (outs : List (List (List K))) (s : St K),
      echo e c (St.new cap) bs = some (outs, s) ∧ Inv e cap ts s ∧ ts.length = bs.length ∧ outs.length = bs.length ∧
      (∀ x ∈ ts, x.1 = true ∧ Uniform c x.2.1 ∧ chansOf x.2.1 = c) ∧
      ∀ (t : Nat) b, bs[t]? = some b → ∃ o, outs[t]? = some o ∧ o.length = e.N ∧
        (∀ i, i < e.N → ∀ j, j < c → (Mix.mixF e.r .speakers c (o.getD i [0])).getD j 0 = heard o i j) ∧
        ts[t]? = some (true, feed e c b.2.2 b.1 o, b.2.1) ∧
        ∀ i, i < e.N → ∀ j, j < c → heard o i j = between e (past e ((ts.take t).map (·.2.1)))
          ((t * e.N + i : Nat) - max (delayAt b.2.1 i * e.sr) e.N) j := by
  induction bs using List.reverseRecOn with
  | nil => exact ⟨[], [], _, rfl, Inv.new e hcap, rfl, rfl, by simp, by simp⟩
  | append_singleton bs b ih =>
    have hl' : Loop e cap c bs := ⟨fun x hx => hl.uniform x (by simp [hx]), fun x hx => hl.length x (by simp [hx]),
      fun x hx => hl.range x (by simp [hx])⟩
    obtain ⟨ts, outs, s, h1, h2, h3, h4, h5, h6⟩ := ih hl'
    have hu := hl.uniform b (by simp)
    have hbl := hl.length b (by simp)
    have hbr := hl.range b (by simp)
    have hcb : ∀ q : Quantum K, Uniform c q → chansOf q = c := fun q hq => hq 0
    have hts : ∀ x ∈ ts, Uniform (chansOf x.2.1) x.2.1 := fun x hx => by rw [(h5 x hx).2.2]; exact (h5 x hx).2.1
    -- the output of the reader
    obtain ⟨o, s', g1, _, _, _⟩ := h2.round hsr hN hcap hts (true, b.1, b.2.1)
      ⟨by rw [hcb _ hu]; exact hu, hbl, hbr⟩
    have hr : ∃ t s1, s.read e b.2.1 = some (o, t, s1) := by
      have g1 : (s.read e b.2.1).bind (fun r => (r.2.2.write e b.1).map fun s => (r.1, r.2.1, s.tick)) =
        some (o, true, s') := g1
      rw [Option.bind_eq_some_iff] at g1
      obtain ⟨⟨o1, t1, s1⟩, hr, g1⟩ := g1
      rw [Option.map_eq_some_iff] at g1
      obtain ⟨s3, _, g1⟩ := g1
      cases g1
      exact ⟨_, _, hr⟩
    obtain ⟨t, s1, hr⟩ := hr
    have hfu : Uniform c (feed e c b.2.2 b.1 o) := by
      intro i
      rw [feed, List.length_zipWith, hu i, Mix.mixF_length, Nat.min_self]
    obtain ⟨o', s', g1, g2, g3, g4⟩ := h2.round hsr hN hcap hts (true, feed e c b.2.2 b.1 o, b.2.1)
      ⟨by rw [hcb _ hfu]; exact hfu, hbl, hbr⟩
    have g1 : (s.read e b.2.1).bind (fun r => (r.2.2.write e (feed e c b.2.2 b.1 o)).map fun s => (r.1, r.2.1, s.tick)) =
        some (o', true, s') := g1
    rw [hr, Option.bind_some, Option.map_eq_some_iff] at g1
    obtain ⟨s3, hw, g1⟩ := g1
    cases g1
    -- the value of the frames
    have hval : ∀ i, i < e.N → ∀ j, j < layout (ts.map (·.2.1)) → heard o i j =
        between e (past e (ts.map (·.2.1))) ((bs.length * e.N + i : Nat) - max (delayAt b.2.1 i * e.sr) e.N) j := by
      intro i hi j hj
      have := g4 i hi j hj
      rw [← h3]
      simpa [delayFrames] using this
    have hmixed : ∀ i, i < e.N → ∀ j, j < c → (Mix.mixF e.r .speakers c (o.getD i [0])).getD j 0 = heard o i j := by
      intro i hi j hj
      have hio : i < o.length := by omega
      have hoi : o.getD i [0] = o[i] := by rw [List.getD_eq_getElem?_getD, List.getElem?_eq_getElem hio]; rfl
      have hh : heard o i j = o[i].getD j 0 := by rw [heard, List.getElem?_eq_getElem hio]; rfl
      have hz : o[i] = [0] → (Mix.mixF e.r .speakers c (o.getD i [0])).getD j 0 = heard o i j := by
        intro hz
        rw [hoi, hh, hz]
        have : Mix.mixF e.r .speakers c [(0 : K)] = List.replicate c 0 := Mix.mixF_zeros e.r .speakers 1 c
        rw [this]
        cases j <;> simp [List.getD_eq_getElem?_getD, hj]
      rcases read_frames hr o[i] (List.getElem_mem hio) with hz' | hlen
      · exact hz hz'
      · have hch : chansOf (s.ring.headD (silence 1)) = layout (ts.map (·.2.1)) := h2.view.head
        rw [hch] at hlen
        rcases List.eq_nil_or_concat ts with rfl | ⟨ts', x, hx⟩
        · have h1 : layout (([] : List (Round K)).map (·.2.1)) = 1 := rfl
          rw [h1] at hlen
          apply hz
          have hv := hval i hi 0 (by rw [h1]; omega)
          have hzero : ∀ n, past e (List.map (fun x : Round K => x.2.1) []) n = silence 1 := by
            intro n
            unfold past
            split <;> simp [layout]
          have : heard o i 0 = 0 := by
            rw [hv]
            unfold between sample
            rw [hzero, hzero]
            simp [silence]
          rw [heard, List.getElem?_eq_getElem hio] at this
          match hoo : o[i], hlen, this with
          | [a], _, h => simpa [hoo] using h
        · rw [List.concat_eq_append] at hx
          have : layout (ts.map (·.2.1)) = c := by
            rw [hx, List.map_append, List.map_singleton, layout_append]
            exact (h5 x (by simp [hx])).2.2
          rw [this] at hlen
          rw [hoi, hh]
          conv_lhs => rw [← hlen]
          rw [Mix.mixF_self]
    refine ⟨ts ++ [(true, feed e c b.2.2 b.1 o, b.2.1)], outs ++ [o], s3.tick, echo_append h1 hr hw, g2, by simp [h3],
      by simp [h4], ?_, ?_⟩
    · intro x hx
      rcases List.mem_append.1 hx with hx | hx
      · exact h5 x hx
      · rw [List.mem_singleton] at hx
        subst hx
        exact ⟨rfl, hfu, hcb _ hfu⟩
    · intro t' b' hb'
      by_cases htl : t' < bs.length
      · rw [List.getElem?_append_left htl] at hb'
        obtain ⟨o', k1, k2, k3, k4, k5⟩ := h6 t' b' hb'
        refine ⟨o', ?_, k2, k3, ?_, ?_⟩
        · rw [List.getElem?_append_left (by omega)]; exact k1
        · rw [List.getElem?_append_left (by omega)]; exact k4
        · rw [List.take_append_of_le_length (by omega)]
          exact k5
      · have htl' : t' = bs.length := by
          have : t' < (bs ++ [b]).length := by
            by_contra hcon
            rw [List.getElem?_eq_none (by omega)] at hb'; cases hb'
          simp at this
          omega
        subst htl'
        have hbb : b' = b := by simpa using hb'.symm
        subst hbb
        refine ⟨o, by rw [← h4]; simp, g3, hmixed, by rw [← h3]; simp, ?_⟩
        intro i hi j hj
        rw [← h3, List.take_left]
        rcases List.eq_nil_or_concat ts with rfl | ⟨ts', x, hx⟩
        · by_cases hj0 : j = 0
          · rw [h3]
            exact hval i hi j (by subst hj0; exact Nat.zero_lt_one)
          · have hzero : ∀ n, past e (List.map (fun x : Round K => x.2.1) []) n = silence 1 := by
              intro n
              unfold past
              split <;> simp [layout]
            have h1 : between e (past e (List.map (fun x : Round K => x.2.1) []))
                ((([] : List (Round K)).length * e.N + i : Nat) - max (delayAt b'.2.1 i * e.sr) e.N) j = 0 := by
              unfold between sample
              rw [hzero, hzero]
              cases j with
              | zero => simp [silence]
              | succ j => simp [silence]
            rw [h1]
            have hio : i < o.length := by omega
            rw [heard, List.getElem?_eq_getElem hio]
            have hlen : o[i].length = 1 := by
              rcases read_frames hr o[i] (List.getElem_mem hio) with hz' | hlen
              · rw [hz']; rfl
              · rw [hlen]; exact h2.view.head
            show o[i].getD j 0 = 0
            rw [List.getD_eq_getElem?_getD, List.getElem?_eq_none (by omega)]
            rfl
        · rw [List.concat_eq_append] at hx
          have : layout (ts.map (·.2.1)) = c := by
            rw [hx, List.map_append, List.map_singleton, layout_append]
            exact (h5 x (by simp [hx])).2.2
          rw [h3]
          exact hval i hi j (by rw [this]; exact hj)

omit [LinearOrder K] [FloorRing K] [IsStrictOrderedRing K] in
/-- without changes of the layout the past stays as it was -/
theorem past_same (e : Env K) {c : Nat} {ins : List (Quantum K)} (hu : ∀ q ∈ ins, Uniform c q) {b : Int} (hb : 0 ≤ b)
    {q : Quantum K} (hq : ins[b.toNat]? = some q) : past e ins b = q := by
  have key : ∀ (l : List (Quantum K)) (p : Quantum K), (∀ q ∈ l, Uniform c q) → Uniform c p →
      l.foldl (fun p q i => Mix.mixF e.r .speakers (chansOf q) (p i)) p = p := by
    intro l
    induction l with
    | nil => intros; rfl
    | cons a l ih =>
      intro p hl hp
      have : (fun i => Mix.mixF e.r .speakers (chansOf a) (p i)) = p := by
        funext i
        have : chansOf a = (p i).length := by rw [hp i]; exact hl a List.mem_cons_self 0
        rw [this, Mix.mixF_self]
      rw [List.foldl_cons, this]
      exact ih p (fun q hq => hl q (List.mem_cons_of_mem _ hq)) hp
  unfold past
  rw [if_pos hb, hq]
  exact key _ _ (fun p hp => hu p (List.mem_of_mem_drop hp)) (hu q (List.mem_of_getElem? hq))

/-- **C106.** The feedback loop, for every input, every delay curve and every gain curve: it runs without a fault, and
every frame of the output is what went into the delay one delay earlier (on the straight line between two frames, if the
delay is not a whole number of frames). What goes in is the input plus the output times the gain. A delay shorter than a
quantum counts as a quantum. -/
theorem C106_recurrence {e : Env K} (hsr : 0 < e.sr) (hN : 0 < e.N) {cap : Nat} (hcap : 2 ≤ cap) {c : Nat} (hc : 0 < c)
    {bs : List (Beat K)} (hl : Loop e cap c bs) :
    ∃ outs s, echo e c (St.new cap) bs = some (outs, s) ∧ outs.length = bs.length ∧
      ∀ n, n < bs.length * e.N → ∀ j, j < c →
        wet e outs n j = (1 - Int.fract (n - lag e bs n)) * into e bs outs ⌊n - lag e bs n⌋ j +
          Int.fract (n - lag e bs n) * into e bs outs (⌊n - lag e bs n⌋ + 1) j := by
  obtain ⟨ts, outs, s, h1, _, h3, h4, h5, h6⟩ := echo_run hsr hN hcap hc hl
  refine ⟨outs, s, h1, h4, fun n hn j hj => ?_⟩
  have hNi : (0 : Int) < e.N := by exact_mod_cast hN
  have ht : n / e.N < bs.length := (Nat.div_lt_iff_lt_mul hN).2 hn
  have hi : n % e.N < e.N := Nat.mod_lt _ hN
  obtain ⟨o, k1, _, _, _, k5⟩ := h6 (n / e.N) _ (List.getElem?_eq_getElem ht)
  have hlag : lag e bs n = max (delayAt bs[n / e.N].2.1 (n % e.N) * e.sr) e.N := by
    rw [lag, List.getElem?_eq_getElem ht]; rfl
  have hwet : wet e outs n j = heard o (n % e.N) j := by rw [wet, k1]; rfl
  -- what is written
  have hins : ∀ q ∈ (ts.take (n / e.N)).map (·.2.1), Uniform c q := by
    intro q hq
    obtain ⟨x, hx, rfl⟩ := List.mem_map.1 hq
    exact (h5 x (List.mem_of_mem_take hx)).2.1
  have hsample : ∀ m : Int, m < (n / e.N * e.N : Nat) →
      sample e (past e ((ts.take (n / e.N)).map (·.2.1))) m j = into e bs outs m j := by
    intro m hm
    unfold sample into
    by_cases h0 : 0 ≤ m
    · obtain ⟨m, rfl⟩ := Int.eq_ofNat_of_zero_le h0
      have hmt : m / e.N < n / e.N := (Nat.div_lt_iff_lt_mul hN).2 (by exact_mod_cast hm)
      have hmi : m % e.N < e.N := Nat.mod_lt _ hN
      have e1 : ((m : Int) / (e.N : Int)) = ((m / e.N : Nat) : Int) := by simp
      have e2 : ((m : Int) % (e.N : Int)).toNat = m % e.N := by
        rw [← Int.natCast_mod]; exact Int.toNat_natCast _
      obtain ⟨om, q1, _, q3, q4, _⟩ := h6 (m / e.N) _ (List.getElem?_eq_getElem (by omega))
      rw [if_pos h0, e1, e2, past_same e hins (Int.natCast_nonneg _) (by
        rw [Int.toNat_natCast, List.getElem?_map, List.getElem?_take_of_lt hmt, q4]; rfl)]
      rw [Int.toNat_natCast, dry, gainAt, wet, q1, List.getElem?_eq_getElem (by omega)]
      have hx : (bs[m / e.N].1 (m % e.N)).length = c := hl.uniform _ (List.getElem_mem _) _
      have hy : (Mix.mixF e.r .speakers c (om.getD (m % e.N) [0])).length = c := Mix.mixF_length _ _ _ _
      show (feed e c _ _ om (m % e.N)).getD j 0 = (bs[m / e.N].1 (m % e.N)).getD j 0 +
        bs[m / e.N].2.2 (m % e.N) * heard om (m % e.N) j
      rw [← q3 _ hmi j hj, feed]
      have hA : j < (bs[m / e.N].1 (m % e.N)).length := by rw [hx]; exact hj
      have hB : j < (Mix.mixF e.r .speakers c (om.getD (m % e.N) [0])).length := by rw [hy]; exact hj
      rw [List.getD_eq_getElem?_getD, List.getD_eq_getElem?_getD (l := bs[m / e.N].1 (m % e.N)),
        List.getD_eq_getElem?_getD (l := Mix.mixF e.r .speakers c (om.getD (m % e.N) [0])), List.getElem?_zipWith,
        List.getElem?_eq_getElem hA, List.getElem?_eq_getElem hB]
      rfl
    · rw [if_neg h0]
      have hneg : m / (e.N : Int) < 0 := Int.ediv_neg_of_neg_of_pos (by omega) hNi
      rw [past, if_neg (by omega), silence]
      simp only [List.getD_eq_getElem?_getD, List.getElem?_replicate]
      split <;> rfl
  have hpos : n = n / e.N * e.N + n % e.N := by rw [Nat.mul_comm]; exact (Nat.div_add_mod n e.N).symm
  have hle : (n : K) - lag e bs n ≤ ((n - e.N : Int) : K) := by
    have : (e.N : K) ≤ lag e bs n := by rw [hlag]; exact le_max_right _ _
    push_cast
    linarith
  have hfl : ⌊(n : K) - lag e bs n⌋ ≤ n - e.N := by
    have := Int.floor_le ((n : K) - lag e bs n)
    exact_mod_cast this.trans hle
  have hk := k5 (n % e.N) hi j hj
  rw [← hpos, ← hlag] at hk
  rw [hwet, hk, between, hsample _ (by omega)]
  congr 1
  by_cases hlast : ⌊(n : K) - lag e bs n⌋ + 1 < (n / e.N * e.N : Nat)
  · rw [hsample _ hlast]
  · have : Int.fract ((n : K) - lag e bs n) = 0 := by
      have h2 : ⌊(n : K) - lag e bs n⌋ = n - e.N := by omega
      rw [Int.fract, h2]
      have := Int.floor_le ((n : K) - lag e bs n)
      rw [h2] at this
      linarith
    rw [this]
    ring

/-- **C106.** With a constant delay of `D` frames and a constant gain the output is the sum of the echoes: the `k`-th
echo is the input `k * D` frames earlier, times the gain to the power of `k - 1`. -/
theorem C106_echoes {e : Env K} (hsr : 0 < e.sr) (hN : 0 < e.N) {cap : Nat} (hcap : 2 ≤ cap) {c : Nat} (hc : 0 < c)
    {bs : List (Beat K)} (hl : Loop e cap c bs) {D : Nat} (hD : e.N ≤ D) {g : K}
    (hdelay : ∀ b ∈ bs, ∀ i, i < e.N → delayAt b.2.1 i * e.sr = D) (hgain : ∀ b ∈ bs, ∀ i, i < e.N → b.2.2 i = g) :
    ∃ outs s, echo e c (St.new cap) bs = some (outs, s) ∧ outs.length = bs.length ∧
      ∀ n, n < bs.length * e.N → ∀ j, j < c →
        wet e outs n j = ∑ k ∈ Finset.range (n / D), g ^ k * dry e bs (n - (k + 1) * D) j := by
  obtain ⟨outs, s, h1, h2, h3⟩ := C106_recurrence hsr hN hcap hc hl
  refine ⟨outs, s, h1, h2, fun n => ?_⟩
  have hD0 : 0 < D := by omega
  induction n using Nat.strong_induction_on with
  | _ n ih =>
    intro hn j hj
    have at_ : ∀ m, m < bs.length * e.N → lag e bs m = D ∧ gainAt e bs m = g := by
      intro m hm
      have ht : m / e.N < bs.length := (Nat.div_lt_iff_lt_mul hN).2 hm
      have hi : m % e.N < e.N := Nat.mod_lt _ hN
      constructor
      · rw [lag, List.getElem?_eq_getElem ht]
        show max (delayAt bs[m / e.N].2.1 (m % e.N) * e.sr) e.N = _
        rw [hdelay _ (List.getElem_mem _) _ hi, max_eq_left]
        exact_mod_cast hD
      · rw [gainAt, List.getElem?_eq_getElem ht]
        exact hgain _ (List.getElem_mem _) _ hi
    have hp : (n : K) - lag e bs n = ((n - D : Int) : K) := by rw [(at_ n hn).1]; push_cast; rfl
    rw [h3 n hn j hj, hp, Int.fract_intCast, Int.floor_intCast, into]
    by_cases hnD : D ≤ n
    · have hm : ((n : Int) - D).toNat = n - D := by omega
      rw [if_pos (by omega), hm, ih (n - D) (by omega) (by omega) j hj, (at_ (n - D) (by omega)).2]
      have hdiv : n / D = (n - D) / D + 1 := by
        rw [Nat.div_eq_sub_div hD0 hnD]
      rw [hdiv, Finset.sum_range_succ']
      have : ∀ k, n - (k + 1 + 1) * D = n - D - (k + 1) * D := by
        intro k
        rw [Nat.add_mul (k + 1) 1 D]
        omega
      simp only [this, Finset.mul_sum, pow_succ']
      have e1 : n - (0 + 1) * D = n - D := by omega
      rw [e1]
      simp only [pow_zero, zero_mul, add_zero, sub_zero, one_mul, mul_assoc]
      ring
    · rw [if_neg (by omega), Nat.div_eq_of_lt (by omega)]
      simp

/-- an output frame is not louder than the frames it is read from -/
theorem wet_le {e : Env K} {bs : List (Beat K)} {outs : List (List (List K))} {n j : Nat}
    (h : wet e outs n j = (1 - Int.fract (n - lag e bs n)) * into e bs outs ⌊n - lag e bs n⌋ j +
      Int.fract (n - lag e bs n) * into e bs outs (⌊n - lag e bs n⌋ + 1) j) {R : K}
    (hR : ∀ m : Int, (n : K) - lag e bs n ≤ m + 1 → m ≤ n - e.N → (n : K) - lag e bs n - 1 < m → |into e bs outs m j| ≤ R) :
    |wet e outs n j| ≤ R := by
  have hlag : (e.N : K) ≤ lag e bs n := le_max_right _ _
  rw [h]
  set p := (n : K) - lag e bs n with hp
  have hfl : ⌊p⌋ ≤ n - e.N := by
    have h1 := Int.floor_le p
    have h2 : p ≤ ((n - e.N : Int) : K) := by rw [hp]; push_cast; linarith
    exact_mod_cast h1.trans h2
  have hf0 := Int.fract_nonneg p
  have hf1 := (Int.fract_lt_one p).le
  have a1 := hR ⌊p⌋ (Int.lt_floor_add_one p).le hfl (Int.sub_one_lt_floor p)
  by_cases hz : Int.fract p = 0
  · rw [hz]
    simpa using a1
  · have hfl' : ⌊p⌋ + 1 ≤ n - e.N := by
      have h1 : (⌊p⌋ : K) < ((n - e.N : Int) : K) := by
        have : (⌊p⌋ : K) < p := lt_of_le_of_ne (Int.floor_le p) (fun hc => hz (by rw [Int.fract, ← hc]; simp))
        refine this.trans_le ?_
        rw [hp]; push_cast; linarith
      have : ⌊p⌋ < n - e.N := by exact_mod_cast h1
      omega
    have a2 := hR (⌊p⌋ + 1) (by have := Int.lt_floor_add_one p; push_cast; linarith) hfl'
      (by have := Int.lt_floor_add_one p; push_cast; linarith)
    calc |(1 - Int.fract p) * into e bs outs ⌊p⌋ j + Int.fract p * into e bs outs (⌊p⌋ + 1) j|
        ≤ |(1 - Int.fract p) * into e bs outs ⌊p⌋ j| + |Int.fract p * into e bs outs (⌊p⌋ + 1) j| := abs_add_le _ _
      _ = (1 - Int.fract p) * |into e bs outs ⌊p⌋ j| + Int.fract p * |into e bs outs (⌊p⌋ + 1) j| := by
          rw [abs_mul, abs_mul, abs_of_nonneg (by linarith : 0 ≤ 1 - Int.fract p), abs_of_nonneg hf0]
      _ ≤ (1 - Int.fract p) * R + Int.fract p * R :=
          add_le_add (mul_le_mul_of_nonneg_left a1 (by linarith)) (mul_le_mul_of_nonneg_left a2 hf0)
      _ = R := by ring

omit [FloorRing K] [IsStrictOrderedRing K] in
theorem gainAt_le {e : Env K} (hN : 0 < e.N) {bs : List (Beat K)} {g : K}
    (hgain : ∀ b ∈ bs, ∀ i, i < e.N → |b.2.2 i| ≤ g) {m : Nat} (hm : m < bs.length * e.N) : |gainAt e bs m| ≤ g := by
  have ht : m / e.N < bs.length := (Nat.div_lt_iff_lt_mul hN).2 hm
  rw [gainAt, List.getElem?_eq_getElem ht]
  exact hgain _ (List.getElem_mem _) _ (Nat.mod_lt _ hN)

/-- **C106.** The loop is stable: with inputs up to `M` and gains up to `g < 1` the output never exceeds `M / (1 - g)`,
whatever the delay curve. When the input has ended, the output dies away: by the factor `g` with each longest delay
`L`. -/
theorem C106_stable {e : Env K} (hsr : 0 < e.sr) (hN : 0 < e.N) {cap : Nat} (hcap : 2 ≤ cap) {c : Nat} (hc : 0 < c)
    {bs : List (Beat K)} (hl : Loop e cap c bs) {g M : K} (hg : g < 1)
    (hgain : ∀ b ∈ bs, ∀ i, i < e.N → |b.2.2 i| ≤ g) (hdry : ∀ n j, |dry e bs n j| ≤ M) :
    ∃ outs s, echo e c (St.new cap) bs = some (outs, s) ∧ outs.length = bs.length ∧
      (∀ n, n < bs.length * e.N → ∀ j, j < c → |wet e outs n j| ≤ M / (1 - g)) ∧
      ∀ T L : Nat, (∀ n, T ≤ n → ∀ j, dry e bs n j = 0) → (∀ n, n < bs.length * e.N → lag e bs n ≤ L) →
        ∀ k n, T + k * L ≤ n → n < bs.length * e.N → ∀ j, j < c → |wet e outs n j| ≤ g ^ k * (M / (1 - g)) := by
  obtain ⟨outs, s, h1, h2, h3⟩ := C106_recurrence hsr hN hcap hc hl
  have h1g : 0 < 1 - g := by linarith
  have hM : 0 ≤ M := (abs_nonneg _).trans (hdry 0 0)
  have hB : 0 ≤ M / (1 - g) := div_nonneg hM h1g.le
  have hfix : M + g * (M / (1 - g)) = M / (1 - g) := by field_simp; ring
  have bound : ∀ n, n < bs.length * e.N → ∀ j, j < c → |wet e outs n j| ≤ M / (1 - g) := by
    intro n
    induction n using Nat.strong_induction_on with
    | _ n ih =>
      intro hn j hj
      refine wet_le (h3 n hn j hj) fun m _ hm _ => ?_
      rw [into]
      split
      · have hlt : m.toNat < bs.length * e.N := by omega
        have hga := gainAt_le hN hgain hlt
        have hw := ih m.toNat (by omega) hlt j hj
        calc |dry e bs m.toNat j + gainAt e bs m.toNat * wet e outs m.toNat j|
            ≤ |dry e bs m.toNat j| + |gainAt e bs m.toNat * wet e outs m.toNat j| := abs_add_le _ _
          _ ≤ M + g * (M / (1 - g)) := by
              rw [abs_mul]
              exact add_le_add (hdry _ _) (mul_le_mul hga hw (abs_nonneg _) ((abs_nonneg _).trans hga))
          _ = _ := hfix
      · simpa using hB
  refine ⟨outs, s, h1, h2, bound, fun T L hT hL k => ?_⟩
  induction k with
  | zero =>
    intro n _ hn j hj
    simpa using bound n hn j hj
  | succ k ih =>
    intro n hTn hn j hj
    have hg0 : 0 ≤ g := (abs_nonneg _).trans (gainAt_le hN hgain hn)
    refine wet_le (h3 n hn j hj) fun m hm1 hm hm2 => ?_
    have hLn := hL n hn
    have hmL : (n : Int) - L ≤ m := by
      have : ((n - L - 1 : Int) : K) < m := by push_cast; linarith
      have : (n - L - 1 : Int) < m := by exact_mod_cast this
      omega
    rw [Nat.succ_mul] at hTn
    have hm0 : 0 ≤ m := by omega
    have hlt : m.toNat < bs.length * e.N := by omega
    rw [into, if_pos hm0, hT m.toNat (by omega) j, zero_add, abs_mul, pow_succ', mul_assoc]
    exact mul_le_mul (gainAt_le hN hgain hlt) (ih m.toNat (by omega) hlt j hj) (abs_nonneg _) hg0

end

/-! ## Concrete cases -/

/-- one click into a loop with a delay of three frames and a gain of a half -/
def click : List (Beat ℚ) :=
  (mono 8 0, [3 / 2], fun _ => 1 / 2) :: List.replicate 5 (mono 0 0, [3 / 2], fun _ => 1 / 2)

theorem click_loop : Loop e2 3 1 click := by
  have hm : ∀ a b, Uniform 1 (mono a b) := fun a b => mono_uniform a b
  refine ⟨?_, ?_, ?_⟩ <;> intro b hb <;> simp only [click, List.mem_cons, List.mem_replicate] at hb <;>
    rcases hb with rfl | ⟨_, rfl⟩
  · exact hm _ _
  · exact hm _ _
  · exact .inl rfl
  · exact .inl rfl
  all_goals
    intro i _
    show (0 : ℚ) ≤ 3 / 2 ∧ (3 / 2 : ℚ) * 2 ≤ ((2 * (3 - 1) : Nat) : ℚ)
    norm_num

/-- The click comes back after three, six and nine frames. -/
example : (echo e2 1 (St.new 3) click).map (·.1) =
    some [[[0], [0]], [[0], [8]], [[0], [0]], [[4], [0]], [[0], [2]], [[0], [0]]] := by decide +kernel

example : ∃ outs s, echo e2 1 (St.new 3) click = some (outs, s) ∧ outs.length = 6 ∧
    ∀ n, n < 12 → ∀ j, j < 1 →
      wet e2 outs n j = ∑ k ∈ Finset.range (n / 3), (1 / 2) ^ k * dry e2 click (n - (k + 1) * 3) j :=
  C106_echoes (by decide) (by decide) (by decide) (by decide) click_loop (D := 3) (by decide)
    (by
      intro b hb i _
      simp only [click, List.mem_cons, List.mem_replicate] at hb
      rcases hb with rfl | ⟨_, rfl⟩ <;> show (3 / 2 : ℚ) * 2 = (3 : Nat) <;> norm_num)
    (by
      intro b hb i _
      simp only [click, List.mem_cons, List.mem_replicate] at hb
      rcases hb with rfl | ⟨_, rfl⟩ <;> rfl)

/-- After the click the output halves with every three frames. -/
example : ∃ outs s, echo e2 1 (St.new 3) click = some (outs, s) ∧ ∀ k n, 2 + k * 3 ≤ n → n < 12 → ∀ j, j < 1 →
    |wet e2 outs n j| ≤ (1 / 2) ^ k * 16 := by
  have hdry : ∀ n j, |dry e2 click n j| ≤ 8 ∧ (2 ≤ n → dry e2 click n j = 0) := by
    intro n j
    have hj : ∀ a : ℚ, ([a] : List ℚ).getD j 0 = if j = 0 then a else 0 := by
      intro a
      cases j <;> simp
    unfold dry
    by_cases h0 : n / e2.N = 0
    · have hlt : n < 2 := by
        by_contra hc
        have : 1 ≤ n / 2 := by omega
        have : n / 2 = 0 := h0
        omega
      rw [h0]
      refine ⟨?_, fun h => by omega⟩
      show |(mono 8 0 (n % 2)).getD j 0| ≤ 8
      unfold mono
      split <;> rw [hj] <;> split <;> norm_num
    · have : ∀ f, (((click[n / e2.N]?).map fun b => b.1 f).getD []).getD j 0 = (0 : ℚ) := by
        intro f
        rw [click, List.getElem?_cons, if_neg h0, List.getElem?_replicate]
        split
        · show (mono 0 0 f).getD j 0 = 0
          unfold mono
          split <;> rw [hj] <;> simp
        · rfl
      rw [this]
      simp
  obtain ⟨outs, s, h1, _, _, h3⟩ := C106_stable (by decide) (by decide) (by decide) (by decide) click_loop (g := 1 / 2)
    (M := 8) (by norm_num)
    (by
      intro b hb i _
      simp only [click, List.mem_cons, List.mem_replicate] at hb
      rcases hb with rfl | ⟨_, rfl⟩ <;> norm_num)
    (fun n j => (hdry n j).1)
  refine ⟨outs, s, h1, fun k n h2 hn j hj => ?_⟩
  have := h3 2 3 (fun n hn j => (hdry n j).2 hn) (by decide +kernel) k n h2 hn j hj
  norm_num at this ⊢
  exact this

/-- The order in which the graph processes the loop: source 11, delay (writer 12, reader 13), gain 14, destination 0. The
connections were made in the order writer to reader (by the constructor), source to delay, delay to gain, gain to delay,
delay to destination. The connection of the writer is cut; the reader comes before the gain, the gain before the
writer. -/
example : (match Graph.orderNodes ⟨[0, 11, 12, 13, 14], fun n => if n = 11 then [12] else if n = 12 then [13]
      else if n = 13 then [14, 0] else if n = 14 then [12] else [], fun n => n == 12⟩ with
      | .ok (g, order) => some (g.succ 12, order)
      | _ => none) = some ([], [13, 14, 11, 12, 0]) := by decide

end Verif.Delay
