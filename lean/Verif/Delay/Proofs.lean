import Verif.Delay.Model
import Mathlib.Tactic.Linarith
import Mathlib.Tactic.FieldSimp
import Mathlib.Tactic.Ring

/-! # Helper lemmas for the delay node -/

namespace Verif.Delay

section
variable {K : Type} [Field K] [LinearOrder K] [FloorRing K]

/-! ## What is in the past -/

/-- a quantum with the same number of channels in all frames -/
def Uniform (c : Nat) (q : Quantum K) : Prop := ∀ i, (q i).length = c

/-- the layout in force after the given inputs -/
def layout (ins : List (Quantum K)) : Nat := (ins.getLast?.map chansOf).getD 1

/-- Input quantum number `b` as it stands after all inputs: mixed to the layout of every later input. Silence
outside of the inputs. -/
def past (e : Env K) (ins : List (Quantum K)) (b : Int) : Quantum K :=
  if 0 ≤ b then
    match ins[b.toNat]? with
    | some q => (ins.drop (b.toNat + 1)).foldl (fun p q i => Mix.mixF e.r .speakers (chansOf q) (p i)) q
    | none => silence (layout ins)
  else silence (layout ins)

omit [LinearOrder K] [FloorRing K] in
theorem layout_append (ins : List (Quantum K)) (q : Quantum K) : layout (ins ++ [q]) = chansOf q := by
  simp [layout]

omit [LinearOrder K] [FloorRing K] in
theorem past_new (e : Env K) (ins : List (Quantum K)) (q : Quantum K) : past e (ins ++ [q]) ins.length = q := by
  unfold past
  rw [if_pos (Int.natCast_nonneg _)]
  simp

omit [LinearOrder K] [FloorRing K] in
theorem past_old (e : Env K) (ins : List (Quantum K)) (q : Quantum K) {b : Int} (hb : b < ins.length) :
    past e (ins ++ [q]) b = fun i => Mix.mixF e.r .speakers (chansOf q) (past e ins b i) := by
  unfold past
  split
  · rename_i h0
    have hlt : b.toNat < ins.length := by omega
    rw [List.getElem?_append_left hlt, List.getElem?_eq_getElem hlt]
    dsimp only
    rw [List.drop_append_of_le_length (by omega), List.foldl_append]
    rfl
  · rw [layout_append]
    funext i
    rw [silence, silence, Mix.mixF_zeros]

omit [LinearOrder K] [FloorRing K] in
theorem foldl_uniform (e : Env K) (l : List (Quantum K)) : ∀ (c : Nat) (q : Quantum K), Uniform c q →
    Uniform ((l.getLast?.map chansOf).getD c)
      (l.foldl (fun p q i => Mix.mixF e.r .speakers (chansOf q) (p i)) q) := by
  induction l with
  | nil => intro c q hq; simpa using hq
  | cons a l ih =>
    intro c q hq
    rw [List.foldl_cons]
    have := ih (chansOf a) (fun i => Mix.mixF e.r .speakers (chansOf a) (q i)) (fun i => Mix.mixF_length _ _ _ _)
    rcases List.eq_nil_or_concat l with rfl | ⟨l', x, rfl⟩
    · simpa using this
    · rw [List.concat_eq_append, List.getLast?_append] at *
      rw [← List.cons_append, List.getLast?_append]
      simpa using this

omit [LinearOrder K] [FloorRing K] in
theorem past_uniform (e : Env K) (ins : List (Quantum K)) (hu : ∀ q ∈ ins, Uniform (chansOf q) q) (b : Int) :
    Uniform (layout ins) (past e ins b) := by
  unfold past
  have hs : Uniform (K := K) (layout ins) (silence (layout ins)) := fun i => by simp [silence]
  split
  · split
    · rename_i q hq
      have hlt : b.toNat < ins.length := by
        by_contra hc
        rw [List.getElem?_eq_none (by omega)] at hq; cases hq
      rw [List.getElem?_eq_getElem hlt, Option.some.injEq] at hq
      have := foldl_uniform e (ins.drop (b.toNat + 1)) (chansOf q) q (hu q (by rw [← hq]; simp))
      have hl : layout ins = ((ins.drop (b.toNat + 1)).getLast?.map chansOf).getD (chansOf q) := by
        unfold layout
        rw [List.getLast?_drop]
        split
        · have : ins.length = b.toNat + 1 := by omega
          rw [List.getLast?_eq_getElem?, this, Nat.add_sub_cancel, List.getElem?_eq_getElem hlt, hq]
          rfl
        · have hne : ins ≠ [] := by intro h; simp [h] at hlt
          rw [List.getLast?_eq_some_getLast hne]
          rfl
      rw [hl]
      exact this
    · exact hs
  · exact hs

/-! ## The ring -/

/-- The ring shows the quanta `V b` for `lo ≤ b < lo + size`. -/
structure View (ring : List (Quantum K)) (c : Nat) (lo : Int) (V : Int → Quantum K) : Prop where
  pos : 0 < ring.length
  slot : ∀ b : Int, lo ≤ b → b < lo + ring.length → ring[(b % ring.length).toNat]? = some (V b)
  uniform : ∀ b : Int, lo ≤ b → b < lo + ring.length → Uniform c (V b)

theorem exists_window (lo x : Int) {n : Nat} (hn : 0 < n) : ∃ b, lo ≤ b ∧ b < lo + n ∧ b % (n : Int) = x % n := by
  refine ⟨lo + (x - lo) % n, ?_, ?_, ?_⟩
  · have := Int.emod_nonneg (x - lo) (by omega : (n : Int) ≠ 0); omega
  · have := Int.emod_lt_of_pos (x - lo) (by omega : (0 : Int) < n); omega
  · rw [Int.add_emod, Int.emod_emod_of_dvd _ (dvd_refl _), ← Int.add_emod]; congr 1; ring

omit [LinearOrder K] [FloorRing K] in
theorem View.every {ring : List (Quantum K)} {c : Nat} {lo : Int} {V : Int → Quantum K} (h : View ring c lo V)
    (x : Int) : ∃ q, ring[(x % ring.length).toNat]? = some q ∧ Uniform c q := by
  obtain ⟨b, h1, h2, h3⟩ := exists_window lo x h.pos
  exact ⟨V b, by rw [← h3]; exact h.slot b h1 h2, h.uniform b h1 h2⟩

omit [LinearOrder K] [FloorRing K] in
theorem View.head {ring : List (Quantum K)} {c : Nat} {lo : Int} {V : Int → Quantum K} (h : View ring c lo V) :
    chansOf (ring.headD (silence 1)) = c := by
  obtain ⟨q, hq, hu⟩ := h.every 0
  have : ring.headD (silence 1) = q := by
    cases ring with
    | nil => have := h.pos; simp at this
    | cons a l => simpa using hq
  rw [this]
  exact hu 0

/-! ## Addresses -/

theorem nextFrame_spec {e : Env K} (hN : 0 < e.N) {size : Nat} (hs : 0 < size) (n : Int) :
    nextFrame e size ((n / e.N) % size).toNat (n % e.N).toNat =
      ((((n + 1) / e.N) % size).toNat, ((n + 1) % e.N).toNat) := by
  have hN' : (0 : Int) < e.N := by exact_mod_cast hN
  have h1 := Int.emod_nonneg n (by omega : (e.N : Int) ≠ 0)
  have h2 := Int.emod_lt_of_pos n hN'
  have h3 := Int.emod_add_mul_ediv n e.N
  unfold nextFrame
  split
  · rename_i hle
    have hlast : n % e.N = e.N - 1 := by omega
    have hn : n + 1 = (n / e.N + 1) * e.N := by rw [add_mul, mul_comm]; omega
    rw [hn, Int.mul_emod_left, Int.mul_ediv_cancel _ (by omega)]
    have h4 := Int.emod_nonneg (n / e.N) (by omega : (size : Int) ≠ 0)
    simp only [Int.toNat_zero, Prod.mk.injEq, and_true]
    have : ((((n / e.N) % size).toNat + 1 : Nat) : Int) % size = (n / e.N + 1) % size := by
      push_cast
      rw [Int.toNat_of_nonneg h4, Int.emod_add_emod]
    omega
  · rename_i hlt
    have hd : (n + 1) / (e.N : Int) = n / e.N ∧ (n + 1) % (e.N : Int) = n % e.N + 1 := by
      rw [Int.ediv_emod_unique hN']
      refine ⟨by omega, by omega, by omega⟩
    rw [hd.1, hd.2]
    congr 1
    omega

variable [IsStrictOrderedRing K]

/-- delay in frames: in a cycle at least a quantum -/
def delayFrames (e : Env K) (cyc : Bool) (d : K) : K := if cyc then max (d * e.sr) e.N else d * e.sr

omit [FloorRing K] in
theorem clamped_eq {e : Env K} (hsr : 0 < e.sr) (cyc : Bool) (d : K) :
    (if cyc then max d (e.N * (1 / e.sr)) else d) * e.sr = delayFrames e cyc d := by
  unfold delayFrames
  split
  · rw [max_mul_of_nonneg _ _ hsr.le]
    congr 1
    field_simp
  · rfl

theorem playInfo_spec {e : Env K} (hsr : 0 < e.sr) (hN : 0 < e.N) {size : Nat} (R : Nat) (cyc : Bool)
    {i : Nat} (hi : i < e.N) {d : K} (h0 : 0 ≤ delayFrames e cyc d)
    (h1 : delayFrames e cyc d ≤ (e.N * (size - 1 : Nat) : Nat)) (hs : 0 < size) :
    playInfo e cyc size (R % size) i d =
      some ⟨(((R * e.N + ⌊(i : K) - delayFrames e cyc d⌋) / e.N) % size).toNat,
        ((R * e.N + ⌊(i : K) - delayFrames e cyc d⌋) % e.N).toNat,
        Int.fract ((i : K) - delayFrames e cyc d)⟩ := by
  have hN' : (0 : Int) < e.N := by exact_mod_cast hN
  unfold playInfo
  dsimp only
  rw [clamped_eq hsr]
  obtain ⟨F, hF⟩ : ∃ F, ⌊(i : K) - delayFrames e cyc d⌋ = F := ⟨_, rfl⟩
  have hFlt : F < e.N := by
    rw [← hF, Int.floor_lt]
    have : (i : K) < e.N := by exact_mod_cast hi
    push_cast
    linarith
  have hFge : -((e.N * (size - 1 : Nat) : Nat) : Int) ≤ F := by
    rw [← hF, Int.le_floor]
    have : (0 : K) ≤ i := Nat.cast_nonneg i
    push_cast at h1 ⊢
    linarith
  rw [← Int.self_sub_floor, hF]
  have e1 := Int.emod_nonneg F (by omega : (e.N : Int) ≠ 0)
  have e2 := Int.emod_lt_of_pos F hN'
  have e3 := Int.emod_add_mul_ediv F e.N
  have hq0 : F / e.N ≤ 0 := by
    by_contra hc
    have : (e.N : Int) * 1 ≤ e.N * (F / e.N) := Int.mul_le_mul_of_nonneg_left (by omega) (by omega)
    omega
  have hq1 : -((size - 1 : Nat) : Int) ≤ F / e.N := by
    rw [Int.le_ediv_iff_mul_le hN']
    push_cast at hFge
    rw [neg_mul]
    rw [mul_comm] at hFge
    push_cast
    exact hFge
  have hsum : (R * e.N + F) / (e.N : Int) = R + F / e.N := by
    rw [Int.add_comm, Int.add_mul_ediv_right _ _ (by omega), Int.add_comm]
  have hmod : ((R * e.N + F) % (e.N : Int)) = F % e.N := by
    rw [Int.add_comm, Int.add_mul_emod_self_right]
  rw [hsum, hmod]
  have hframe : (if (if F.tmod e.N = 0 then -(e.N : Int) else F.tmod e.N) ≤ 0
      then (e.N : Int) + (if F.tmod e.N = 0 then -(e.N : Int) else F.tmod e.N)
      else (if F.tmod e.N = 0 then -(e.N : Int) else F.tmod e.N)) = F % e.N := by
    have ht : F.tmod e.N = if 0 ≤ F ∨ (e.N : Int) ∣ F then F % e.N else F % e.N - e.N := by
      rw [Int.tmod_eq_emod]
      split <;> simp
    by_cases hz : F % e.N = 0
    · have hd : (e.N : Int) ∣ F := Int.dvd_of_emod_eq_zero hz
      rw [if_pos (Or.inr hd), hz] at ht
      rw [ht, hz]
      simp
    · have hd : ¬ (e.N : Int) ∣ F := fun h => hz (Int.emod_eq_zero_of_dvd h)
      by_cases hp : 0 ≤ F
      · rw [if_pos (Or.inl hp)] at ht
        rw [ht, if_neg hz, if_neg (by omega)]
      · have hn : ¬ (0 ≤ F ∨ (e.N : Int) ∣ F) := by
          rintro (h | h)
          · exact hp h
          · exact hd h
        rw [if_neg hn] at ht
        have h1 : F % (e.N : Int) - e.N ≠ 0 := by omega
        have h2 : F % (e.N : Int) - e.N ≤ 0 := by omega
        rw [ht, if_neg h1, if_pos h2]
        omega
  rw [hframe]
  have hb : (if ((R % size : Nat) : Int) + F / e.N < 0 then ((R % size : Nat) : Int) + F / e.N + size
      else ((R % size : Nat) : Int) + F / e.N) = (R + F / e.N) % size := by
    have hr1 : ((R % size : Nat) : Int) < size := by
      exact_mod_cast Nat.mod_lt R hs
    have hr0 : 0 ≤ ((R % size : Nat) : Int) := Int.natCast_nonneg _
    have hadd : (R + F / e.N) % (size : Int) = (((R % size : Nat) : Int) + F / e.N) % size := by
      rw [Int.natCast_mod, Int.emod_add_emod]
    rw [hadd]
    split
    · rw [← Int.add_emod_right, Int.emod_eq_of_lt (by omega) (by omega)]
    · rw [Int.emod_eq_of_lt (by omega) (by omega)]
  rw [hb]
  have hnb := Int.emod_nonneg (R + F / e.N) (by omega : (size : Int) ≠ 0)
  rw [if_neg (by omega)]

/-- frame number and fraction to the address in the ring -/
def addr (e : Env K) (size : Nat) (n : Int) (k : K) : Info K := ⟨((n / e.N) % size).toNat, (n % e.N).toNat, k⟩

omit [IsStrictOrderedRing K] in
theorem count_spec {e : Env K} (hN : 0 < e.N) {size : Nat} (hs : 0 < size) (m : Nat) :
    ∀ (n : Int) (k : K), count e size m (addr e size n k) =
      (List.range m).map fun i => addr e size (n + (i : Nat)) k := by
  induction m with
  | zero => intro n k; rfl
  | succ m ih =>
    intro n k
    rw [count]
    have := nextFrame_spec (e := e) hN hs n
    have hn : (⟨(nextFrame e size (addr e size n k).block (addr e size n k).frame).1,
        (nextFrame e size (addr e size n k).block (addr e size n k).frame).2, (addr e size n k).k⟩ : Info K) =
        addr e size (n + 1) k := by
      show (⟨(nextFrame e size ((n / e.N) % size).toNat (n % e.N).toNat).1,
        (nextFrame e size ((n / e.N) % size).toNat (n % e.N).toNat).2, k⟩ : Info K) = _
      rw [this]
      rfl
    rw [hn, ih, List.range_succ_eq_map, List.map_cons, List.map_map]
    simp only [Nat.cast_zero, add_zero, List.cons.injEq, true_and]
    apply List.map_congr_left
    intro i _
    show addr e size (n + 1 + i) k = addr e size (n + ((i + 1 : Nat) : Int)) k
    congr 1
    push_cast
    ring

/-- the delay value in force at a frame: one value for all frames or one for each -/
def delayAt (delays : List K) (i : Nat) : K :=
  match delays with
  | [d] => d
  | ds => ds.getD i 0

theorem infos_spec {e : Env K} (hsr : 0 < e.sr) (hN : 0 < e.N) {size : Nat} (hs : 0 < size) (R : Nat) (cyc : Bool)
    {delays : List K} (hlen : delays.length = 1 ∨ delays.length = e.N)
    (hd : ∀ i, i < e.N → 0 ≤ delayFrames e cyc (delayAt delays i) ∧
      delayFrames e cyc (delayAt delays i) ≤ (e.N * (size - 1 : Nat) : Nat)) :
    infos e cyc size (R % size) delays = some ((List.range e.N).map fun (i : Nat) =>
      addr e size (R * e.N + ⌊(i : K) - delayFrames e cyc (delayAt delays i)⌋)
        (Int.fract ((i : K) - delayFrames e cyc (delayAt delays i)))) := by
  match delays, hlen, hd with
  | [], h, _ => simp at h; omega
  | [d], _, hd =>
    obtain ⟨h0, h1⟩ := hd 0 hN
    rw [show delayAt [d] 0 = d from rfl] at h0 h1
    rw [infos, playInfo_spec hsr hN R cyc hN h0 h1 hs, Option.map_some]
    have := count_spec hN hs e.N (R * e.N + ⌊((0 : Nat) : K) - delayFrames e cyc d⌋)
      (Int.fract (((0 : Nat) : K) - delayFrames e cyc d))
    unfold addr at this
    rw [this]
    congr 1
    apply List.map_congr_left
    intro i _
    show _ = addr e size (R * e.N + ⌊(i : K) - delayFrames e cyc d⌋) (Int.fract ((i : K) - delayFrames e cyc d))
    have h2 : (i : K) - delayFrames e cyc d = (((0 : Nat) : K) - delayFrames e cyc d) + (i : Nat) := by
      push_cast; ring
    rw [h2, Int.floor_add_natCast, Int.fract_add_natCast]
    unfold addr
    rw [add_assoc]
  | d :: d' :: ds, h, hd =>
    have hl : (d :: d' :: ds).length = e.N := by
      rcases h with h | h
      · simp at h
      · exact h
    generalize hL : d :: d' :: ds = L at *
    have hdef : infos e cyc size (R % size) L =
        L.zipIdx.mapM fun p => playInfo e cyc size (R % size) p.2 p.1 := by
      rw [← hL]; rfl
    have hat : ∀ i, delayAt L i = L.getD i 0 := by intro i; rw [← hL]; rfl
    rw [hdef]
    have key : ∀ (l : List (K × Nat)), (∀ p ∈ l, p.2 < e.N ∧ p.1 = L.getD p.2 0) →
        l.mapM (fun p => playInfo e cyc size (R % size) p.2 p.1) = some (l.map fun p =>
          addr e size (R * e.N + ⌊(p.2 : K) - delayFrames e cyc (delayAt L p.2)⌋)
            (Int.fract ((p.2 : K) - delayFrames e cyc (delayAt L p.2)))) := by
      intro l
      induction l with
      | nil => intro _; rfl
      | cons p l ih =>
        intro h
        obtain ⟨p1, p2⟩ := h p (by simp)
        have hp : p.1 = delayAt L p.2 := by rw [hat]; exact p2
        obtain ⟨h0, h1⟩ := hd p.2 p1
        rw [List.mapM_cons, ih (fun q hq => h q (by simp [hq])), hp, playInfo_spec hsr hN R cyc p1 h0 h1 hs]
        rfl
    rw [key L.zipIdx (by
      intro p hp
      rw [List.mem_zipIdx_iff_getElem?] at hp
      have hlt : p.2 < L.length := by
        by_contra hc
        rw [List.getElem?_eq_none (by omega)] at hp; cases hp
      exact ⟨by omega, by simp [List.getD, hp]⟩)]
    congr 1
    apply List.ext_getElem?
    intro i
    rw [List.getElem?_map, List.getElem?_map]
    by_cases hi : i < e.N
    · rw [List.getElem?_range hi, List.getElem?_zipIdx, List.getElem?_eq_getElem (by omega)]
      simp
    · rw [List.getElem?_eq_none (by simp; omega), List.getElem?_eq_none (by simp; omega)]
      rfl

/-! ## Reading -/

/-- sample of channel `c` at frame `n` of an endless signal of quanta -/
def sample (e : Env K) (V : Int → Quantum K) (n : Int) (c : Nat) : K := (V (n / e.N) (n % e.N).toNat).getD c 0

/-- the signal between the frames -/
def between (e : Env K) (V : Int → Quantum K) (p : K) (c : Nat) : K :=
  (1 - Int.fract p) * sample e V ⌊p⌋ c + Int.fract p * sample e V (⌊p⌋ + 1) c

/-- the sample of an output -/
def heard (out : List (List K)) (i c : Nat) : K := ((out[i]?).getD []).getD c 0

omit [IsStrictOrderedRing K] in
theorem frameAt_spec {e : Env K} (hN : 0 < e.N) {ring : List (Quantum K)} {c : Nat} {lo : Int}
    {V : Int → Quantum K} (h : View ring c lo V) (n : Int) :
    ∃ q, frameAt e ring c ((n / e.N) % ring.length).toNat (n % e.N).toNat = some (q (n % e.N).toNat) ∧
      (lo ≤ n / e.N → n / e.N < lo + ring.length → q = V (n / e.N)) := by
  obtain ⟨q, hq, hu⟩ := h.every (n / e.N)
  have h1 := Int.emod_nonneg n (by omega : (e.N : Int) ≠ 0)
  have h2 := Int.emod_lt_of_pos n (by omega : (0 : Int) < e.N)
  refine ⟨q, ?_, ?_⟩
  · unfold frameAt
    rw [hq, Option.bind_some, if_pos ⟨by omega, le_of_eq (hu 0).symm⟩]
  · intro a b
    have := h.slot _ a b
    rw [hq] at this
    exact Option.some.inj this

omit [IsStrictOrderedRing K] in
theorem outFrame_spec {e : Env K} (hN : 0 < e.N) {ring : List (Quantum K)} {c : Nat} {lo : Int}
    {V : Int → Quantum K} (h : View ring c lo V) {n : Int} {k : K} (h1 : lo ≤ n / e.N)
    (h2 : n / e.N < lo + ring.length) (h3 : (n + 1) / e.N < lo + ring.length ∨ k = 0) :
    outFrame e ring c (addr e ring.length n k) = some ((List.range c).map fun j =>
      (1 - k) * sample e V n j + k * sample e V (n + 1) j) := by
  obtain ⟨q, hq, hv⟩ := frameAt_spec hN h n
  obtain ⟨q', hq', hv'⟩ := frameAt_spec hN h (n + 1)
  have hv := hv h1 h2
  have hmono : n / (e.N : Int) ≤ (n + 1) / e.N := Int.ediv_le_ediv (by omega) (by omega)
  unfold outFrame
  dsimp only
  show (frameAt e ring c ((n / e.N) % ring.length).toNat (n % e.N).toNat).bind _ = _
  rw [hq, Option.bind_some]
  show (frameAt e ring c (nextFrame e ring.length ((n / e.N) % ring.length).toNat (n % e.N).toNat).1
    (nextFrame e ring.length ((n / e.N) % ring.length).toNat (n % e.N).toNat).2).map _ = _
  rw [nextFrame_spec hN h.pos, hq', Option.map_some]
  congr 1
  apply List.map_congr_left
  intro j _
  show (1 - k) * (q (n % e.N).toNat).getD j 0 + k * (q' ((n + 1) % e.N).toNat).getD j 0 = _
  rw [hv]
  rcases h3 with h3 | h3
  · rw [hv' (by omega) h3]; rfl
  · rw [h3]; simp [sample]

/-- the state after a read -/
structure After (s s' : St K) (cyc alive : Bool) : Prop where
  ring : s'.ring = s.ring
  writeIndex : s'.writeIndex = s.writeIndex
  latest : s'.latest = s.latest
  now : s'.now = s.now
  lastWritten : s'.lastWritten = s.lastWritten
  inCycle : s'.inCycle = cyc
  goesOn : alive = !decide (s.lastChecked = some s.readIndex)
  readIndex : s'.readIndex = if alive = true then (s.readIndex + 1) % s.ring.length else s.readIndex
  lastChecked : s'.lastChecked =
    if alive = true ∧ s.lastWritten.isSome ∧ s.lastChecked = none then s.lastWritten else s.lastChecked

theorem read_spec {e : Env K} (hsr : 0 < e.sr) (hN : 0 < e.N) {s : St K} {c : Nat} {lo : Int}
    {V : Int → Quantum K} (h : View s.ring c lo V) {R : Nat} (hR : s.readIndex = R % s.ring.length) {cyc : Bool}
    (hcyc : cyc = (s.inCycle || decide (s.latest ≠ some s.now)))
    {delays : List K} (hlen : delays.length = 1 ∨ delays.length = e.N)
    (hd : ∀ i, i < e.N → 0 ≤ delayFrames e cyc (delayAt delays i) ∧
      delayFrames e cyc (delayAt delays i) ≤ (e.N * (s.ring.length - 1 : Nat) : Nat))
    (hlo : lo ≤ R + 1 - s.ring.length)
    (hhi : (R : Int) < lo + s.ring.length ∨ (cyc = true ∧ (R : Int) ≤ lo + s.ring.length)) :
    ∃ out alive s', s.read e delays = some (out, alive, s') ∧ After s s' cyc alive ∧ out.length = e.N ∧
      ∀ i, i < e.N → ∀ j, j < c → heard out i j =
        between e V ((R * e.N + i : Nat) - delayFrames e cyc (delayAt delays i)) j := by
  have hN' : (0 : Int) < e.N := by exact_mod_cast hN
  -- every frame
  have hframes : ∀ i, i < e.N →
      outFrame e s.ring c (addr e s.ring.length (R * e.N + ⌊(i : K) - delayFrames e cyc (delayAt delays i)⌋)
        (Int.fract ((i : K) - delayFrames e cyc (delayAt delays i)))) =
      some ((List.range c).map fun j =>
        between e V ((R * e.N + i : Nat) - delayFrames e cyc (delayAt delays i)) j) := by
    intro i hi
    obtain ⟨d0, d1⟩ := hd i hi
    obtain ⟨D, hD⟩ : ∃ D, delayFrames e cyc (delayAt delays i) = D := ⟨_, rfl⟩
    have hcy : cyc = true → (e.N : K) ≤ D := by
      intro hc
      rw [← hD, delayFrames, if_pos hc]
      exact le_max_right _ _
    rw [hD] at d0 d1 ⊢
    have hpos : ((R * e.N + i : Nat) : K) - D = ((i : K) - D) + ((R * e.N : Nat) : Nat) := by
      push_cast; ring
    have hfl : ⌊((R * e.N + i : Nat) : K) - D⌋ = (R * e.N : Int) + ⌊(i : K) - D⌋ := by
      rw [hpos, Int.floor_add_natCast]; push_cast; ring
    have hfr : Int.fract (((R * e.N + i : Nat) : K) - D) = Int.fract ((i : K) - D) := by
      rw [hpos, Int.fract_add_natCast]
    obtain ⟨F, hF⟩ : ∃ F, ⌊(i : K) - D⌋ = F := ⟨_, rfl⟩
    have hiK : (i : K) + 1 ≤ e.N := by exact_mod_cast hi
    have hFle : (F : K) ≤ (i : K) - D := by rw [← hF]; exact Int.floor_le _
    have hFgt : (i : K) - D < F + 1 := by rw [← hF]; exact Int.lt_floor_add_one _
    have hFge : -((e.N * (s.ring.length - 1 : Nat) : Nat) : Int) ≤ F := by
      rw [← hF, Int.le_floor]
      have : (0 : K) ≤ i := Nat.cast_nonneg i
      push_cast at d1 ⊢
      linarith
    have hdiv : (R * e.N + F) / (e.N : Int) = R + F / e.N := by
      rw [Int.add_comm, Int.add_mul_ediv_right _ _ (by omega), Int.add_comm]
    have hdiv1 : (R * e.N + F + 1) / (e.N : Int) = R + (F + 1) / e.N := by
      rw [Int.add_assoc, Int.add_comm, Int.add_mul_ediv_right _ _ (by omega), Int.add_comm]
    have hq1 : -((s.ring.length - 1 : Nat) : Int) ≤ F / e.N := by
      rw [Int.le_ediv_iff_mul_le hN']
      push_cast at hFge
      rw [neg_mul]
      rw [mul_comm] at hFge
      push_cast
      exact hFge
    have hpos' := h.pos
    rw [hF]
    rw [outFrame_spec hN h (n := R * e.N + F) (by rw [hdiv]; omega) ?_ ?_]
    · congr 1
      apply List.map_congr_left
      intro j _
      unfold between
      rw [hfl, hfr, hF]
    · rw [hdiv]
      have hFlt : F < e.N := by
        have : (F : K) < e.N := by linarith
        exact_mod_cast this
      have : F / (e.N : Int) < 1 := Int.ediv_lt_of_lt_mul hN' (by omega)
      rcases hhi with hhi | ⟨hc, hhi⟩
      · omega
      · have := hcy hc
        have hneg : F < 0 := by
          have : (F : K) < 0 := by linarith
          exact_mod_cast this
        have : F / (e.N : Int) < 0 := Int.ediv_neg_of_neg_of_pos hneg hN'
        omega
    · rw [hdiv1]
      rcases hhi with hhi | ⟨hc, hhi⟩
      · by_cases hF1 : F + 1 < e.N
        · left
          have : (F + 1) / (e.N : Int) < 1 := Int.ediv_lt_of_lt_mul hN' (by omega)
          omega
        · right
          have h1 : (e.N : Int) - 1 ≤ F := by omega
          have h2 : ((e.N : K) - 1) ≤ F := by
            have : (((e.N : Int) - 1 : Int) : K) ≤ F := by exact_mod_cast h1
            push_cast at this
            exact this
          have h3 : (i : K) - D = F := by linarith
          rw [h3, Int.fract_intCast]
      · have hND := hcy hc
        by_cases hF1 : F + 1 < 0
        · left
          have : (F + 1) / (e.N : Int) < 0 := Int.ediv_neg_of_neg_of_pos hF1 hN'
          omega
        · right
          have h1 : -1 ≤ F := by omega
          have h2 : (-1 : K) ≤ F := by
            have : ((-1 : Int) : K) ≤ F := by exact_mod_cast h1
            push_cast at this
            exact this
          have h3 : (i : K) - D = F := by linarith
          rw [h3, Int.fract_intCast]
  -- all frames
  have hmap : ((List.range e.N).map fun (i : Nat) =>
      addr e s.ring.length (R * e.N + ⌊(i : K) - delayFrames e cyc (delayAt delays i)⌋)
        (Int.fract ((i : K) - delayFrames e cyc (delayAt delays i)))).mapM (outFrame e s.ring c) =
      some ((List.range e.N).map fun i => (List.range c).map fun j =>
        between e V ((R * e.N + i : Nat) - delayFrames e cyc (delayAt delays i)) j) := by
    have : ∀ l : List Nat, (∀ i ∈ l, i < e.N) → (l.map fun (i : Nat) =>
        addr e s.ring.length (R * e.N + ⌊(i : K) - delayFrames e cyc (delayAt delays i)⌋)
          (Int.fract ((i : K) - delayFrames e cyc (delayAt delays i)))).mapM (outFrame e s.ring c) =
        some (l.map fun i => (List.range c).map fun j =>
          between e V ((R * e.N + i : Nat) - delayFrames e cyc (delayAt delays i)) j) := by
      intro l
      induction l with
      | nil => intro _; rfl
      | cons i l ih =>
        intro hl
        rw [List.map_cons, List.mapM_cons, hframes i (hl i (by simp)), ih fun j hj => hl j (by simp [hj])]
        rfl
    exact this _ fun i hi => List.mem_range.1 hi
  obtain ⟨out, hout⟩ : ∃ out, (List.range e.N).map (fun (i : Nat) => (List.range c).map fun j =>
      between e V ((R * e.N + i : Nat) - delayFrames e cyc (delayAt delays i)) j) = out := ⟨_, rfl⟩
  have hlo : out.length = e.N := by rw [← hout]; simp
  have hval : ∀ i, i < e.N → ∀ j, j < c → heard out i j =
      between e V ((R * e.N + i : Nat) - delayFrames e cyc (delayAt delays i)) j := by
    intro i hi j hj
    unfold heard
    rw [← hout, List.getElem?_map, List.getElem?_range hi]
    simp [List.getD, hj]
  obtain ⟨fin, hfin⟩ : ∃ fin, (if out.all (fun f => f.all fun x => x = 0) then List.replicate e.N [0] else out) = fin :=
    ⟨_, rfl⟩
  have hfl : fin.length = e.N := by
    rw [← hfin]; split
    · simp
    · exact hlo
  have hfv : ∀ i, i < e.N → ∀ j, j < c → heard fin i j =
      between e V ((R * e.N + i : Nat) - delayFrames e cyc (delayAt delays i)) j := by
    intro i hi j hj
    rw [← hval i hi j hj, ← hfin]
    split
    · rename_i hz
      have h1 : heard (List.replicate e.N [(0 : K)]) i j = 0 := by
        unfold heard
        rw [List.getElem?_replicate, if_pos hi]
        cases j <;> simp
      rw [h1]
      unfold heard
      rw [List.getElem?_eq_getElem (by omega), Option.getD_some]
      rw [List.all_eq_true] at hz
      have := hz (out[i]'(by omega)) (List.getElem_mem _)
      rw [List.all_eq_true] at this
      by_cases hj' : j < (out[i]'(by omega)).length
      · have := this _ (List.getElem_mem hj')
        simp only [decide_eq_true_eq] at this
        simp [List.getD, hj', this]
      · simp [List.getD, hj']
    · rfl
  have hread : s.read e delays = some (if s.lastChecked = some s.readIndex
      then (fin, false, { s with inCycle := cyc })
      else (fin, true, { s with
          inCycle := cyc
          lastChecked := if s.lastWritten.isSome ∧ s.lastChecked = none then s.lastWritten else s.lastChecked
          readIndex := (s.readIndex + 1) % s.ring.length })) := by
    unfold St.read
    dsimp only
    rw [← hcyc, h.head, hR, infos_spec hsr hN h.pos R cyc hlen hd, Option.bind_some, hmap, hout, Option.map_some,
      hfin]
  rw [hread]
  by_cases hlc : s.lastChecked = some s.readIndex
  · rw [if_pos hlc]
    exact ⟨fin, false, _, rfl, ⟨rfl, rfl, rfl, rfl, rfl, rfl, by simp [hlc], by simp, by simp⟩, hfl, hfv⟩
  · rw [if_neg hlc]
    exact ⟨fin, true, _, rfl, ⟨rfl, rfl, rfl, rfl, rfl, rfl, by simp [hlc], by simp, by simp⟩, hfl, hfv⟩

end

end Verif.Delay
