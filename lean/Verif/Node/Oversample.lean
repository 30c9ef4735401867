import Verif.Node.WaveShaper

/-!
# C92: wave shaper with oversampling

Models `WaveShaperRenderer::process` (`/repo/src/node/waveshaper.rs` l.384-487) with all three values of `oversample`. A
resampler (crate rubato, `FftFixedInOut`) is an arbitrary machine for each channel that maps a chunk and its memory to a
chunk and its new memory; nothing is known about the samples, only the length of the chunk matters.
-/

namespace Verif.Node

/-- One channel of a resampler: `Resampler::new`, l.297-316, gives the memory `init`; `process`, l.318-338, is `step`. -/
structure Resampler (K : Type) where
  σ : Type
  init : σ
  step : σ → List K → List K × σ

/-- `OverSampleType` -/
inductive Factor
  | one | two | four
deriving DecidableEq

section
variable {K : Type} [Field K] [LinearOrder K] [IsStrictOrderedRing K] [FloorRing K]

/-- the memory of both resamplers for a channel -/
abbrev Mem (up down : Resampler K) := up.σ × down.σ

def Mem.init (up down : Resampler K) : Mem up down := (up.init, down.init)

/-- one channel: up, curve, down, l.427-434 or l.463-471; `none`: a panic -/
def through (up down : Resampler K) (curve : List K) (s : Mem up down) (x : List K) : Option (List K × Mem up down) :=
  match (up.step s.1 x).1.mapM (applyCurve curve) with
  | none => none
  | some y => some ((down.step s.2 y).1, ((up.step s.1 x).2, (down.step s.2 y).2))

/-- all channels, l.427-443 or l.463-480; `copy_from_slice` panics if the number of frames is not `N` -/
def channels (up down : Resampler K) (N : Nat) (curve : List K) :
    List (Mem up down) → Quantum K → Option (Quantum K × List (Mem up down))
  | m :: ms, c :: cs =>
    match through up down curve m (c.data N) with
    | none => none
    | some (z, m) =>
      if z.length = N then
        match channels up down N curve ms cs with
        | none => none
        | some (zs, ms) => some (some z :: zs, m :: ms)
      else none
  | _, [] => some ([], [])
  | [], _ => none

/-- one of the branches with oversampling, l.409-444 or l.445-481: new resamplers if the number of channels has changed -/
def oversampled (up down : Resampler K) (N : Nat) (curve : List K) (s : Nat × List (Mem up down)) (input : Quantum K) :
    Option (Quantum K × (Nat × List (Mem up down))) :=
  let mem := if input.length = s.1 then s.2 else List.replicate input.length (Mem.init up down)
  match channels up down N curve mem input with
  | none => none
  | some (out, mem) => some (out, (input.length, mem))

/-- the resamplers of the renderer, l.367-377: number of channels and memory -/
structure Over (up2 down2 up4 down4 : Resampler K) where
  x2 : Nat × List (Mem up2 down2) := (1, [Mem.init up2 down2])
  x4 : Nat × List (Mem up4 down4) := (1, [Mem.init up4 down4])

/-- `process`, l.384-487 -/
def Over.process {up2 down2 up4 down4 : Resampler K} (N : Nat) (curve : Option (List K)) (quiet : Bool) (f : Factor)
    (s : Over up2 down2 up4 down4) (input : Quantum K) : Option (Quantum K × Over up2 down2 up4 down4) :=
  if isSilent input && quiet then some (silence, s)
  else
    match curve, f with
    | none, _ => some (input, s)
    | some c, .one => (input.mapM (shapeChan N c)).map fun out => (out, s)
    | some c, .two => (oversampled up2 down2 N c s.x2 input).map fun r => (r.1, { s with x2 := r.2 })
    | some c, .four => (oversampled up4 down4 N c s.x4 input).map fun r => (r.1, { s with x4 := r.2 })

/-- successive quanta, each with its value of `oversample` -/
def Over.run {up2 down2 up4 down4 : Resampler K} (N : Nat) (curve : Option (List K)) (quiet : Bool) :
    Over up2 down2 up4 down4 → List (Factor × Quantum K) → Option (List (Quantum K) × Over up2 down2 up4 down4)
  | s, [] => some ([], s)
  | s, (f, q) :: qs =>
    match s.process N curve quiet f q with
    | none => none
    | some (o, s) =>
      match s.run N curve quiet qs with
      | none => none
      | some (os, s) => some (o :: os, s)

/-! ### specification -/

/-- The reference: one channel upsampled, shaped and downsampled chunk by chunk without interruption. -/
def stream (up down : Resampler K) (curve : List K) : Mem up down → List (List K) → List (List K)
  | _, [] => []
  | m, x :: xs =>
    let y := (up.step m.1 x).1.map fun v => (applyCurve curve v).getD 0
    (down.step m.2 y).1 :: stream up down curve ((up.step m.1 x).2, (down.step m.2 y).2) xs

/-- the chunks fit: chunks of `N` frames come out with `N` frames -/
def Fits (up down : Resampler K) (N : Nat) : Prop :=
  ∀ (u : up.σ) (d : down.σ) (x y : List K), x.length = N → y.length = (up.step u x).1.length →
    (down.step d y).1.length = N

/-- samples of channel `j`, `[]` if there is none -/
def chan (N : Nat) (q : Quantum K) (j : Nat) : List K := (q[j]?.map (Chan.data N)).getD []

/-! ### proofs -/

/-- the shaped chunk -/
def shaped (curve : List K) (l : List K) : List K := l.map fun v => (applyCurve curve v).getD 0

omit [IsStrictOrderedRing K] in
theorem mapM_curve {curve l : List K} (h : ∀ x, ∃ y, applyCurve curve x = some y) :
    l.mapM (applyCurve curve) = some (shaped curve l) := by
  induction l with
  | nil => rfl
  | cons a l ih =>
    obtain ⟨y, hy⟩ := h a
    rw [List.mapM_cons, hy, ih]
    simp [shaped, hy]

theorem applyCurve_some (curve : List K) (x : K) : ∃ y, applyCurve curve x = some y := by
  by_cases h : curve = []
  · exact ⟨0, by simp [applyCurve, h]⟩
  · obtain ⟨y, hy, -⟩ := C39_apply_curve curve h x
    exact ⟨y, hy⟩

/-- the memory after a chunk, and the chunk -/
def next (up down : Resampler K) (curve : List K) (m : Mem up down) (x : List K) : Mem up down :=
  ((up.step m.1 x).2, (down.step m.2 (shaped curve (up.step m.1 x).1)).2)

def out (up down : Resampler K) (curve : List K) (m : Mem up down) (x : List K) : List K :=
  (down.step m.2 (shaped curve (up.step m.1 x).1)).1

theorem through_eq (up down : Resampler K) (curve : List K) (m : Mem up down) (x : List K) :
    through up down curve m x = some (out up down curve m x, next up down curve m x) := by
  unfold through
  rw [mapM_curve (applyCurve_some curve)]
  rfl

omit [LinearOrder K] [IsStrictOrderedRing K] [FloorRing K] in
theorem data_length {N : Nat} {q : Quantum K} (hq : ∀ l, some l ∈ q → l.length = N) {c : Chan K} (hc : c ∈ q) :
    (c.data N).length = N := by
  cases c with
  | none => simp [Chan.data]
  | some l => exact hq l hc

theorem channels_eq {up down : Resampler K} {N : Nat} (hfit : Fits up down N) (curve : List K) (ms : List (Mem up down))
    (q : Quantum K) (hl : ms.length = q.length) (hq : ∀ l, some l ∈ q → l.length = N) :
    channels up down N curve ms q = some (List.zipWith (fun m c => some (out up down curve m (c.data N))) ms q,
      List.zipWith (fun m c => next up down curve m (c.data N)) ms q) := by
  induction q generalizing ms with
  | nil =>
    have : ms = [] := List.length_eq_zero_iff.1 hl
    subst this
    rfl
  | cons c q ih =>
    cases ms with
    | nil => simp at hl
    | cons m ms =>
      have hlen : (out up down curve m (c.data N)).length = N := by
        refine hfit m.1 m.2 (c.data N) _ (data_length hq (by simp)) ?_
        simp [shaped]
      simp only [channels, through_eq, hlen, if_true]
      rw [ih ms (by simpa using hl) (fun l h => hq l (by simp [h]))]
      rfl

omit [IsStrictOrderedRing K] in
theorem stream_cons (up down : Resampler K) (curve : List K) (m : Mem up down)
    (x : List K) (xs : List (List K)) :
    stream up down curve m (x :: xs) = out up down curve m x :: stream up down curve (next up down curve m x) xs := rfl

/-- successive quanta of one of the branches -/
def oversampledRun (up down : Resampler K) (N : Nat) (curve : List K) : Nat × List (Mem up down) → List (Quantum K) →
    Option (List (Quantum K) × (Nat × List (Mem up down)))
  | s, [] => some ([], s)
  | s, q :: qs =>
    match oversampled up down N curve s q with
    | none => none
    | some (o, s) =>
      match oversampledRun up down N curve s qs with
      | none => none
      | some (os, s) => some (o :: os, s)

theorem oversampledRun_stream {up down : Resampler K} {N : Nat} (hfit : Fits up down N) (curve : List K) (n : Nat)
    (ms : List (Mem up down)) (hms : ms.length = n) (qs : List (Quantum K))
    (hq : ∀ q ∈ qs, q.length = n ∧ ∀ l, some l ∈ q → l.length = N) :
    ∃ outs ms', oversampledRun up down N curve (n, ms) qs = some (outs, (n, ms')) ∧ ms'.length = n ∧
      ∀ j (hj : j < n), outs.map (chan N · j) = stream up down curve (ms[j]'(by omega)) (qs.map (chan N · j)) := by
  induction qs generalizing ms with
  | nil => exact ⟨[], ms, rfl, hms, fun j hj => rfl⟩
  | cons q qs ih =>
    obtain ⟨h1, h2⟩ := hq q (by simp)
    have hlen : (List.zipWith (fun m c => next up down curve m (Chan.data N c)) ms q).length = n := by simp [hms, h1]
    obtain ⟨outs, ms', g1, g2, g3⟩ := ih _ hlen (fun r hr => hq r (by simp [hr]))
    refine ⟨List.zipWith (fun m c => some (out up down curve m (Chan.data N c))) ms q :: outs, ms', ?_, g2, ?_⟩
    · simp only [oversampledRun, oversampled, h1, if_true]
      rw [channels_eq hfit curve ms q (by rw [hms, h1]) h2]
      simp only [g1]
    · intro j hj
      have hjm : j < ms.length := by omega
      have hjq : j < q.length := by omega
      rw [List.map_cons, List.map_cons, stream_cons, g3 j hj]
      simp [chan, hjq, hjm, Chan.data]

/-- C92 (twice; four times is `C92_oversampled_four`): as long as the number of channels is constant and no
silence is passed on, each channel is upsampled, shaped and downsampled chunk by chunk without interruption, starting with
new resamplers if there was another number of channels before. -/
theorem C92_oversampled_two {up2 down2 up4 down4 : Resampler K} {N : Nat} (hfit : Fits up2 down2 N) (curve : List K)
    {quiet : Bool} {n : Nat} (s : Over up2 down2 up4 down4)
    (hs : s.x2.1 ≠ n ∨ s.x2.2 = List.replicate n (Mem.init up2 down2)) (qs : List (Quantum K))
    (hq : ∀ q ∈ qs, q.length = n ∧ (∀ l, some l ∈ q → l.length = N) ∧ (isSilent q = false ∨ quiet = false)) :
    ∃ outs s', s.run N (some curve) quiet (qs.map (Factor.two, ·)) = some (outs, s') ∧
      ∀ j < n, outs.map (chan N · j) = stream up2 down2 curve (Mem.init up2 down2) (qs.map (chan N · j)) := by
  have hrun : ∀ (qs : List (Quantum K)) (s : Over up2 down2 up4 down4),
      (∀ q ∈ qs, isSilent q = false ∨ quiet = false) →
      s.run N (some curve) quiet (qs.map (Factor.two, ·)) =
        (oversampledRun up2 down2 N curve s.x2 qs).map fun r => (r.1, { s with x2 := r.2 }) := by
    intro qs
    induction qs with
    | nil => intro s _; rfl
    | cons q qs ih =>
      intro s hs
      have hc : ¬((isSilent q && quiet) = true) := by
        rcases hs q (by simp) with h | h <;> simp [h]
      simp only [List.map_cons, Over.run, Over.process, if_neg hc, oversampledRun]
      cases oversampled up2 down2 N curve s.x2 q with
      | none => rfl
      | some r =>
        simp only [Option.map_some]
        rw [ih _ (fun q hq => hs q (by simp [hq]))]
        dsimp only
        cases oversampledRun up2 down2 N curve r.2 qs <;> rfl
  rw [hrun qs s (fun q h => (hq q h).2.2)]
  cases qs with
  | nil => exact ⟨[], _, rfl, fun j _ => rfl⟩
  | cons q qs =>
    have hfirst : oversampledRun up2 down2 N curve s.x2 (q :: qs) =
        oversampledRun up2 down2 N curve (n, List.replicate n (Mem.init up2 down2)) (q :: qs) := by
      have hql := (hq q (by simp)).1
      have : oversampled up2 down2 N curve s.x2 q =
          oversampled up2 down2 N curve (n, List.replicate n (Mem.init up2 down2)) q := by
        unfold oversampled
        by_cases h : n = s.x2.1
        · have h' := hs.resolve_left (fun hh => hh h.symm)
          simp only [hql, h', ← h, if_true]
        · simp only [hql, h, if_false, if_true]
      simp only [oversampledRun, this]
    rw [hfirst]
    obtain ⟨outs, ms', g1, -, g3⟩ := oversampledRun_stream hfit curve n (List.replicate n (Mem.init up2 down2)) (by simp)
      (q :: qs) (fun q h => ⟨(hq q h).1, (hq q h).2.1⟩)
    rw [g1]
    exact ⟨outs, _, rfl, fun j hj => by rw [g3 j hj]; simp⟩

/-- C92 four times -/
theorem C92_oversampled_four {up2 down2 up4 down4 : Resampler K} {N : Nat} (hfit : Fits up4 down4 N) (curve : List K)
    {quiet : Bool} {n : Nat} (s : Over up2 down2 up4 down4)
    (hs : s.x4.1 ≠ n ∨ s.x4.2 = List.replicate n (Mem.init up4 down4)) (qs : List (Quantum K))
    (hq : ∀ q ∈ qs, q.length = n ∧ (∀ l, some l ∈ q → l.length = N) ∧ (isSilent q = false ∨ quiet = false)) :
    ∃ outs s', s.run N (some curve) quiet (qs.map (Factor.four, ·)) = some (outs, s') ∧
      ∀ j < n, outs.map (chan N · j) = stream up4 down4 curve (Mem.init up4 down4) (qs.map (chan N · j)) := by
  have hrun : ∀ (qs : List (Quantum K)) (s : Over up2 down2 up4 down4),
      (∀ q ∈ qs, isSilent q = false ∨ quiet = false) →
      s.run N (some curve) quiet (qs.map (Factor.four, ·)) =
        (oversampledRun up4 down4 N curve s.x4 qs).map fun r => (r.1, { s with x4 := r.2 }) := by
    intro qs
    induction qs with
    | nil => intro s _; rfl
    | cons q qs ih =>
      intro s hs
      have hc : ¬((isSilent q && quiet) = true) := by
        rcases hs q (by simp) with h | h <;> simp [h]
      simp only [List.map_cons, Over.run, Over.process, if_neg hc, oversampledRun]
      cases oversampled up4 down4 N curve s.x4 q with
      | none => rfl
      | some r =>
        simp only [Option.map_some]
        rw [ih _ (fun q hq => hs q (by simp [hq]))]
        dsimp only
        cases oversampledRun up4 down4 N curve r.2 qs <;> rfl
  rw [hrun qs s (fun q h => (hq q h).2.2)]
  cases qs with
  | nil => exact ⟨[], _, rfl, fun j _ => rfl⟩
  | cons q qs =>
    have hfirst : oversampledRun up4 down4 N curve s.x4 (q :: qs) =
        oversampledRun up4 down4 N curve (n, List.replicate n (Mem.init up4 down4)) (q :: qs) := by
      have hql := (hq q (by simp)).1
      have : oversampled up4 down4 N curve s.x4 q =
          oversampled up4 down4 N curve (n, List.replicate n (Mem.init up4 down4)) q := by
        unfold oversampled
        by_cases h : n = s.x4.1
        · have h' := hs.resolve_left (fun hh => hh h.symm)
          simp only [hql, h', ← h, if_true]
        · simp only [hql, h, if_false, if_true]
      simp only [oversampledRun, this]
    rw [hfirst]
    obtain ⟨outs, ms', g1, -, g3⟩ := oversampledRun_stream hfit curve n (List.replicate n (Mem.init up4 down4)) (by simp)
      (q :: qs) (fun q h => ⟨(hq q h).1, (hq q h).2.1⟩)
    rw [g1]
    exact ⟨outs, _, rfl, fun j hj => by rw [g3 j hj]; simp⟩

/-- C92 is false when the input pauses, whatever the resamplers are: the rest of the sound in their
memory is cut off, and comes out when the next sound begins, as if there had been no pause. -/
theorem C92_negated_pause {up2 down2 up4 down4 : Resampler K} {N : Nat} (hfit : Fits up2 down2 N) (curve x x' : List K)
    (hx : x.length = N) (hx' : x'.length = N) (pause : Nat) :
    ∃ a b s', stream up2 down2 curve (Mem.init up2 down2) [x, x'] = [a, b] ∧
      ({} : Over up2 down2 up4 down4).run N (some curve) true
        ((Factor.two, [some x]) :: (List.replicate pause (Factor.two, silence) ++ [(Factor.two, [some x'])])) =
      some ([some a] :: (List.replicate pause silence ++ [[some b]]), s') := by
  have hone : ∀ (m : Mem up2 down2) (t : Nat × List (Mem up4 down4)) (y : List K), y.length = N →
      Over.process (up4 := up4) (down4 := down4) N (some curve) true .two ⟨(1, [m]), t⟩ [some y] =
        some ([some (out up2 down2 curve m y)], ⟨(1, [next up2 down2 curve m y]), t⟩) := by
    intro m t y hy
    have hc : ¬((isSilent [some y] && true) = true) := by simp [isSilent]
    simp only [Over.process, if_neg hc, oversampled, List.length_singleton, if_true]
    rw [channels_eq hfit curve [m] [some y] rfl (by simpa using hy)]
    rfl
  have hrest : ∀ (p : Nat) (m : Mem up2 down2) (t : Nat × List (Mem up4 down4)),
      Over.run (up4 := up4) (down4 := down4) N (some curve) true ⟨(1, [m]), t⟩
        (List.replicate p (Factor.two, silence) ++ [(Factor.two, [some x'])]) =
      some (List.replicate p silence ++ [[some (out up2 down2 curve m x')]], ⟨(1, [next up2 down2 curve m x']), t⟩) := by
    intro p m t
    induction p with
    | zero => simp only [List.replicate_zero, List.nil_append, Over.run, hone m t x' hx']
    | succ p ih =>
      have hs : Over.process (up4 := up4) (down4 := down4) N (some curve) true .two ⟨(1, [m]), t⟩ silence =
          some (silence, ⟨(1, [m]), t⟩) := by
        simp [Over.process, isSilent, silence]
      simp only [List.replicate_succ, List.cons_append, Over.run, hs, ih]
  refine ⟨out up2 down2 curve (Mem.init up2 down2) x,
    out up2 down2 curve (next up2 down2 curve (Mem.init up2 down2) x) x',
    ⟨(1, [next up2 down2 curve (next up2 down2 curve (Mem.init up2 down2) x) x']), (1, [Mem.init up4 down4])⟩, rfl, ?_⟩
  simp only [Over.run]
  rw [hone _ _ x hx]
  simp only [hrest]

end

/-! ### examples and counterexamples -/

/-- a simple resampler: repeats every sample -/
def twice : Resampler ℚ := ⟨Unit, (), fun _ l => (l.flatMap fun x => [x, x], ())⟩

/-- takes every second sample, one sample late -/
def halfLate : Resampler ℚ := ⟨ℚ, 0, fun m l =>
  let e := (List.range (l.length / 2)).map fun i => l.getD (2 * i) 0
  ((m :: e).take e.length, e.getLastD m)⟩

theorem fits_late : Fits twice halfLate 2 := by
  intro u d x y hx hy
  obtain ⟨a, b, rfl⟩ := List.length_eq_two.1 hx
  have : y.length = 4 := hy
  simp only [halfLate, this, List.length_take, List.length_map, List.length_range, List.length_cons]
  rfl

/-- two quanta of two channels with these resamplers -/
example : ((({} : Over twice halfLate twice halfLate).run 2 (some [-1, 0, 1]) true
      [(.two, [some [1, 2], some [1/2, 1/4]]), (.two, [some [-1, 1/3], none])]).map (·.1)) =
    some [[some [0, 1], some [0, 1/2]], [some [1, -1], some [1/4, 0]]] := by decide +kernel

/-- With them, the last sample of a sound is cut off and comes out after the pause: without interruption it would be the
first sample of the pause. -/
theorem C92_negated_pause_witness :
    (({} : Over twice halfLate twice halfLate).run 2 (some [-1, 0, 1]) true
      [(.two, [some [1/2, 1/3]]), (.two, silence), (.two, [some [1/5, 1/5]])]).map (·.1) =
        some [[some [0, 1/2]], silence, [some [1/3, 1/5]]] ∧
    stream twice halfLate [-1, 0, 1] (Mem.init twice halfLate) [[1/2, 1/3], [0, 0], [1/5, 1/5]] =
      [[0, 1/2], [1/3, 0], [0, 1/5]] := by decide +kernel

end Verif.Node
