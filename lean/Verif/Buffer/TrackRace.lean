import Verif.Buffer.Track

/-!
# C50: consumers on different threads

`MediaStreamTrackIter::next` (`/repo/src/media_streams/mod.rs` l.98-123) in steps, one per access to the shared state:
two media stream nodes of different contexts may poll the same track at the same time. The guard of the mutex lives
until the end of the `match` (l.105-113), so that fetching a chunk and publishing it is one step. Steps of all threads
are interleaved in one order.
-/

namespace Verif.Buffer.Track

variable {α : Type}

/-- where a call of `next` is: `load` after the check of `ended` (l.99), `fetch p` after the load of the position (l.103)
when the consumer is up to date, `bump p` after the chunk was published (l.107), `read p` before the load of the chunk
(l.118-119), where `p` is the position that the consumer will have -/
inductive Pc where
  | idle
  | load
  | fetch (p : Nat)
  | bump (p : Nat)
  | read (p : Nat)
deriving DecidableEq

/-- the shared state with the positions of the iterators, and where the calls are; every iterator has its own thread -/
structure Race (α : Type) where
  st : St α
  pc : Nat → Pc

def Race.at (r : Race α) (i : Nat) (s : St α) (p : Pc) : Race α := ⟨s, fun k => if k = i then p else r.pc k⟩

/-- One step of the thread of iterator `i`; the second component is the result if the call returns. -/
def Race.step (r : Race α) (i : Nat) : Race α × Option (Option α) :=
  match r.pc i with
  | .idle => if r.st.ended then (r, some none) else (r.at i r.st .load, none)
  | .load =>
    if r.st.position = r.st.iter i then (r.at i r.st (.fetch r.st.position), none)
    else (r.at i r.st (.read r.st.position), none)
  | .fetch p =>
    match r.st.provider with
    | [] => (r.at i { r.st with ended := true } .idle, some none)
    | c :: rest => (r.at i { r.st with provider := rest, data := some c } (.bump (p + 1)), none)
  | .bump p => (r.at i { r.st with position := r.st.position + 1 } (.read p), none)
  | .read p =>
    (r.at i { r.st with iter := fun k => if k = i then p else r.st.iter k } .idle, some r.st.data)

/-- an interleaving: what the calls that returned delivered, and the state -/
def Race.run (r : Race α) : List Nat → List (Nat × Option α) × Race α
  | [] => ([], r)
  | i :: is =>
    let x := r.step i
    let y := x.1.run is
    match x.2 with
    | none => y
    | some d => ((i, d) :: y.1, y.2)

def Race.start (chunks : List α) : Race α := ⟨St.new chunks, fun _ => .idle⟩

/-- A call that is not interrupted is `St.next`: at most five steps after which the thread is idle again. -/
theorem C50_uninterrupted (r : Race α) (i : Nat) (h : r.pc i = .idle) : ∃ n ≤ 5,
    (r.run (List.replicate n i)).1 = [(i, (r.st.next i).1)] ∧
    (r.run (List.replicate n i)).2.st = (r.st.next i).2 ∧ (r.run (List.replicate n i)).2.pc = r.pc := by
  have hpc : ∀ q : Nat → Pc, (∀ k, k ≠ i → q k = r.pc k) → q i = .idle → q = r.pc := by
    intro q h1 h2
    funext k
    by_cases hk : k = i
    · rw [hk, h2, h]
    · exact h1 k hk
  by_cases he : r.st.ended
  · refine ⟨1, by omega, ?_⟩
    simp [List.replicate, Race.run, Race.step, h, he, St.next]
  · by_cases hp : r.st.position = r.st.iter i
    · cases hc : r.st.provider with
      | nil =>
        refine ⟨3, by omega, ?_⟩
        simp only [List.replicate, Race.run, Race.step, h, he, hp, Race.at, hc, St.next, if_true]
        simp only [if_true, hp, hc, Bool.false_eq_true, if_false]
        refine ⟨trivial, trivial, hpc _ (fun k hk => by simp [hk]) (by simp)⟩
      | cons c rest =>
        refine ⟨5, by omega, ?_⟩
        simp only [List.replicate, Race.run, Race.step, h, he, hp, Race.at, hc, St.next, if_true]
        simp only [if_true, hp, hc, Bool.false_eq_true, if_false]
        refine ⟨trivial, ?_, hpc _ (fun k hk => by simp [hk]) (by simp)⟩
        simp [he]
    · refine ⟨3, by omega, ?_⟩
      simp only [List.replicate, Race.run, Race.step, h, he, hp, Race.at, St.next]
      simp only [if_true, hp, Bool.false_eq_true, if_false]
      refine ⟨trivial, by simp [he], hpc _ (fun k hk => by simp [hk]) (by simp)⟩

/-- **C50** negated: two consumers that are polled at the same time both lose the first chunk and both get the second
one twice, although they are polled equally often. -/
theorem C50_negated_race : ∃ sched : List Nat,
    sched.count 0 = sched.count 1 ∧
    got ((Race.start [10, 20, 30]).run sched).1 0 = [20, 20] ∧
    got ((Race.start [10, 20, 30]).run sched).1 1 = [20, 20] :=
  ⟨[0, 0, 1, 1, 0, 1, 0, 1, 0, 1, 0, 0, 0, 1, 1, 1], by decide +kernel⟩

end Verif.Buffer.Track
