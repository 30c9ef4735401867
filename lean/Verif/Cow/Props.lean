import Verif.Cow.Proofs
import Mathlib.Algebra.Group.Prod
import Mathlib.Algebra.Group.Int.Defs

/-!
# C14: copy-on-write buffers never leak writes

`V` is the contents of a buffer, for instance `Fin 128 → K`. The reference behaviour `specStep`
(`Verif/Cow/Spec.lean`) gives each handle its own copy of the samples.
-/

namespace Verif.Cow

variable {V : Type} [AddZeroClass V]

/-- **C14** For every sequence of creating, cloning, dropping, writing and adding of channels, starting
with any pool size, every handle reads the samples it would read if handles never shared memory. -/
theorem C14_value_semantics (n : Nat) (ops : List (Op V)) (h : Nat) :
    ((St.init n : St V).run ops).read h = (ops.foldl specStep []).lookup h := by
  have := (run_spec (St.init n) (init_inv n) ops).2
  show Option.map _ _ = _
  rw [← lookup_view, this]
  rfl

/-- **C14** Writing through one handle does what it says and changes nothing that any other handle
sees, in every reachable state. -/
theorem C14_write_is_local (n : Nat) (ops : List (Op V)) (h k : Nat) (f : V → V) :
    let s := (St.init n : St V).run ops
    (s.step (.write h f)).read k = if k = h then (s.read h).map f else s.read k := by
  intro s
  have hs := run_spec (St.init n) (init_inv n) ops
  have h1 := (step_spec s hs.1 (.write h f)).2
  show Option.map _ _ = _
  rw [← lookup_view, h1]
  simp only [specStep, St.read, ← lookup_view]
  generalize s.view = l
  induction l with
  | nil => simp
  | cons x l ih =>
    obtain ⟨a, v⟩ := x
    by_cases ha : a = h
    · subst ha
      by_cases hk : k = a
      · subst hk; simp
      · have : (k == a) = false := by simpa using hk
        simp only [List.map_cons, if_true, List.lookup_cons, this, if_neg hk] at ih ⊢
        exact ih
    · by_cases hk : k = a
      · subst hk; simp [ha]
      · have : (k == a) = false := by simpa using hk
        simp only [List.map_cons, if_neg ha, List.lookup_cons, this] at ih ⊢
        rw [ih]
        by_cases hkh : k = h
        · subst hkh
          simp [this]
        · simp [hkh]

/-- **C14** Silence stays silent: the shared buffer of zeroes is never modified, and a channel that
reports to be silent contains zeroes. -/
theorem C14_silence (n : Nat) (ops : List (Op V)) :
    let s := (St.init n : St V).run ops
    s.mem 0 = 0 ∧ ∀ h, s.isSilent h = true → s.read h = some 0 := by
  intro s
  have hs := run_spec (St.init n) (init_inv n) ops
  refine ⟨hs.1.zero, fun h hh => ?_⟩
  have : s.ptr h = some 0 := by simpa [St.isSilent] using hh
  simp [St.read, this, hs.1.zero, s]

/-- **C14** A buffer waiting in the pool is seen by no handle, and is there only once. -/
theorem C14_pool_unshared (n : Nat) (ops : List (Op V)) :
    let s := (St.init n : St V).run ops
    s.pool.Nodup ∧ ∀ h p, s.ptr h = some p → p ∉ s.pool := by
  intro s
  have hs := run_spec (St.init n) (init_inv n) ops
  exact ⟨hs.1.poolNodup, fun h p hp => hs.1.disj _ (ptr_mem hp)⟩

/-- A history in which a buffer (of two samples here) is shared, copied, dropped, recycled from the pool
and written again. -/
def exOps : List (Op (ℤ × ℤ)) :=
  [.silence 0, .write 0 (fun _ => (5, 6)), .clone 0 1, .write 1 (fun v => v + v), .silence 2, .add 2 1,
   .drop 1, .write 2 (fun v => v + v), .clone 2 3, .drop 0, .write 3 (fun v => (v.1 + 1, v.2))]

/-- the buffer (address 1) of handle 0 is recycled for handle 3 -/
example : ((St.init 0 : St (ℤ × ℤ)).run exOps).handles = [(3, 1), (2, 2)] := by decide +kernel

example : ((St.init 0).run exOps).read 3 = some (21, 24) ∧ ((St.init 0).run exOps).read 2 = some (20, 24) := by
  rw [C14_value_semantics, C14_value_semantics]
  decide +kernel

example : ((St.init 0 : St (ℤ × ℤ)).run exOps).pool = [] ∧
    (((St.init 0 : St (ℤ × ℤ)).run exOps).step (.drop 2)).pool = [2] := by decide +kernel

example : let s := (St.init 0 : St (ℤ × ℤ)).run exOps
    (s.step (.write 3 fun _ => (9, 9))).read 2 = some (20, 24) ∧
    (s.step (.write 3 fun _ => (9, 9))).read 3 = some (9, 9) := by
  intro s
  rw [C14_write_is_local, C14_write_is_local]
  decide +kernel

end Verif.Cow
