import Verif.Thread.Model
import Mathlib.Algebra.Order.Floor.Defs
import Mathlib.Data.Rat.Floor

/-!
# Model of offline rendering

Models `OfflineAudioContext::{calculate_suspend_frame, suspend, suspend_sync}`
(`/repo/src/context/offline.rs` l.241-251, l.294-320, l.359-387) and
`RenderThread::{render_audiobuffer_sync, render_audiobuffer, render_offline_quantum}`
(`/repo/src/render/thread.rs` l.260-302, l.309-352, l.355-396).

As in `Verif.Thread.Model` the graph is abstract and each poll of the control messages consumes the
next batch of a list. The poll after a quantum only happens if events were handled (l.289-293); if not,
its batch is taken to be empty. What a suspend callback does to the context is visible to the renderer
only through the messages it sends. Destructors (`unload_graph`) are not modelled.
-/

namespace Verif.Thread

/-- Ghost: what happened during offline rendering, in order. -/
inductive Ev (K : Type) where
  | callback (id : Nat)
  | quantum (frame : Nat) (q : Quantum K)

/-- State of the loop: the render thread, the output buffer (one growing vector per channel), ghost
trace. -/
structure Off (G K : Type) where
  t : St G K
  buffer : List (List K)
  trace : List (Ev K)

variable {G K : Type} [Zero K]

/-- `render_offline_quantum`, thread.rs l.355-396. `cap` is the capacity of the vectors. -/
def offQuantum (sem : Sem G K) (cap : Nat) (o : Off G K) : Option (Off G K) :=
  match o.t.graph, o.buffer with
  | some g, b0 :: _ =>
    let (g', q) := sem.render g o.t.frames
    let remaining := min (cap - b0.length) rqs
    some { t := { o.t with graph := some g', frames := o.t.frames + rqs }
           buffer := o.buffer.mapIdx fun i b =>
            b ++ (List.range remaining).map (q.getD i (fun _ => 0))
           trace := o.trace ++ [Ev.quantum o.t.frames q] }
  | _, _ => none

/-- Running the suspend callback that is due, thread.rs l.280-286; in the asynchronous variant l.329-336
`sender.send(()).unwrap()` panics when the future of the promise has been dropped (`dead`). -/
def offSuspend (dead : Nat → Bool) (quantum : Nat) (sched : List (Nat × Nat)) (o : Off G K)
    (bs : List (List (Msg G))) : Option (List (Nat × Nat) × Off G K × List (List (Msg G))) :=
  match sched with
  | (q, id) :: sched' =>
    if q = quantum then
      if dead id then none
      else
        match o.t.poll bs with
        | none => none
        | some (t, bs) => some (sched', { o with t := t, trace := o.trace ++ [Ev.callback id] }, bs)
    else some (sched, o, bs)
  | [] => some ([], o, bs)

/-- the loop over the quanta, thread.rs l.278-295: `n` quanta to go, the next one is number `quantum` -/
def offLoop (sem : Sem G K) (dead : Nat → Bool) (cap : Nat) : Nat → Nat → List (Nat × Nat) → Off G K →
    List (List (Msg G)) → Option (List (Nat × Nat) × Off G K)
  | 0, _, sched, o, _ => some (sched, o)
  | n + 1, quantum, sched, o, bs =>
    match offSuspend dead quantum sched o bs with
    | none => none
    | some (sched, o, bs) =>
      match offQuantum sem cap o with
      | none => none
      | some o =>
        match o.t.poll bs with
        | none => none
        | some (t, bs) => offLoop sem dead cap n (quantum + 1) sched { o with t := t } bs

/-- `render_audiobuffer_sync` and `render_audiobuffer`. `cap` is the capacity that
`Vec::with_capacity(length)` yields. Returns the suspensions that did not happen and the final state. -/
def offRender (sem : Sem G K) (dead : Nat → Bool) (ch length cap : Nat) (sched : List (Nat × Nat))
    (t : St G K) (bs : List (List (Msg G))) : Option (List (Nat × Nat) × Off G K) :=
  match t.poll bs with
  | none => none
  | some (t, bs) =>
    offLoop sem dead cap ((length + 127) / 128) 0 sched
      { t := t, buffer := List.replicate ch [], trace := [] } bs

/-- `calculate_suspend_frame`, offline.rs l.241-251. `fl` is the rounding of a floating point
operation (`id` for exact arithmetic); the sample rate is converted exactly. -/
def suspendFrame (fl : ℚ → ℚ) (length : Nat) (sr t : ℚ) : Option Nat :=
  if t < 0 then none
  else if fl (length / sr) ≤ t then none
  else some ⌈fl (fl (t * sr) / 128)⌉.toNat

/-- Insertion at the position found by `binary_search_by_key`, offline.rs l.304-315 and l.371-385; an
entry for the same quantum makes `expect_err` panic. For a sorted list (proved to be an invariant) the
search finds the entry or the only position that keeps the list sorted. -/
def schedInsert (quantum id : Nat) : List (Nat × Nat) → Option (List (Nat × Nat))
  | [] => some [(quantum, id)]
  | (q, i) :: l =>
    if q = quantum then none
    else if quantum < q then some ((quantum, id) :: (q, i) :: l)
    else (schedInsert quantum id l).map ((q, i) :: ·)

/-- A sequence of `suspend` or `suspend_sync` calls before rendering is started. -/
def schedule (fl : ℚ → ℚ) (length : Nat) (sr : ℚ) : List (ℚ × Nat) → List (Nat × Nat) →
    Option (List (Nat × Nat))
  | [], l => some l
  | (t, id) :: rs, l =>
    match suspendFrame fl length sr t with
    | none => none
    | some q =>
      match schedInsert q id l with
      | none => none
      | some l => schedule fl length sr rs l

end Verif.Thread
