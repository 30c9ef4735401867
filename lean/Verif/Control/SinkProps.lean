import Mathlib.Data.List.Basic
import Mathlib.Logic.Function.Basic

/-!
# C56: `set_sink_id_sync` and the lock of the control message sender

Models the locking of `render_channel: RwLock<Sender>` by `set_sink_id_sync`
(`/repo/src/context/online.rs` l.386-388 takes the write lock and keeps it until the function returns,
l.440-443 sends the cached messages with `send_control_msg`) and by `send_control_msg`
(`/repo/src/context/concrete_base.rs` l.278, read lock). `std::sync::RwLock` is not reentrant: a thread
that holds the write lock and asks for a read lock blocks (or panics).
-/

namespace Verif.Control.Sink

/-- program points of a thread -/
inductive Pc where
  /-- outside -/
  | idle
  /-- in `send_control_msg`, about to lock (l.278) -/
  | sendLock
  /-- in `send_control_msg`, read lock held -/
  | sendHeld
  /-- in `set_sink_id_sync`, about to take the write lock (l.388); `n` cached messages will be found -/
  | sinkLock (n : Nat)
  /-- in `set_sink_id_sync`, write lock held, `n` cached messages left to send (l.440-443) -/
  | sinkFlush (n : Nat)
  /-- in `send_control_msg` called by `set_sink_id_sync`, read lock held -/
  | sinkSend (n : Nat)
deriving DecidableEq, Repr

def Pc.reads : Pc → Bool
  | .sendHeld => true
  | .sinkSend _ => true
  | _ => false

def Pc.writes : Pc → Bool
  | .sinkFlush _ => true
  | .sinkSend _ => true
  | _ => false

/-- program points of all threads; the lock state follows from them -/
abbrev St := Nat → Pc

/-- the read lock is available: nobody holds the write lock -/
def canRead (s : St) : Prop := ∀ i, (s i).writes = false

/-- the write lock is available: nobody holds any lock -/
def canWrite (s : St) : Prop := ∀ i, (s i).writes = false ∧ (s i).reads = false

/-- one step of thread `i` -/
inductive Step (i : Nat) : St → St → Prop
  | callSend {s} : s i = .idle → Step i s (Function.update s i .sendLock)
  | lockSend {s} : s i = .sendLock → canRead s → Step i s (Function.update s i .sendHeld)
  | endSend {s} : s i = .sendHeld → Step i s (Function.update s i .idle)
  | callSink {s} (n : Nat) : s i = .idle → Step i s (Function.update s i (.sinkLock n))
  | lockSink {s n} : s i = .sinkLock n → canWrite s → Step i s (Function.update s i (.sinkFlush n))
  | flush {s n} : s i = .sinkFlush (n + 1) → canRead s → Step i s (Function.update s i (.sinkSend n))
  | flushed {s n} : s i = .sinkSend n → Step i s (Function.update s i (.sinkFlush n))
  | endSink {s} : s i = .sinkFlush 0 → Step i s (Function.update s i .idle)

/-- any number of steps of any threads -/
inductive Steps : St → St → Prop
  | refl (s) : Steps s s
  | tail {s t u i} : Steps s t → Step i t u → Steps s u

/-- C56 fails: if `set_sink_id_sync` finds messages that the render thread has not processed yet, the
thread blocks forever, and from then on no thread can send a control message: in all continuations. -/
theorem C56_negated {s t : St} {i n : Nat} (hs : s i = .sinkFlush (n + 1)) (h : Steps s t) :
    t i = .sinkFlush (n + 1) ∧ ∀ j u, t j = .sendLock → Step j t u → False := by
  have stuck : ∀ {t : St}, t i = .sinkFlush (n + 1) → ¬ canRead t := by
    intro t ht hc
    have := hc i
    rw [ht] at this; cases this
  have key : t i = .sinkFlush (n + 1) := by
    induction h with
    | refl => exact hs
    | @tail t u j _ hst ih =>
      by_cases hj : j = i
      · subst hj
        cases hst with
        | flush _ hc => exact absurd hc (stuck ih)
        | _ => simp_all
      · cases hst <;> rw [Function.update_of_ne (Ne.symm hj)] <;> exact ih
  refine ⟨key, ?_⟩
  intro j u hj hst
  cases hst with
  | lockSend _ hc => exact stuck key hc
  | _ => simp_all

/-- such a state is reachable -/
theorem C56_reachable : ∃ s, Steps (fun _ => .idle) s ∧ s 0 = .sinkFlush 1 := by
  refine ⟨_, .tail (.tail (.refl _) (.callSink (i := 0) 1 rfl)) (.lockSink (i := 0) (n := 1) rfl ?_), rfl⟩
  intro j
  simp only [Function.update]
  split
  · next h => subst h; exact ⟨rfl, rfl⟩
  · exact ⟨rfl, rfl⟩

/-- C56 when no messages are pending: the call can always be completed, by its own step. -/
theorem C56_quiet_partial {s : St} {i : Nat} (hs : s i = .sinkFlush 0) :
    ∃ t, Step i s t ∧ t i = .idle := ⟨_, .endSink hs, by simp⟩

end Verif.Control.Sink
