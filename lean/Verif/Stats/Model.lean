import Mathlib.Algebra.Order.Field.Basic
import Mathlib.Algebra.Order.Floor.Ring

/-!
# Playback statistics

Models `/repo/src/stats.rs`, `/repo/src/playback_stats.rs` and `render_capacity_event` of `/repo/src/capacity.rs`.
Every method is a list of steps, one per atomic operation, on the shared state and on the variables of the calling
thread. Simplifications: the `AtomicU64` are natural numbers (they do not wrap at 2^64), and the steps of all threads
are interleaved in one order (the code uses `Relaxed`, which allows more).
-/

namespace Verif.Stats

/-- `u64::MAX` -/
def u64Max : Nat := 2 ^ 64 - 1

/-- `AudioStatsInner`, stats.rs l.9-24 -/
structure St where
  callbacks : Nat
  render : Nat
  budget : Nat
  underruns : Nat
  peak : Nat
  under : Nat
  events : Nat
  prev : Bool
  latest : Nat
  sum : Nat
  count : Nat
  min : Nat
  max : Nat
deriving DecidableEq

/-- `AudioStatsSnapshot`, l.26-38 -/
structure Snap where
  callbacks : Nat
  render : Nat
  budget : Nat
  underruns : Nat
  under : Nat
  events : Nat
  sum : Nat
  count : Nat
  min : Nat
  max : Nat
deriving DecidableEq

/-- `AudioStats::new`, l.47-65 -/
def St.new : St := ⟨0, 0, 0, 0, 0, 0, 0, false, 0, 0, 0, u64Max, 0⟩

def Snap.zero : Snap := ⟨0, 0, 0, 0, 0, 0, 0, 0, 0, 0⟩

/-- Variables of a thread: the result of the `swap`, `current` of `reset_latency`, the snapshot under construction, and
what the thread has obtained so far: snapshots and peaks. -/
structure Loc where
  was : Bool
  cur : Nat
  snap : Snap
  log : List Snap
  peaks : List Nat
deriving DecidableEq

def Loc.new : Loc := ⟨false, 0, Snap.zero, [], []⟩

/-- one atomic operation -/
abbrev Step := St → Loc → St × Loc

/-- `load_ppm`, l.75-78: `saturating_mul`, `checked_div` -/
def loadPpm (d b : Nat) : Nat := if b = 0 then 0 else Nat.min (d * 1000000) u64Max / b

/-- `record_render_callback`, l.67-98 -/
def renderSteps (d b : Nat) : List Step :=
  [ fun s l => ({ s with callbacks := s.callbacks + 1 }, l),
    fun s l => ({ s with render := s.render + d }, l),
    fun s l => ({ s with budget := s.budget + b }, l),
    fun s l => ({ s with peak := Nat.max s.peak (loadPpm d b) }, l) ] ++
  if 0 < d - b then
    [ fun s l => ({ s with underruns := s.underruns + 1 }, l),
      fun s l => ({ s with under := s.under + (d - b) }, l),
      fun s l => ({ s with prev := true }, { l with was := s.prev }),
      fun s l => (if l.was then s else { s with events := s.events + 1 }, l) ]
  else
    [ fun s l => ({ s with prev := false }, l) ]

/-- `record_latency_ns`, l.110-124 -/
def latencySteps (x : Nat) : List Step :=
  [ fun s l => ({ s with latest := x }, l),
    fun s l => ({ s with sum := s.sum + x }, l),
    fun s l => ({ s with count := s.count + 1 }, l),
    fun s l => ({ s with min := Nat.min s.min x }, l),
    fun s l => ({ s with max := Nat.max s.max x }, l) ]

/-- `reset_latency`, l.126-132 -/
def resetSteps : List Step :=
  [ fun s l => (s, { l with cur := s.latest }),
    fun s l => ({ s with sum := l.cur }, l),
    fun s l => ({ s with count := 1 }, l),
    fun s l => ({ s with min := l.cur }, l),
    fun s l => ({ s with max := l.cur }, l) ]

/-- `snapshot`, l.134-155: the loads in the order of the code; the last step also returns the snapshot. -/
def snapSteps : List Step :=
  [ fun s l => (s, { l with snap := { l.snap with min := if s.min = u64Max then 0 else s.min } }),
    fun s l => (s, { l with snap := { l.snap with callbacks := s.callbacks } }),
    fun s l => (s, { l with snap := { l.snap with render := s.render } }),
    fun s l => (s, { l with snap := { l.snap with budget := s.budget } }),
    fun s l => (s, { l with snap := { l.snap with underruns := s.underruns } }),
    fun s l => (s, { l with snap := { l.snap with under := s.under } }),
    fun s l => (s, { l with snap := { l.snap with events := s.events } }),
    fun s l => (s, { l with snap := { l.snap with sum := s.sum } }),
    fun s l => (s, { l with snap := { l.snap with count := s.count } }),
    fun s l => (s, { l with snap := { l.snap with max := s.max }, log := l.log ++ [{ l.snap with max := s.max }] }) ]

/-- `take_peak_load`, l.157-159: the swap -/
def peakSteps : List Step :=
  [ fun s l => ({ s with peak := 0 }, { l with peaks := l.peaks ++ [s.peak] }) ]

/-- the calls: the first two are made by the rendering thread, the others by any thread -/
inductive Op where
  | render (d b : Nat)
  | latency (x : Nat)
  | reset
  | snapshot
  | peak
deriving DecidableEq

def Op.steps : Op → List Step
  | render d b => renderSteps d b
  | latency x => latencySteps x
  | reset => resetSteps
  | snapshot => snapSteps
  | peak => peakSteps

/-! ## One thread -/

/-- steps one after the other -/
def runSteps (s : St) (l : Loc) : List Step → St × Loc
  | [] => (s, l)
  | f :: fs => runSteps (f s l).1 (f s l).2 fs

/-- A history of complete calls. -/
def exec (s : St) (l : Loc) (h : List Op) : St × Loc := runSteps s l (h.flatMap Op.steps)

/-! ## Many threads -/

/-- A thread: its variables and the steps it has yet to do. -/
structure Thread where
  loc : Loc
  todo : List Step

/-- the shared state and the threads -/
structure Machine where
  st : St
  threads : Nat → Thread

/-- one step of thread `i` -/
def Machine.step (m : Machine) (i : Nat) : Machine :=
  match (m.threads i).todo with
  | [] => m
  | f :: fs =>
    let r := f m.st (m.threads i).loc
    ⟨r.1, fun j => if j = i then ⟨r.2, fs⟩ else m.threads j⟩

/-- an interleaving -/
def Machine.run (m : Machine) : List Nat → Machine
  | [] => m
  | i :: is => (m.step i).run is

/-- All threads before their first call: thread `i` will make the calls `prog i`. -/
def Machine.start (s : St) (prog : Nat → List Op) : Machine :=
  ⟨s, fun i => ⟨Loc.new, (prog i).flatMap Op.steps⟩⟩

/-! ## Values for the user -/

section
variable {K : Type} [Field K] [LinearOrder K] [FloorRing K]

/-- `ns_to_seconds`, l.182-184; `r` is the rounding of `f64` -/
def seconds (r : K → K) (ns : Nat) : K := r (r (ns : K) / 1000000000)

/-- `average_latency_seconds`, l.167-171: `checked_div` of integers -/
def average (s : Snap) : Nat := s.sum / s.count

/-- `callback_count` and `underruns` of `render_capacity_event`, capacity.rs l.171-181, and their quotient,
l.193 -/
def ratio (r : K → K) (p n : Snap) : K :=
  r (r ((n.underruns - p.underruns : Nat) : K) / r ((Nat.max (n.callbacks - p.callbacks) 1 : Nat) : K))

/-- `underrun_ratio` of `AudioRenderCapacityEvent::new`, capacity.rs l.48: two digits, rounded up -/
def ratioEvent (r : K → K) (x : K) : K := r ((⌈r (x * 100)⌉ : K) / 100)

/-- `average_load`, capacity.rs l.183-187 -/
def load (p n : Snap) : K :=
  if n.budget - p.budget = 0 then 0 else ((n.render - p.render : Nat) : K) / ((n.budget - p.budget : Nat) : K)

end

/-! ## The exposed values -/

/-- `ExposedStats`, playback_stats.rs l.27-30; `V` are the six numbers, times are nanoseconds of `Instant` -/
structure Exposed (V : Type) where
  values : V
  last : Option Nat

/-- `last_update.is_none_or(|last_update| last_update.elapsed() >= UPDATE_INTERVAL)`, l.106-108 -/
def due (last : Option Nat) (now : Nat) : Bool :=
  match last with
  | none => true
  | some t => decide (now - t ≥ 1000000000)

/-- `current`, l.103-114; `now` is the time of `Instant::now()`, `fresh` the result of `read_current_values` -/
def Exposed.current {V : Type} (e : Exposed V) (running : Bool) (now : Nat) (fresh : V) : Exposed V :=
  if running && due e.last now then ⟨fresh, some now⟩ else e

/-- `refresh`, l.116-120, by `reset_latency` -/
def Exposed.refresh {V : Type} (_e : Exposed V) (now : Nat) (fresh : V) : Exposed V := ⟨fresh, some now⟩

end Verif.Stats
