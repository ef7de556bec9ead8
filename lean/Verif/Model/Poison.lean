import Verif.Model.Concurrent
import Verif.Model.Pruner
import Verif.Model.Runner

/-!
# Panics in the job lock of the in-memory backend, and what they leave behind

`Verif.Model.Concurrent` takes the arithmetic of chrono as unbounded. Here it is not:
`prune_jobs` computes `now - age` and `now + age` while it holds the write lock
(memory.rs:460-464). A panic there poisons the `RwLock` for good: `write()` and `read()`
return an error from then on, which the methods turn into `BackendError::BadState`, or
`unwrap`. These are the only panics in a section that holds the write lock: everything
else done there is assignments, `Vec` operations and `i32` counters.
-/

namespace Rexecutor

/-- `now - delta` or `now + delta` is outside chrono's range and panics (memory.rs:463-464). -/
def PruneSpec.panicsMem (now : Time) (s : PruneSpec) : Bool :=
  match s.pruneBy with
  | .maxAge delta => (addTime now (-delta)).isNone || (addTime now delta).isNone
  | .maxLength _ => false

/-- The same on Postgres: only one of the two is computed, when the statement is built
(rexecutor-sqlx/src/query.rs:29-43). -/
def PruneSpec.panicsPg (now : Time) (s : PruneSpec) : Bool :=
  match s.pruneBy with
  | .maxAge delta =>
    match s.status with
    | .scheduled | .retryable | .executing => (addTime now delta).isNone
    | .complete | .cancelled | .discarded => (addTime now (-delta)).isNone
  | .maxLength _ => false

/-- The in-memory backend with the state of the lock around its jobs. The lock around the
subscribers is never poisoned. -/
structure Locked where
  conc : Conc := {}
  poisoned : Bool := false
  deriving DecidableEq, Repr

/-- What an action did. -/
inductive LockEv where
  /-- What it does on a healthy backend. -/
  | ok (ev : Ev)
  /-- The call returned `Err(BackendError::BadState)`. -/
  | badState
  /-- The call panicked. -/
  | panicked
  deriving Repr

/-- The next step of an `enqueue` call when the lock is poisoned. Taking an id
(memory.rs:217) and notifying (memory.rs:224) do not need the lock, reading the matching
jobs (memory.rs:204-207), pushing (memory.rs:219-222) and updating (memory.rs:497) do. -/
def Mem.advancePoisoned (now : Time) (m : Mem) : Pending → LockEv × Pending × Mem
  | .start e =>
    match e.criteria with
    | none => let (ev, p, m') := m.advance now (.start e); (.ok ev, p, m')
    | some _ => (.badState, .done (.err .badState), m)
  | .noMatch e => let (ev, p, m') := m.advance now (.noMatch e); (.ok ev, p, m')
  | .allocated _ _ => (.badState, .done (.err .badState), m)
  | .pushed id e => let (ev, p, m') := m.advance now (.pushed id e); (.ok ev, p, m')
  | .matched _ => (.badState, .done (.err .badState), m)
  | .done r => (.ok .nothing, .done r, m)

/-- One call when the lock is poisoned. `load` unwraps the error (memory.rs:163);
registering a stream and `notify_all` use the other lock (memory.rs:130-142, 364-370); all
others return `BadState` (memory.rs:206, 390, 405, 420, 435, 448, 460, 486, 497). -/
def Conc.stepPoisoned (now : Time) (c : Conc) : Act → LockEv × Conc
  | .start e => let (ev, c') := c.step now (.start e); (.ok ev, c')
  | .advance i =>
    match c.calls[i]? with
    | none => (.ok .nothing, c)
    | some p =>
      let (ev, p', m') := c.mem.advancePoisoned now p
      (ev, { mem := m', calls := c.calls.set i p' })
  | .op o =>
    match o with
    | .subscribe _ | .notifyAll => let (ev, c') := c.step now (.op o); (.ok ev, c')
    | .load _ => (.panicked, c)
    | _ => (.badState, c)

/-- One action. -/
def Locked.step (now : Time) (s : Locked) (a : Act) : LockEv × Locked :=
  if s.poisoned then
    let (ev, c) := s.conc.stepPoisoned now a
    (ev, { s with conc := c })
  else
    match a with
    | .op (.prune spec) =>
      if spec.panicsMem now then (.panicked, { s with poisoned := true })
      else let (ev, c) := s.conc.step now a; (.ok ev, { s with conc := c })
    | _ => let (ev, c) := s.conc.step now a; (.ok ev, { s with conc := c })

/-- The state after a schedule. -/
def Locked.run (s : Locked) : List TAct → Locked
  | [] => s
  | a :: as => Locked.run (s.step a.now a.act).2 as

/-- The events of a schedule. -/
def Locked.trace (s : Locked) : List TAct → List LockEv
  | [] => []
  | a :: as => (s.step a.now a.act).1 :: Locked.trace (s.step a.now a.act).2 as

/-! ## The pruner -/

/-- The prune calls one turn of the pruner makes, in order, and whether it survives them:
the futures are polled in order (pruner/runner.rs:56-67) and a panic in one of them unwinds
the pruner's task. Simplification: all calls read the clock at the same time. -/
def PrunerConfig.calls (panics : Time → PruneSpec → Bool) (now : Time) : List PruneSpec → List PruneSpec × Bool
  | [] => ([], true)
  | p :: ps =>
    if panics now p then ([], false)
    else let (cs, alive) := PrunerConfig.calls panics now ps; (p :: cs, alive)

/-- The turns of the loop started at time `t` (`pruneLoop`) with the prune calls that were
carried out, until it panics. -/
def prunerLoop (panics : Time → PruneSpec → Bool) (c : PrunerConfig) (s : Schedule) (t : Time) :
    List Lags → List (PruneTurn × List PruneSpec)
  | [] => []
  | l :: ls =>
    match pruneTurn s t l with
    | none => []
    | some turn =>
      match PrunerConfig.calls panics turn.at' c.pruners with
      | (cs, true) => (turn, cs) :: prunerLoop panics c s turn.again ls
      | (cs, false) => [(turn, cs)]

end Rexecutor
