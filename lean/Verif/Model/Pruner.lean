import Verif.Model.Memory
import Verif.Model.Cron

/-!
# Pruner configuration and the pruner runner (rexecutor/src/pruner.rs, pruner/runner.rs)
-/

namespace Rexecutor

/-- `All`, pruner.rs:356-362. -/
structure AllExecutors where
  deriving DecidableEq, Repr

/-- `Except`, pruner.rs:363-369. -/
structure ExceptExecutors where
  names : List String
  deriving DecidableEq, Repr

/-- `Only`, pruner.rs:370-376. -/
structure OnlyExecutors where
  names : List String
  deriving DecidableEq, Repr

/-- `IntoSpec`, pruner.rs:353-355. -/
class IntoSpec (T : Type) where
  intoSpec : T → ExecSpec

/-- pruner.rs:358-362. -/
instance : IntoSpec AllExecutors := ⟨fun _ => .except []⟩
/-- pruner.rs:365-369. -/
instance : IntoSpec ExceptExecutors := ⟨fun e => .except e.names⟩
/-- pruner.rs:372-376. -/
instance : IntoSpec OnlyExecutors := ⟨fun o => .only o.names⟩

/-- `Pruner<T>`, pruner.rs:266-273. -/
structure Pruner (T : Type) where
  status : JobStatus
  pruneBy : PruneBy
  executors : T
  deriving DecidableEq, Repr

/-- `Pruner::max_age`, pruner.rs:277-283. -/
def Pruner.maxAge (age : Delta) (status : JobStatus) : Pruner AllExecutors :=
  { status := status, pruneBy := .maxAge age, executors := {} }

/-- `Pruner::max_length`, pruner.rs:286-292. -/
def Pruner.maxLength (length : Nat) (status : JobStatus) : Pruner AllExecutors :=
  { status := status, pruneBy := .maxLength length, executors := {} }

/-- `Pruner::only`, pruner.rs:295-301; `name` is `E::NAME`. -/
def Pruner.only (p : Pruner AllExecutors) (name : String) : Pruner OnlyExecutors :=
  { status := p.status, pruneBy := p.pruneBy, executors := ⟨[name]⟩ }

/-- `Pruner::except`, pruner.rs:304-310. -/
def Pruner.except (p : Pruner AllExecutors) (name : String) : Pruner ExceptExecutors :=
  { status := p.status, pruneBy := p.pruneBy, executors := ⟨[name]⟩ }

/-- `Pruner<Only>::and`, pruner.rs:313-319. -/
def Pruner.andOnly (p : Pruner OnlyExecutors) (name : String) : Pruner OnlyExecutors :=
  { p with executors := ⟨p.executors.names ++ [name]⟩ }

/-- `Pruner<Except>::and`, pruner.rs:321-327. -/
def Pruner.andExcept (p : Pruner ExceptExecutors) (name : String) : Pruner ExceptExecutors :=
  { p with executors := ⟨p.executors.names ++ [name]⟩ }

/-- `From<Pruner<T>> for PruneSpec`, pruner.rs:199-210. -/
def Pruner.spec [IntoSpec T] (p : Pruner T) : PruneSpec :=
  { status := p.status, pruneBy := p.pruneBy, executors := IntoSpec.intoSpec p.executors }

/-- `PrunerConfig`, pruner.rs:141-145, without the schedule. -/
structure PrunerConfig where
  maxConcurrency : Option Nat
  pruners : List PruneSpec
  deriving DecidableEq, Repr

/-- `PrunerConfig::new`, pruner.rs:150-156. -/
def PrunerConfig.new : PrunerConfig := { maxConcurrency := some 10, pruners := [] }

/-- `with_max_concurrency`, pruner.rs:162-165. -/
def PrunerConfig.withMaxConcurrency (c : PrunerConfig) (limit : Option Nat) : PrunerConfig :=
  { c with maxConcurrency := limit }

/-- `with_pruner`, pruner.rs:169-175. -/
def PrunerConfig.withPruner [IntoSpec T] (c : PrunerConfig) (p : Pruner T) : PrunerConfig :=
  { c with pruners := c.pruners ++ [p.spec] }

/-- `with_pruners`, pruner.rs:179-185. -/
def PrunerConfig.withPruners [IntoSpec T] (c : PrunerConfig) (ps : List (Pruner T)) : PrunerConfig :=
  { c with pruners := c.pruners ++ ps.map (·.spec) }

/-! ## One pruner run -/

/-- A prune call that has been made: its specification, and once it has returned its
error, if any. -/
structure PruneCall where
  spec : PruneSpec
  returned : Option (Option BackendError) := none
  deriving DecidableEq, Repr

/-- `PrunerRunner::prune` at work (runner.rs:56-67): the futures in the `FuturesOrdered`
that have not been polled yet, those that have been polled in that order (so the backend
call has been made), how many results `FuturesOrdered` has handed on, and the errors
logged. -/
structure PruneRun where
  waiting : List PruneSpec
  calls : List PruneCall := []
  yielded : Nat := 0
  logged : List BackendError := []
  deriving DecidableEq, Repr

/-- runner.rs:57-61: one future per pruner is put into a `FuturesOrdered`. Futures do
nothing before they are polled. -/
def PrunerConfig.prune (c : PrunerConfig) : PruneRun := { waiting := c.pruners }

/-- An action during a pruner run. -/
inductive PruneAct where
  /-- `FuturesOrdered` polls the first future not yet polled. It does so while the earlier
  ones are still pending; the limit of `for_each_concurrent` (runner.rs:63) is on the
  closures that log errors, not on this. -/
  | start
  /-- The `i`-th call returns. -/
  | return_ (i : Nat) (err : Option BackendError)
  /-- `FuturesOrdered` hands on the next result in order, an error is logged
  (runner.rs:62-65). -/
  | yield
  deriving Repr

/-- One action of a pruner run. -/
def PruneRun.step (s : PruneRun) : PruneAct → PruneRun
  | .start =>
    match s.waiting with
    | [] => s
    | p :: ps => { s with waiting := ps, calls := s.calls ++ [{ spec := p }] }
  | .return_ i err =>
    match s.calls[i]? with
    | some { spec := p, returned := none } =>
      { s with calls := s.calls.set i { spec := p, returned := some err } }
    | _ => s
  | .yield =>
    match s.calls[s.yielded]? with
    | some { returned := some err, .. } =>
      { s with yielded := s.yielded + 1, logged := s.logged ++ err.toList }
    | _ => s

/-- The state after a sequence of actions. -/
def PruneRun.run (s : PruneRun) : List PruneAct → PruneRun
  | [] => s
  | a :: as => PruneRun.run (s.step a) as

/-- `prune().await` has returned: nothing is left to poll and every result has been
handed on. -/
def PruneRun.finished (s : PruneRun) : Bool := s.waiting.isEmpty && s.yielded == s.calls.length

/-- The calls that have been made and have not returned. -/
def PruneRun.inFlight (s : PruneRun) : Nat := s.calls.countP fun c => c.returned.isNone

/-- A pruner run on the in-memory backend with nothing else happening: `prune_jobs`
(memory.rs:458-484) never waits, so each future completes when it is first polled. -/
def Mem.pruneAll (now : Time) (m : Mem) (c : PrunerConfig) : Mem :=
  c.pruners.foldl (fun m spec => m.prune now spec) m

/-! ## The loop -/

/-- One turn of the loop as seen from outside. -/
structure PruneTurn where
  /-- when it looked at the schedule -/
  began : Time
  /-- the tick it is for -/
  tick : Time
  /-- when it started pruning -/
  at' : Time
  /-- when pruning was done -/
  done : Time
  /-- when it will look at the schedule again -/
  again : Time
  deriving DecidableEq, Repr

/-- One turn of the loop of `PrunerRunner::spawn` that looks at the schedule at time `t`,
runner.rs:26-46, if it is not cancelled during the first sleep. The lengths are as for
the cron runner, `enqueue` being how long pruning takes. `none`: there is no further tick
and the task panics. -/
def pruneTurn (s : Schedule) (t : Time) (l : Lags) : Option PruneTurn :=
  match s.next t with
  | none => none
  | some next =>
    let read : Time := t + l.reading
    let delay : Delta := max 0 (next - read - 10 * ms)
    let wake : Time := read + delay + l.oversleep
    let done : Time := wake + l.enqueue
    let again : Time := (if next - done > 0 then next else done) + l.rest
    some { began := t, tick := next, at' := wake, done := done, again := again }

/-- The turns of the loop started at time `t` (until it is cancelled or panics). -/
def pruneLoop (s : Schedule) (t : Time) : List Lags → List PruneTurn
  | [] => []
  | l :: ls =>
    match pruneTurn s t l with
    | none => []
    | some turn => turn :: pruneLoop s turn.again ls

/-- The turns of the loop started at time `t` when the token is cancelled at time `stop`
(`stopsTurn`, runner.rs:37-51), until it is stopped or panics. -/
def pruneLoopUntil (s : Schedule) (stop t : Time) : List (Lags × Bool) → List PruneTurn
  | [] => []
  | (l, pick) :: ls =>
    match pruneTurn s t l with
    | none => []
    | some turn => if stopsTurn stop t turn.tick l pick then [] else turn :: pruneLoopUntil s stop turn.again ls

end Rexecutor
