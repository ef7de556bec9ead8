import Verif.Model.System
import Verif.Model.PgSys
import Verif.Model.Pruner

/-!
# Setting up an instance (rexecutor/src/lib.rs:730-1058)

`Rexecutor` is a builder: every call spawns tasks that share the backend and one
cancellation token. What the tasks do is modelled elsewhere (System, PgSys, Cron, Pruner);
here is which tasks there are.
-/

namespace Rexecutor

/-- A call on `Rexecutor`. `K` stands for the schedule, time zone and data of a cron job. -/
inductive SetupCall (K : Type) where
  /-- `with_executor::<E>()`, lib.rs:810-818. -/
  | withExecutor (d : Runner)
  /-- `with_cron_executor::<E>(schedule, data)` or `with_cron_executor_for_timezone`,
  lib.rs:851-908. -/
  | withCron (d : Runner) (k : K)
  /-- `with_job_pruner(config)`, lib.rs:990-993. -/
  | withPruner (c : PrunerConfig)

/-- The tasks an instance has spawned. -/
structure Instance (K : Type) where
  runners : List Runner := []
  crons : List (Runner × K) := []
  pruners : List PrunerConfig := []

/-- One call. `with_cron_executor_for_timezone` spawns the cron task and then calls
`with_executor` (lib.rs:904-907); `with_executor` always spawns another runner
(lib.rs:816). -/
def Instance.call (i : Instance K) : SetupCall K → Instance K
  | .withExecutor d => { i with runners := i.runners ++ [d] }
  | .withCron d k => { i with crons := i.crons ++ [(d, k)], runners := i.runners ++ [d] }
  | .withPruner c => { i with pruners := i.pruners ++ [c] }

/-- `Rexecutor::new(backend)` followed by calls (lib.rs:750-756). -/
def Instance.setup (calls : List (SetupCall K)) : Instance K := calls.foldl Instance.call {}

/-- The executor a call is for. -/
def SetupCall.executor : SetupCall K → Option Runner
  | .withExecutor d => some d
  | .withCron d _ => some d
  | .withPruner _ => none

end Rexecutor
