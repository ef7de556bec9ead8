import Verif.Model.Typed
import Verif.Model.Backoff

/-!
# The job runner (rexecutor/src/job/runner.rs)

What happens to one job a runner received: from decoding to the backend call that
reports its outcome. The running of several of these side by side is in
`Verif.Model.System`.
-/

namespace Rexecutor

/-- What the runner uses of an `Executor` (rexecutor/src/executor.rs:245-315): its
name, concurrency limit and serialisation, and its `timeout` and `backoff`
functions. Both are user code and may panic (`none`). `BLOCKING` only decides on
which thread the body runs (runner.rs:98-104, 139-145) and is not modelled. -/
structure Runner where
  {D M : Type}
  name : String
  cd : Codec D
  cm : Codec M
  maxConcurrency : Option Nat := none
  timeout : TJob D M → Option (Option Nat) := fun _ => some none
  backoff : TJob D M → Option Delta
  /-- The `Debug` rendering of a duration in nanoseconds (runner.rs:311). -/
  showDuration : Nat → String := fun n => toString n

/-- `ExecutionResult`, rexecutor/src/executor.rs:580-604. A cancellation reason is
its `Display` string, an error its `error_type` and its `Display` string. -/
inductive ExecResult where
  | done
  | cancel (reason : String)
  | snooze (delay : Delta)
  | error (type message : String)
  deriving DecidableEq, Repr

/-- How the body of a job, `E::execute(job)`, ends. -/
inductive Ending where
  /-- It returns. -/
  | returns (r : ExecResult)
  /-- It panics. The payload is the text if it is a `&str` or a `String`. -/
  | panics (payload : Option String)
  /-- Its task is cancelled by the runtime. -/
  | aborted
  /-- It never ends. -/
  | never
  deriving DecidableEq, Repr

/-- One execution of a body: how it ends, after how many nanoseconds, whether it is
suspended at an `await` when its timeout passes (only then can the timeout
interrupt it), and the text of tokio's join error if there is one. -/
structure Body where
  ending : Ending
  took : Nat := 0
  suspended : Bool := true
  joinMessage : String := ""
  deriving DecidableEq, Repr

/-- What the runner knows about an execution it has started (runner.rs:90-93,
130-133): the id of the job, whether this is its last attempt, the delay before a
retry, and the timeout. All of it is fixed before the body starts. -/
structure Task where
  id : Int
  isFinal : Bool
  delay : Delta
  timeout : Option Nat
  deriving DecidableEq, Repr

/-- What becomes of a job taken from the stream. -/
inductive Started where
  /-- Its body is running. -/
  | running (t : Task)
  /-- It could not be decoded; this is logged and nothing else happens
  (runner.rs:55-61). -/
  | undecodable
  /-- Decoding, `timeout` or `backoff` panicked inside the runner itself. -/
  | runnerPanics
  deriving DecidableEq, Repr

/-- From the stream to the start of the body, runner.rs:51-54, 76-81, 90-93, 130-133. -/
def Runner.start (r : Runner) (j : Job) : Started :=
  match decodeJob r.cd r.cm j with
  | .err => .undecodable
  | .panic => .runnerPanics
  | .ok job =>
    match r.timeout job with
    | none => .runnerPanics
    | some timeout =>
      match r.backoff job with
      | none => .runnerPanics
      | some delay =>
        .running { id := job.id, isFinal := job.isFinalAttempt, delay := delay, timeout := timeout }

/-- The value of `result.await` in runner.rs:106, 147. -/
inductive Joined where
  /-- `Ok(result)`, or `Ok(Ok(result))` if there is a timeout. -/
  | result (r : ExecResult)
  /-- `Ok(Err(elapsed))`. -/
  | elapsed (timeout : Nat)
  /-- `Err(join_error)`: the panic payload, if it is a text, and the error's text. -/
  | joinError (payload : Option String) (message : String)
  deriving DecidableEq, Repr

/-- The end of the body as the runner sees it; `none` if it never ends.
`tokio::time::timeout` (runner.rs:97) polls the body before it looks at the
clock, so a body that finished is never timed out, and a body that does not
`await` cannot be interrupted. -/
def Task.join (t : Task) (b : Body) : Option Joined :=
  let ended : Option Joined :=
    match b.ending with
    | .returns r => some (.result r)
    | .panics payload => some (.joinError payload b.joinMessage)
    | .aborted => some (.joinError none b.joinMessage)
    | .never => none
  match t.timeout with
  | none => ended
  | some limit =>
    let late := match b.ending with
      | .never => true
      | _ => decide (limit < b.took)
    if late && b.suspended then some (.elapsed limit) else ended

/-- The largest `DateTime<Utc>` of chrono 0.4.44, in nanoseconds
(`DateTime::<Utc>::MAX_UTC`, year 262142). -/
def maxTime : Time := 8210266876799 * sec + 999999999
/-- The smallest `DateTime<Utc>`, in nanoseconds (`MIN_UTC`, year -262143). -/
def minTime : Time := -8334601228800 * sec

/-- `Utc::now() + delay`, which panics outside chrono's range. -/
def addTime (now : Time) (delay : Delta) : Option Time :=
  if minTime ≤ now + delay ∧ now + delay ≤ maxTime then some (now + delay) else none

/-- `handle_job_error`, runner.rs:223-268. -/
def Task.handleError (t : Task) (now : Time) (e : ExecError) : Option Op :=
  if t.isFinal then some (.discarded t.id e)
  else (addTime now t.delay).map fun next => .retryable t.id next e

/-- `From<JoinError>`, runner.rs:271-287. -/
def joinError (payload : Option String) (message : String) : ExecError where
  errorType := .panic
  message := payload.getD message

/-- The `match` on the result, runner.rs:106-125, 147-160, with the handlers at
163-268 and the conversions at 289-314. The value is the backend call made; `none`
is a panic inside the runner. The clock is read once (the code reads it twice, the
first time for a log line). -/
def Runner.report (r : Runner) (now : Time) (t : Task) : Joined → Option Op
  | .result .done => some (.complete t.id)
  | .result (.cancel reason) => some (.cancelled t.id { errorType := .cancelled, message := reason })
  | .result (.snooze delay) => (addTime now delay).map fun next => .snoozed t.id next
  | .result (.error type message) => t.handleError now { errorType := .other type, message := message }
  | .elapsed limit => t.handleError now
      { errorType := .timeout, message := "Job failed to complete within timeout: " ++ r.showDuration limit }
  | .joinError payload message => t.handleError now (joinError payload message)

end Rexecutor
