import Verif.Model.Typed

/-!
# The job calls of an executor

`Executor::cancel_job`, `rerun_job` and `update_job` and their `_on_backend` forms,
rexecutor/src/executor.rs:361-422 and 511-534. The first form takes the global backend
(`Verif.Model.GlobalBackend`) and fails if there is none.
-/

namespace Rexecutor

/-- A call of `cancel_job_on_backend`, `rerun_job_on_backend` or `update_job_on_backend`. -/
inductive JobCall (D M : Type) where
  | cancel (id : Int) (reason : String)
  | rerun (id : Int)
  | update (job : TJob D M)

/-- The job the call names. -/
def JobCall.id : JobCall D M → Int
  | .cancel id _ => id
  | .rerun id => id
  | .update job => job.id

/-- What the call of the executor named `executor` asks the backend for; `none` is a
serialisation error. `cancel_job_on_backend` (executor.rs:369-381) turns the reason into an error
of type `Cancelled` (runner.rs:298-305), `rerun_job_on_backend` (executor.rs:414-422) passes the
id on, `update_job_on_backend` (executor.rs:522-534) the encoded job (backend.rs:366-395). None
of them looks at `Self::NAME`. -/
def JobCall.op (cd : Codec D) (cm : Codec M) (_executor : String) : JobCall D M → Option Op
  | .cancel id reason => some (.cancelled id { errorType := .cancelled, message := reason })
  | .rerun id => some (.rerun id)
  | .update job => (encodeJob cd cm job).map .update

end Rexecutor
