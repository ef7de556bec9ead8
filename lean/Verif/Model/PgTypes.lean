import Verif.Model.Typed

/-!
# Rows of the Postgres backend (rexecutor-sqlx/src/types.rs and the migration)

Postgres and the `sqlx` driver are not part of the repository; what is assumed
about them is said at each definition and in DESIGN.md.
-/

namespace Rexecutor

/-- Midnight of 2000-01-01, from which Postgres counts. -/
def epoch2000 : Time := 946684800 * sec

/-- What becomes of a time that is sent to Postgres: a `TIMESTAMPTZ` has
microseconds, and the driver cuts the rest off. Assumption about `sqlx` 0.8, whose
`chrono` encoder sends `num_microseconds()` of the distance to `epoch2000`. -/
def pgTime (t : Time) : Time := t - Int.tmod (t - epoch2000) 1000

/-- An element of the `errors` column, built by `jsonb_build_object`,
rexecutor-sqlx/src/lib.rs:302-307, 348-353, 373-378. `attempt` is the `INTEGER`
column of that name. -/
structure RawError where
  attempt : Int
  errorType : String
  details : String
  recordedAt : Time
  deriving DecidableEq, Repr

/-- A row of `rexecutor_jobs`, rexecutor-sqlx/migrations/..add-job-table.up.sql:16-35.
`INTEGER` columns are integers here; overflow is an error of the statement
(`Pg.lean`). `metadata` may be `NULL` in the table but every statement of the
crate writes a JSON value. `attempted_by` is never written and is left out. -/
structure Row where
  id : Int
  status : JobStatus
  executor : String
  data : Json
  errors : List RawError
  attempt : Int
  maxAttempts : Int
  tags : List String
  metadata : Json
  priority : Int
  uniquenessKey : Option Int
  insertedAt : Time
  scheduledAt : Time
  attemptedAt : Option Time
  completedAt : Option Time
  cancelledAt : Option Time
  discardedAt : Option Time
  deriving DecidableEq, Repr

/-- `Display for ErrorType` after `From<rexecutor::job::ErrorType>`,
rexecutor-sqlx/src/types.rs:115-125, 149-158: the text bound to `$2`
(rexecutor-sqlx/src/lib.rs:311, 357, 382). -/
def ErrorType.toText : ErrorType → String
  | .panic => "panic"
  | .timeout => "timeout"
  | .cancelled => "cancelled"
  | .other name => name

/-- `Deserialize for ErrorType`, rexecutor-sqlx/src/types.rs:105-113, followed by the
conversion of lines 138-147. Assumption about `serde`: a string is first compared
with the snake-case names of the unit variants, and otherwise taken by the
untagged variant. -/
def ErrorType.ofText (s : String) : ErrorType :=
  if s = "panic" then .panic
  else if s = "timeout" then .timeout
  else if s = "cancelled" then .cancelled
  else .other s

/-- `Deserialize for JobError`, rexecutor-sqlx/src/types.rs:97-103, with the
conversion of lines 127-136. The attempt is a `u16`. -/
def RawError.decode (e : RawError) : Option JobError :=
  match toU16? e.attempt with
  | none => none
  | some a => some
    { attempt := a
      errorType := ErrorType.ofText e.errorType
      details := e.details
      recordedAt := e.recordedAt }

/-- The `collect::<Result<_, _>>()` of rexecutor-sqlx/src/types.rs:82-87. -/
def decodeErrors : List RawError → Option (List JobError)
  | [] => some []
  | e :: es =>
    match e.decode, decodeErrors es with
    | some x, some xs => some (x :: xs)
    | _, _ => none

/-- `TryFrom<Job> for rexecutor::backend::Job`, rexecutor-sqlx/src/types.rs:65-95.
`none` is `BackendError::EncodeDecode`. Reading `data` and `metadata` as a
`serde_json::Value` cannot fail. -/
def Row.decode (r : Row) : Option Job :=
  match decodeErrors r.errors with
  | none => none
  | some errors => some
    { id := r.id
      status := r.status
      executor := r.executor
      data := r.data
      metadata := r.metadata
      attempt := r.attempt
      maxAttempts := r.maxAttempts
      priority := r.priority
      tags := r.tags
      errors := errors
      insertedAt := r.insertedAt
      scheduledAt := r.scheduledAt
      attemptedAt := r.attemptedAt
      completedAt := r.completedAt
      cancelledAt := r.cancelledAt
      discardedAt := r.discardedAt }

end Rexecutor
