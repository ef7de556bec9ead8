import Verif.Model.Api
import Verif.Model.PgQuery

/-!
# The statements of the Postgres backend (rexecutor-sqlx/src/lib.rs, unique.rs, query.rs)

A table is a list of rows whose order means nothing: wherever the database may
choose (rows that compare equal, `LIMIT 1` without order) the choice is made by an
arbitrary ranking `tie` of the ids. Each function is the effect of one statement, or
one transaction, running alone; `Verif.Model.PgConc` has the interleaved version.

Assumptions, besides those of `PgTypes` and `PgQuery`:
* the clock of the database and those of the clients are the same clock `now`; the
  session time zone is UTC (so that `timezone('UTC', now())` is the current time);
* `INTEGER` arithmetic does not overflow (see C127);
* the `IN (SELECT .. LIMIT 1 ..)` of the hand-out is evaluated once.
-/

namespace Rexecutor

/-- The table and the last value of the `SERIAL` sequence of its ids
(..add-job-table.up.sql:16-17). -/
structure Pg where
  rows : List Row := []
  seq : Nat := 0
  deriving DecidableEq, Repr

/-- The row written by `INSERT INTO rexecutor_jobs`, lib.rs:161-179 (`key = none`) and
201-222, with the defaults of ..add-job-table.up.sql:16-35. `u16 as i32` keeps the
value. -/
def EnqueuableJob.toRow (now : Time) (e : EnqueuableJob) (id : Int) (key : Option Int) : Row where
  id := id
  status := .scheduled
  executor := e.executor
  data := e.data
  errors := []
  attempt := 0
  maxAttempts := e.maxAttempts
  tags := e.tags
  metadata := e.metadata
  priority := e.priority
  uniquenessKey := key
  insertedAt := pgTime now
  scheduledAt := pgTime e.scheduledAt
  attemptedAt := none
  completedAt := none
  cancelledAt := none
  discardedAt := none

/-- The `jsonb_build_object` of lib.rs:302-307, 348-353, 373-378. -/
def ExecError.toRaw (now : Time) (e : ExecError) (attempt : Int) : RawError where
  attempt := attempt
  errorType := e.errorType.toText
  details := e.message
  recordedAt := pgTime now

namespace Row

/-- The `SET` of `load_job_mark_as_executing_for_executor`, lib.rs:122-125. -/
def markExecuting (now : Time) (r : Row) : Row :=
  { r with status := .executing, attemptedAt := some (pgTime now), attempt := r.attempt + 1 }

/-- The `SET` of `_mark_job_complete`, lib.rs:277-280. -/
def markComplete (now : Time) (r : Row) : Row :=
  { r with status := .complete, completedAt := some (pgTime now) }

/-- The `SET` of `_mark_job_retryable`, lib.rs:296-308. -/
def markRetryable (now next : Time) (e : ExecError) (r : Row) : Row :=
  { r with
    status := .retryable
    scheduledAt := pgTime next
    errors := r.errors ++ [e.toRaw now r.attempt] }

/-- The `SET` of `_mark_job_snoozed`, lib.rs:326-330. -/
def markSnoozed (next : Time) (r : Row) : Row :=
  { r with
    status := if r.attempt = 1 then .scheduled else .retryable
    scheduledAt := pgTime next
    attempt := r.attempt - 1 }

/-- The `SET` of `_mark_job_discarded`, lib.rs:342-354. -/
def markDiscarded (now : Time) (e : ExecError) (r : Row) : Row :=
  { r with
    status := .discarded
    discardedAt := some (pgTime now)
    errors := r.errors ++ [e.toRaw now r.attempt] }

/-- The `SET` of `_mark_job_cancelled`, lib.rs:367-379. -/
def markCancelled (now : Time) (e : ExecError) (r : Row) : Row :=
  { r with
    status := .cancelled
    cancelledAt := some (pgTime now)
    errors := r.errors ++ [e.toRaw now r.attempt] }

/-- The `SET` of `rerun`, lib.rs:422-429. -/
def markRerunable (now : Time) (r : Row) : Row :=
  { r with
    status := if r.attempt = 1 then .scheduled else .retryable
    scheduledAt := pgTime now
    completedAt := none
    cancelledAt := none
    discardedAt := none
    maxAttempts := r.maxAttempts + 1 }

/-- The `SET` of `update`, lib.rs:441-448. -/
def update (j : Job) (r : Row) : Row :=
  { r with
    data := j.data
    metadata := j.metadata
    maxAttempts := j.maxAttempts
    scheduledAt := pgTime j.scheduledAt
    priority := j.priority
    tags := j.tags }

/-- The `SET` built for a uniqueness conflict, lib.rs:239-260. -/
def replace (p : Replace) (e : EnqueuableJob) (r : Row) : Row :=
  { r with
    scheduledAt := if p.scheduledAt then pgTime e.scheduledAt else r.scheduledAt
    data := if p.data then e.data else r.data
    metadata := if p.metadata then e.metadata else r.metadata
    priority := if p.priority then e.priority else r.priority
    maxAttempts := if p.maxAttempts then e.maxAttempts else r.maxAttempts }

/-- The condition of the hand-out, lib.rs:128-130. -/
def ready (now : Time) (executor : String) (r : Row) : Bool :=
  decide (r.scheduledAt - pgTime now < 100 * ms)
    && (r.status == .scheduled || r.status == .retryable)
    && r.executor == executor

/-- `ORDER BY priority, scheduled_at`, lib.rs:131. -/
def before (tie : Int → Nat) (a b : Row) : Bool :=
  decide (a.priority < b.priority) ||
    (a.priority == b.priority && (decide (a.scheduledAt < b.scheduledAt) ||
      (a.scheduledAt == b.scheduledAt && decide (tie a.id ≤ tie b.id))))

end Row

/-- The `Replace` sets no field, so that the statement of lib.rs:239-262 is
`UPDATE rexecutor_jobs SET  WHERE id  = $1`: a syntax error. -/
def Replace.setsNothing (p : Replace) : Bool :=
  !p.scheduledAt && !p.data && !p.metadata && !p.priority && !p.maxAttempts

/-- A hash function of the values that `unique_identifier` (unique.rs:19-27) hashes. -/
abbrev HashFn := Option Int → Option String → List JobStatus → Int

/-- `unique_identifier`, unique.rs:19-27. The hash function (`FxHasher64`) is
arbitrary. -/
def Criteria.identifier (hash : HashFn) (uc : Criteria) (executor : String) : Int :=
  hash uc.key (if uc.executor then some executor else none) uc.statuses

/-- The `WHERE` condition of `query`, unique.rs:29-65. -/
def Criteria.finds (uc : Criteria) (executor : String) (scheduledAt : Time) (r : Row) : Bool :=
  uc.statuses.contains r.status
    && (match uc.key with
        | none => true
        | some key => r.uniquenessKey == some key)
    && (!uc.executor || r.executor == executor)
    && (match uc.duration with
        | none => true
        | some d => decide (pgTime (scheduledAt - d) ≤ r.scheduledAt)
            && decide (r.scheduledAt ≤ pgTime (scheduledAt + d)))

/-- `UPDATE .. WHERE id = $1`: the new rows and the number of rows changed. -/
def updateRows (id : Int) (f : Row → Row) (rows : List Row) : List Row × Nat :=
  (rows.map fun r => if r.id = id then f r else r, (rows.filter fun r => r.id == id).length)

/-- `in_past`, query.rs:29-32. -/
def JobStatus.inPast : JobStatus → Bool
  | .scheduled | .retryable | .executing => false
  | .complete | .cancelled | .discarded => true

/-- The part of the inner `SELECT` common to all prune specifications,
query.rs:16-28. -/
def PruneSpec.picks (s : PruneSpec) (r : Row) : Bool :=
  r.status == s.status &&
    match s.executors with
    | .except es => es.all fun e => r.executor != e
    | .only es => es.any fun e => r.executor == e

/-- `ORDER BY scheduled_at DESC` or `ASC`, query.rs:45-50. -/
def keepFirst (inPast : Bool) (tie : Int → Nat) (a b : Row) : Bool :=
  if inPast then
    decide (b.scheduledAt < a.scheduledAt) || (a.scheduledAt == b.scheduledAt && decide (tie a.id ≤ tie b.id))
  else
    decide (a.scheduledAt < b.scheduledAt) || (a.scheduledAt == b.scheduledAt && decide (tie a.id ≤ tie b.id))

/-- The ids in the `DELETE .. WHERE id in (SELECT ..)`, query.rs:12-59. -/
def PruneSpec.doomed (now : Time) (tie : Int → Nat) (s : PruneSpec) (rows : List Row) : List Int :=
  match s.pruneBy with
  | .maxAge d =>
    (rows.filter fun r => s.picks r &&
      (if s.status.inPast then decide (r.scheduledAt < pgTime (now - d))
       else decide (r.scheduledAt > pgTime (now + d)))).map (·.id)
  | .maxLength n =>
    ((sortBy (keepFirst s.status.inPast tie) (rows.filter fun r => s.picks r)).drop n).map (·.id)

namespace Pg

/-- `INSERT .. RETURNING id` (lib.rs:159-183, 201-226). When the sequence of the
`SERIAL` column is exhausted the statement fails (`BadState`). -/
def insert (now : Time) (e : EnqueuableJob) (key : Option Int) (p : Pg) : Res × Pg :=
  if p.seq ≥ 2147483647 then (.err .badState, p)
  else
    let id : Int := (p.seq + 1 : Nat)
    (.id id, { rows := p.rows ++ [e.toRow now id key], seq := p.seq + 1 })

/-- The by-id calls with `handle_update`, backend.rs:19-26, 63-111. -/
def onRow (id : Int) (f : Row → Row) (p : Pg) : Res × Pg :=
  match updateRows id f p.rows with
  | (_, 0) => (.err (.jobNotFound id), p)
  | (rows, 1) => (.unit, { p with rows := rows })
  | (rows, _) => (.err .badState, { p with rows := rows })

/-- `load_job_mark_as_executing_for_executor`, lib.rs:115-157, with no row locked by
anyone else, and the conversion of stream.rs:40. Result: the job handed out, or the
error that the stream yields. -/
def load (tie : Int → Nat) (now : Time) (executor : String) (p : Pg) : Res × Pg :=
  match sortBy (Row.before tie) (p.rows.filter (Row.ready now executor)) with
  | [] => (.job none, p)
  | r :: _ =>
    let p' := { p with rows := (updateRows r.id (Row.markExecuting now) p.rows).1 }
    match (r.markExecuting now).decode with
    | none => (.err .encodeDecode, p')
    | some j => (.job (some j), p')

/-- `delete_from_spec`, lib.rs:409-417. -/
def prune (tie : Int → Nat) (now : Time) (spec : PruneSpec) (p : Pg) : Pg :=
  { p with rows := p.rows.filter fun r => !(spec.doomed now tie p.rows).contains r.id }

/-- `insert_unique_job`, lib.rs:185-273, running alone. -/
def insertUnique (hash : HashFn) (tie : Int → Nat) (now : Time)
    (e : EnqueuableJob) (uc : Criteria) (p : Pg) : Res × Pg :=
  match sortBy (fun a b => decide (tie a.id ≤ tie b.id))
      (p.rows.filter fun r => uc.finds e.executor e.scheduledAt r) with
  | [] => p.insert now e (some (uc.identifier hash e.executor))
  | r :: _ =>
    match uc.onConflict with
    | .replace rep =>
      if rep.forStatuses.contains r.status then
        if rep.setsNothing then (.err .badState, p)
        else (.id r.id, { p with rows := (updateRows r.id (Row.replace rep e) p.rows).1 })
      else (.id r.id, p)
    | .doNothing => (.id r.id, p)

/-- `enqueue`, backend.rs:55-62. -/
def enqueue (hash : HashFn) (tie : Int → Nat) (now : Time)
    (e : EnqueuableJob) (p : Pg) : Res × Pg :=
  match e.criteria with
  | some uc => p.insertUnique hash tie now e uc
  | none => p.insert now e none

/-- One call, backend.rs:29-120, or one hand-out. `subscribe` and `notifyAll` do not
touch the table (`notify_all` exists on the in-memory backend only). -/
def step (tie : Int → Nat) (now : Time) (p : Pg) : Op → Res × Pg
  | .complete id => p.onRow id (Row.markComplete now)
  | .retryable id next e => p.onRow id (Row.markRetryable now next e)
  | .discarded id e => p.onRow id (Row.markDiscarded now e)
  | .cancelled id e => p.onRow id (Row.markCancelled now e)
  | .snoozed id next => p.onRow id (Row.markSnoozed next)
  | .rerun id => p.onRow id (Row.markRerunable now)
  | .update job => p.onRow job.id (Row.update job)
  | .prune spec => (.unit, p.prune tie now spec)
  | .query q => (pgQuery tie p.rows q, p)
  | .load executor => p.load tie now executor
  | .subscribe _ => (.unit, p)
  | .notifyAll => (.unit, p)

/-- A call, start to end. -/
def api (hash : HashFn) (tie : Int → Nat) (now : Time) (p : Pg) :
    Api → Res × Pg
  | .enqueue e => p.enqueue hash tie now e
  | .op o => p.step tie now o

/-- The table after a sequence of calls; `ties i` is the ranking used by the call with
`i` calls after it. -/
def runApi (hash : HashFn) (ties : Nat → Int → Nat) (p : Pg) :
    List TApi → Pg
  | [] => p
  | c :: cs => runApi hash ties (p.api hash (ties cs.length) c.now c.call).2 cs

/-- The results of a sequence of calls. -/
def results (hash : HashFn) (ties : Nat → Int → Nat) (p : Pg) :
    List TApi → List Res
  | [] => []
  | c :: cs =>
    (p.api hash (ties cs.length) c.now c.call).1 ::
      results hash ties (p.api hash (ties cs.length) c.now c.call).2 cs

end Pg

end Rexecutor
