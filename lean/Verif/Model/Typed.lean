import Verif.Model.Memory

/-!
# The typed layer: serialisation, typed jobs, `Where` queries, executor calls

rexecutor/src/job.rs, rexecutor/src/job/query.rs, rexecutor/src/backend.rs,
rexecutor/src/executor.rs
-/

namespace Rexecutor

/-- A serde implementation of a user type: `serde_json::to_value` and
`serde_json::from_value`, either of which may fail. -/
structure Codec (α : Type) where
  enc : α → Option Json
  dec : Json → Option α

/-- Values survive serialisation. -/
def Codec.Lossless (c : Codec α) : Prop := ∀ a, ∃ v, c.enc a = some v ∧ c.dec v = some a

/-- `serde_json::to_value` of an `Option<T>`: `None` becomes `null`. -/
def Codec.encOption (c : Codec α) : Option α → Option Json
  | none => some .null
  | some a => c.enc a

/-- The executor's view of a job: `Job<D, M>`, rexecutor/src/job.rs:61-106.
`attempt`, `max_attempts` and `priority` are `u16`. -/
structure TJob (D M : Type) where
  id : Int
  status : JobStatus
  executor : String
  data : D
  metadata : M
  attempt : Nat
  maxAttempts : Nat
  priority : Nat
  tags : List String
  errors : List JobError
  insertedAt : Time
  scheduledAt : Time
  attemptedAt : Option Time
  completedAt : Option Time
  cancelledAt : Option Time
  discardedAt : Option Time
  deriving DecidableEq, Repr

/-- Result of a conversion that can fail or panic. -/
inductive Outcome (α : Type) where
  | ok (a : α)
  | err
  | panic
  deriving DecidableEq, Repr

/-- `i32::try_into::<u16>()`. -/
def toU16? (x : Int) : Option Nat :=
  if 0 ≤ x ∧ x < 65536 then some x.toNat else none

/-- `TryFrom<backend::Job> for Job<D, M>`, rexecutor/src/job.rs:108-137. The
`unwrap`s on the three counters panic. -/
def decodeJob (cd : Codec D) (cm : Codec M) (j : Job) : Outcome (TJob D M) :=
  match cd.dec j.data with
  | none => .err
  | some data =>
    match cm.dec j.metadata with
    | none => .err
    | some metadata =>
      match toU16? j.attempt, toU16? j.maxAttempts, toU16? j.priority with
      | some attempt, some maxAttempts, some priority =>
        .ok {
          id := j.id, status := j.status, executor := j.executor
          data := data, metadata := metadata
          attempt := attempt, maxAttempts := maxAttempts, priority := priority
          tags := j.tags, errors := j.errors
          insertedAt := j.insertedAt, scheduledAt := j.scheduledAt
          attemptedAt := j.attemptedAt, completedAt := j.completedAt
          cancelledAt := j.cancelledAt, discardedAt := j.discardedAt }
      | _, _, _ => .panic

/-- `TryFrom<job::Job<D, M>> for backend::Job`, rexecutor/src/backend.rs:366-395. -/
def encodeJob (cd : Codec D) (cm : Codec M) (t : TJob D M) : Option Job :=
  match cd.enc t.data with
  | none => none
  | some data =>
    match cm.enc t.metadata with
    | none => none
    | some metadata =>
      some {
        id := t.id, status := t.status, executor := t.executor
        data := data, metadata := metadata
        attempt := t.attempt, maxAttempts := t.maxAttempts, priority := t.priority
        tags := t.tags, errors := t.errors
        insertedAt := t.insertedAt, scheduledAt := t.scheduledAt
        attemptedAt := t.attemptedAt, completedAt := t.completedAt
        cancelledAt := t.cancelledAt, discardedAt := t.discardedAt }

/-- `Job::is_final_attempt`, rexecutor/src/job.rs:140-142. -/
def TJob.isFinalAttempt (t : TJob D M) : Bool := t.attempt == t.maxAttempts

/-- `job::query::Query<D, M>`, rexecutor/src/job/query.rs:124-179. -/
inductive TQuery (D M : Type) where
  | not (q : TQuery D M)
  | and (qs : List (TQuery D M))
  | or (qs : List (TQuery D M))
  | dataEquals (d : D)
  | metadataEquals (m : M)
  | idEquals (id : Int)
  | idIn (ids : List Int)
  | statusEqual (s : JobStatus)
  | tagsAllOf (tags : List String)
  | tagsOneOf (tags : List String)
  | scheduledAtBefore (t : Time)
  | scheduledAtAfter (t : Time)
  | scheduledAtEqual (t : Time)

namespace Where

/-- `Where::and`, rexecutor/src/job/query.rs:193-200. -/
def and : TQuery D M → TQuery D M → TQuery D M
  | .and constraints, other => .and (constraints ++ [other])
  | self, other => .and [self, other]

/-- `Where::or`, rexecutor/src/job/query.rs:212-219. -/
def or : TQuery D M → TQuery D M → TQuery D M
  | .or constraints, other => .or (constraints ++ [other])
  | self, other => .or [self, other]

/-- `!where`, rexecutor/src/job/query.rs:282-287. -/
def not (self : TQuery D M) : TQuery D M := .not self

/-- `Where::data_equals`, query.rs:222-224. -/
def dataEquals (d : D) : TQuery D M := .dataEquals d

/-- `Where::metadata_equals`, query.rs:227-229. -/
def metadataEquals (m : M) : TQuery D M := .metadataEquals m

/-- `Where::id_equals`, query.rs:232-234. -/
def idEquals (id : Int) : TQuery D M := .idEquals id

/-- `Where::id_in`, query.rs:237-239. -/
def idIn (ids : List Int) : TQuery D M := .idIn ids

/-- `Where::status_equals`, query.rs:242-244. -/
def statusEquals (s : JobStatus) : TQuery D M := .statusEqual s

/-- `Where::tagged_by_all_of`, query.rs:247-249. -/
def taggedByAllOf (tags : List String) : TQuery D M := .tagsAllOf tags

/-- `Where::tagged_by_one_of`, query.rs:252-254. -/
def taggedByOneOf (tags : List String) : TQuery D M := .tagsOneOf tags

/-- `Where::scheduled_at_equals`, query.rs:257-259. -/
def scheduledAtEquals (t : Time) : TQuery D M := .scheduledAtEqual t

/-- `Where::scheduled_at_before`, query.rs:262-264. -/
def scheduledAtBefore (t : Time) : TQuery D M := .scheduledAtBefore t

/-- `Where::scheduled_at_after`, query.rs:267-269. -/
def scheduledAtAfter (t : Time) : TQuery D M := .scheduledAtAfter t

/-- `Where::scheduled_at_older_than`, query.rs:272-274. Simplification: the subtraction
does not leave the range of times. -/
def scheduledAtOlderThan (now : Time) (d : Delta) : TQuery D M := .scheduledAtBefore (now - d)

/-- `Where::scheduled_at_within_the_last`, query.rs:277-279. -/
def scheduledAtWithinTheLast (now : Time) (d : Delta) : TQuery D M := .scheduledAtAfter (now - d)

end Where

mutual
/-- `TryFrom<job::query::Query> for backend::Query`, rexecutor/src/backend.rs:322-364. -/
def TQuery.toQuery (cd : Codec D) (cm : Codec M) : TQuery D M → Option Query
  | .not q => (q.toQuery cd cm).map .not
  | .and qs => (TQuery.toQueries cd cm qs).map .and
  | .or qs => (TQuery.toQueries cd cm qs).map .or
  | .dataEquals d => (cd.enc d).map .dataEquals
  | .metadataEquals m => (cm.enc m).map .metadataEquals
  | .idEquals id => some (.idEquals id)
  | .idIn ids => some (.idIn ids)
  | .statusEqual s => some (.statusEqual s)
  | .tagsAllOf tags => some (.tagsAllOf tags)
  | .tagsOneOf tags => some (.tagsOneOf tags)
  | .scheduledAtBefore t => some (.scheduledAtBefore t)
  | .scheduledAtAfter t => some (.scheduledAtAfter t)
  | .scheduledAtEqual t => some (.scheduledAtEqual t)
/-- The `collect::<Result<Vec<_>, _>>()` of backend.rs:333-337. -/
def TQuery.toQueries (cd : Codec D) (cm : Codec M) : List (TQuery D M) → Option (List Query)
  | [] => some []
  | q :: qs =>
    match q.toQuery cd cm, TQuery.toQueries cd cm qs with
    | some q', some qs' => some (q' :: qs')
    | _, _ => none
end

/-- `Query::for_executor`, rexecutor/src/backend.rs:310-320. -/
def Query.forExecutor (executor : String) : Query → Query
  | .and queries => .and (queries ++ [.executorEqual executor])
  | q => .and [.executorEqual executor, q]

/-- `collect::<Result<Vec<_>, _>>()` over decoded jobs: the first failure wins
(executor.rs:480-482). -/
def decodeAll (cd : Codec D) (cm : Codec M) : List Job → Outcome (List (TJob D M))
  | [] => .ok []
  | j :: js =>
    match decodeJob cd cm j with
    | .err => .err
    | .panic => .panic
    | .ok t =>
      match decodeAll cd cm js with
      | .ok ts => .ok (t :: ts)
      | .err => .err
      | .panic => .panic

/-- `Executor::query_jobs_on_backend` on the in-memory backend,
rexecutor/src/executor.rs:468-483. -/
def queryJobs (cd : Codec D) (cm : Codec M) (executor : String) (q : TQuery D M) (m : Mem) :
    Outcome (List (TJob D M)) :=
  match q.toQuery cd cm with
  | none => .err
  | some bq => decodeAll cd cm (m.query (bq.forExecutor executor))

/-- `Executor::update_job_on_backend` on the in-memory backend,
rexecutor/src/executor.rs:522-534. `none` is a serialisation error. -/
def updateJob (cd : Codec D) (cm : Codec M) (t : TJob D M) (m : Mem) : Option Res × Mem :=
  match encodeJob cd cm t with
  | none => (none, m)
  | some j => let (r, m') := m.update j; (some r, m')

end Rexecutor
