import Verif.Model.Queryable

/-!
# The in-memory backend (rexecutor/src/backend/memory.rs)

A call is a function from a clock reading and a state to a result and a state.
Each call that takes the job lock once is atomic. `enqueue` takes it more than
once; its split into atomic steps is in `Verif.Model.Concurrent`, the function
here is the composition of those steps without anything in between.
-/

namespace Rexecutor

/-- `x as i32` for the number of `fetch_add`s done so far: `AtomicI32` wraps
around on overflow (memory.rs:217). -/
def wrapI32 (n : Nat) : Int :=
  let r : Int := (n % 4294967296 : Nat)
  if r < 2147483648 then r else r - 4294967296

/-- `attempt as u16` (memory.rs:304, 310, 316). -/
def asU16 (x : Int) : Nat := (x % 65536).toNat

/-- One subscriber: the executor it is registered under and the messages in its
channel (memory.rs:75, 87, 364-370). -/
structure Sub where
  executor : String
  queue : List Time := []
  deriving DecidableEq, Repr

/-- `InMemoryBackend`, rexecutor/src/backend/memory.rs:83-89. `allocated` is the
number of `fetch_add`s on `id_counter`; the counter itself is
`wrapI32 allocated`. The subscriber map is a list of subscribers. -/
structure Mem where
  jobs : List KeyedJob := []
  allocated : Nat := 0
  subs : List Sub := []
  paused : Bool := false
  deriving DecidableEq, Repr

/-- `EnqueuableJob::into_job`, memory.rs:244-268. -/
def EnqueuableJob.intoJob (now : Time) (e : EnqueuableJob) (id : Int) : KeyedJob where
  key := e.criteria.bind (·.key)
  job := {
    id := id
    status := .scheduled
    executor := e.executor
    data := e.data
    metadata := e.metadata
    attempt := 0
    maxAttempts := e.maxAttempts
    priority := e.priority
    tags := e.tags
    errors := []
    insertedAt := now
    scheduledAt := e.scheduledAt
    attemptedAt := none
    completedAt := none
    cancelledAt := none
    discardedAt := none }

/-- `ExecutionError::into_job_error`, memory.rs:270-279. -/
def ExecError.intoJobError (now : Time) (e : ExecError) (attempt : Nat) : JobError where
  attempt := attempt
  errorType := e.errorType
  details := e.message
  recordedAt := now

namespace Job

/-- `Job::mark_job_executing`, memory.rs:282-286. -/
def markExecuting (now : Time) (j : Job) : Job :=
  { j with attemptedAt := some now, attempt := j.attempt + 1, status := .executing }

/-- `Job::mark_job_complete`, memory.rs:288-291. -/
def markComplete (now : Time) (j : Job) : Job :=
  { j with completedAt := some now, status := .complete }

/-- `Job::mark_job_snoozed`, memory.rs:293-300. -/
def markSnoozed (scheduledAt : Time) (j : Job) : Job :=
  { j with
    scheduledAt := scheduledAt
    status := if j.attempt = 1 then .scheduled else .retryable
    attempt := j.attempt - 1 }

/-- `Job::mark_job_retryable`, memory.rs:302-306. -/
def markRetryable (now : Time) (scheduledAt : Time) (e : ExecError) (j : Job) : Job :=
  { j with
    scheduledAt := scheduledAt
    errors := j.errors ++ [e.intoJobError now (asU16 j.attempt)]
    status := .retryable }

/-- `Job::mark_job_discarded`, memory.rs:308-312. -/
def markDiscarded (now : Time) (e : ExecError) (j : Job) : Job :=
  { j with
    discardedAt := some now
    errors := j.errors ++ [e.intoJobError now (asU16 j.attempt)]
    status := .discarded }

/-- `Job::mark_job_cancelled`, memory.rs:314-318. -/
def markCancelled (now : Time) (e : ExecError) (j : Job) : Job :=
  { j with
    cancelledAt := some now
    errors := j.errors ++ [e.intoJobError now (asU16 j.attempt)]
    status := .cancelled }

/-- `Job::mark_job_rerunable`, memory.rs:320-330. -/
def markRerunable (now : Time) (j : Job) : Job :=
  { j with
    status := if j.attempt = 1 then .scheduled else .retryable
    maxAttempts := j.maxAttempts + 1
    scheduledAt := now
    completedAt := none
    discardedAt := none
    cancelledAt := none }

/-- `Job::replace`, memory.rs:331-355. -/
def replace (e : EnqueuableJob) (j : Job) : Job :=
  match e.criteria with
  | some { onConflict := .replace r, .. } =>
    if r.forStatuses.contains j.status then
      { j with
        scheduledAt := if r.scheduledAt then e.scheduledAt else j.scheduledAt
        data := if r.data then e.data else j.data
        metadata := if r.metadata then e.metadata else j.metadata
        priority := if r.priority then e.priority else j.priority
        maxAttempts := if r.maxAttempts then e.maxAttempts else j.maxAttempts }
    else j
  | _ => j

end Job

/-- What a call returns. -/
inductive Res where
  | unit
  | id (id : Int)
  | jobs (js : List Job)
  | job (j : Option Job)
  | err (e : BackendError)
  deriving DecidableEq, Repr

/-- `jobs.iter_mut().find(|job| job.id == id)` followed by a mutation of the
job found (memory.rs:391, 406, 421, 436, 449, 487, 498). Returns the new list
and the job after the mutation. -/
def updateById (id : Int) (f : Job → Job) : List KeyedJob → Option (List KeyedJob × Job)
  | [] => none
  | k :: ks =>
    if k.job.id = id then
      some ({ k with job := f k.job } :: ks, f k.job)
    else
      (updateById id f ks).map fun (ks', j) => (k :: ks', j)

/-- Insertion into a sorted list, before the first element that is not smaller. -/
def insertBy (le : α → α → Bool) (a : α) : List α → List α
  | [] => [a]
  | b :: bs => if le a b then a :: b :: bs else b :: insertBy le a bs

/-- Stable sort. `slice::sort_by` (memory.rs:172) is stable, so it returns the
same list as any other stable sort. -/
def sortBy (le : α → α → Bool) : List α → List α
  | [] => []
  | a :: as => insertBy le a (sortBy le as)

/-- The comparison of memory.rs:172-176: by scheduled time, then by priority. -/
def dueBefore (a b : Job) : Bool :=
  a.scheduledAt < b.scheduledAt || (a.scheduledAt == b.scheduledAt && a.priority ≤ b.priority)

/-- The filter of memory.rs:166-170. Simplification: the clock is read once,
the code reads it again for every job. -/
def readyFor (now : Time) (executor : String) (j : Job) : Bool :=
  j.executor == executor
    && decide (j.scheduledAt - now < 100 * ms)
    && (j.status == .retryable || j.status == .scheduled)

namespace Mem

/-- `InMemoryBackend::notify_subscribers`, memory.rs:183-201. -/
def notify (executor : String) (scheduledAt : Time) (m : Mem) : Mem :=
  if m.paused then m
  else
    { m with
      subs := m.subs.map fun s =>
        if s.executor = executor then { s with queue := s.queue ++ [scheduledAt] } else s }

/-- `InMemoryBackend::notify_all`, memory.rs:130-142. -/
def notifyAll (now : Time) (m : Mem) : Mem :=
  { m with subs := m.subs.map fun s => { s with queue := s.queue ++ [now] } }

/-- `InMemoryBackend::paused`, memory.rs:122-125. -/
def setPaused (m : Mem) : Mem := { m with paused := true }

/-- The registration part of `subscribe_ready_jobs`, memory.rs:364-370. -/
def subscribe (executor : String) (m : Mem) : Mem :=
  { m with subs := m.subs ++ [{ executor := executor }] }

/-- `next_available_job_scheduled_at_for_executor`, memory.rs:144-157. -/
def nextAvailable (executor : String) (m : Mem) : Option Time :=
  let q : Query := .and [.executorEqual executor,
    .or [.statusEqual .scheduled, .statusEqual .retryable]]
  ((m.jobs.filter fun k => q.matches k.job).map fun k => k.job.scheduledAt).min?

/-- `load_job_mark_as_executing_for_executor`, memory.rs:159-181. The jobs are
sorted together with their positions because the code sorts mutable references. -/
def load (now : Time) (executor : String) (m : Mem) : Option Job × Mem :=
  let ready := m.jobs.zipIdx.filter fun (k, _) => readyFor now executor k.job
  match sortBy (fun a b => dueBefore a.1.job b.1.job) ready with
  | [] => (none, m)
  | (k, i) :: _ =>
    let j := k.job.markExecuting now
    (some j, { m with jobs := m.jobs.set i { k with job := j } })

/-- The common shape of the by-id calls (memory.rs:389-457, 485-506): find the
job, mutate it, and for some of the calls notify the subscribers of its executor. -/
def onJob (id : Int) (f : Job → Job) (wake : Bool) (m : Mem) : Res × Mem :=
  match updateById id f m.jobs with
  | none => (.err (.jobNotFound id), m)
  | some (jobs, j) =>
    let m' := { m with jobs := jobs }
    (.unit, if wake then m'.notify j.executor j.scheduledAt else m')

/-- `mark_job_complete`, memory.rs:389-398. -/
def markComplete (now : Time) (id : Int) (m : Mem) : Res × Mem :=
  m.onJob id (Job.markComplete now) false

/-- `mark_job_retryable`, memory.rs:399-414. -/
def markRetryable (now : Time) (id : Int) (next : Time) (e : ExecError) (m : Mem) : Res × Mem :=
  m.onJob id (Job.markRetryable now next e) true

/-- `mark_job_discarded`, memory.rs:415-428. -/
def markDiscarded (now : Time) (id : Int) (e : ExecError) (m : Mem) : Res × Mem :=
  m.onJob id (Job.markDiscarded now e) false

/-- `mark_job_cancelled`, memory.rs:429-442. -/
def markCancelled (now : Time) (id : Int) (e : ExecError) (m : Mem) : Res × Mem :=
  m.onJob id (Job.markCancelled now e) false

/-- `mark_job_snoozed`, memory.rs:443-457. -/
def markSnoozed (id : Int) (next : Time) (m : Mem) : Res × Mem :=
  m.onJob id (Job.markSnoozed next) true

/-- `rerun_job`, memory.rs:485-495. -/
def rerun (now : Time) (id : Int) (m : Mem) : Res × Mem :=
  m.onJob id (Job.markRerunable now) true

/-- `update_job`, memory.rs:496-506. -/
def update (job : Job) (m : Mem) : Res × Mem :=
  m.onJob job.id (fun _ => job) true

/-- `retain` with the counter of the `MaxLength` arm, memory.rs:471-480: the
`count`-th selected job is kept iff `count > length`. -/
def retainLength (spec : PruneSpec) (length : Nat) : Nat → List KeyedJob → List KeyedJob
  | _, [] => []
  | count, k :: ks =>
    if spec.matches k.job then
      if count + 1 > length then k :: retainLength spec length (count + 1) ks
      else retainLength spec length (count + 1) ks
    else k :: retainLength spec length count ks

/-- `prune_jobs`, memory.rs:458-484. -/
def prune (now : Time) (spec : PruneSpec) (m : Mem) : Mem :=
  match spec.pruneBy with
  | .maxAge delta =>
    { m with
      jobs := m.jobs.filter fun k =>
        !spec.matches k.job
          || (decide (k.job.scheduledAt < now + delta) && decide (k.job.scheduledAt > now - delta)) }
  | .maxLength length => { m with jobs := retainLength spec length 0 m.jobs }

/-- `query`, memory.rs:507-513, with `matching_jobs`, memory.rs:203-212. -/
def query (q : Query) (m : Mem) : List Job :=
  (m.jobs.filter fun k => q.matches k.job).map (·.job)

/-- `insert_new_job`, memory.rs:214-227, without interleaving: allocate an id,
push the job, notify. -/
def insertNew (now : Time) (e : EnqueuableJob) (m : Mem) : Int × Mem :=
  let id := wrapI32 m.allocated
  let m₁ := { m with allocated := m.allocated + 1 }
  let m₂ := { m₁ with jobs := m₁.jobs ++ [e.intoJob now id] }
  (id, m₂.notify e.executor e.scheduledAt)

/-- `insert_unique_job`, memory.rs:229-241, without interleaving: read the
matching jobs, then insert, or write the first match back after `replace`. -/
def insertUnique (now : Time) (e : EnqueuableJob) (m : Mem) : Res × Mem :=
  match m.jobs.filter fun k => e.matches now k with
  | [] => let (id, m') := m.insertNew now e; (.id id, m')
  | k :: _ =>
    match m.update (k.job.replace e) with
    | (.err err, m') => (.err err, m')
    | (_, m') => (.id (k.job.replace e).id, m')

/-- `enqueue`, memory.rs:383-388. -/
def enqueue (now : Time) (e : EnqueuableJob) (m : Mem) : Res × Mem :=
  match e.criteria with
  | none => let (id, m') := m.insertNew now e; (.id id, m')
  | some _ => m.insertUnique now e

end Mem

/-- The calls that take the job lock at most once. `load` is what a stream does
when it finds a job due (memory.rs:58-65). -/
inductive Op where
  | complete (id : Int)
  | retryable (id : Int) (next : Time) (e : ExecError)
  | discarded (id : Int) (e : ExecError)
  | cancelled (id : Int) (e : ExecError)
  | snoozed (id : Int) (next : Time)
  | rerun (id : Int)
  | update (job : Job)
  | prune (spec : PruneSpec)
  | query (q : Query)
  | load (executor : String)
  | subscribe (executor : String)
  | notifyAll
  deriving Repr

/-- One such call. -/
def Mem.step (now : Time) (m : Mem) : Op → Res × Mem
  | .complete id => m.markComplete now id
  | .retryable id next e => m.markRetryable now id next e
  | .discarded id e => m.markDiscarded now id e
  | .cancelled id e => m.markCancelled now id e
  | .snoozed id next => m.markSnoozed id next
  | .rerun id => m.rerun now id
  | .update job => m.update job
  | .prune spec => (.unit, m.prune now spec)
  | .query q => (.jobs (m.query q), m)
  | .load executor => let (j, m') := m.load now executor; (.job j, m')
  | .subscribe executor => (.unit, m.subscribe executor)
  | .notifyAll => (.unit, m.notifyAll now)

/-- A freshly created backend (`InMemoryBackend::new`, memory.rs:113-115), or one
put in paused mode. -/
def Mem.init (paused : Bool := false) : Mem := { paused := paused }

end Rexecutor
