import Verif.Model.Poison
import Verif.Model.Criteria
import Verif.Spec.Pg

/-!
# The test suite of the project, run on the model

These are tests of the model, not proofs of properties: the code passes them, so a model
on which they fail would be wrong. They follow `test_suite!`
(rexecutor/src/backend/testing.rs:60-784), which the project runs on both backends, and the
unit tests of queryable.rs:85-295, memory.rs:515-691 and rexecutor-sqlx/src/backend.rs:120-374.
Each is named as in the project. Time stands still unless said otherwise.
-/

namespace Rexecutor.Conformance

/-- A backend to be tested. -/
structure Candidate where
  State : Type
  start : State
  call : Time → State → Api → Res × State

/-- The in-memory backend. -/
def memory : Candidate := ⟨Mem, {}, fun now m a => m.api now a⟩

/-- The Postgres backend, on a database that prefers small ids. -/
def postgres : Candidate := ⟨Pg, {}, fun now p a => p.api sampleHash Int.toNat now a⟩

/-- The Postgres backend, on a database that prefers large ids. -/
def postgres' : Candidate := ⟨Pg, {}, fun now p a => p.api sampleHash (fun i => 1000 - i.toNat) now a⟩

/-- A test: calls in a row, and assertions. `none` is a failed assertion. -/
abbrev Test (b : Candidate) (α : Type) := StateT b.State Option α

variable {b : Candidate}

/-- The clock. -/
def now : Time := 1700000000 * sec

def hours (n : Int) : Delta := n * 3600 * sec

def call (a : Api) (t : Time := now) : Test b Res := fun s => some (b.call t s a)

def assert (h : Bool) : Test b Unit := if h then pure () else failure

def enqueue (e : EnqueuableJob) : Test b Int := do
  match ← call (.enqueue e) with
  | .id i => pure i
  | _ => failure

def ok (o : Op) : Test b Unit := do
  match ← call (.op o) with
  | .unit => pure ()
  | _ => failure

def notFound (o : Op) : Test b Unit := do
  match ← call (.op o) with
  | .err (.jobNotFound _) => pure ()
  | _ => failure

def query (q : Query) : Test b (List Job) := do
  match ← call (.op (.query q)) with
  | .jobs js => pure js
  | _ => failure

/-- `get_job`, testing.rs:270-274. -/
def getJob? (id : Int) : Test b (Option Job) := do
  let js ← query (.idEquals id)
  assert (decide (js.length ≤ 1))
  pure js.getLast?

def getJob (id : Int) : Test b Job := do
  match ← getJob? id with
  | some j => pure j
  | none => failure

/-- `stream.next().await.unwrap().unwrap()` of a stream that has a job to return. -/
def next (x : String) (t : Time := now) : Test b Job := do
  match ← call (.op (.load x)) t with
  | .job (some j) => pure j
  | _ => failure

/-- `mock_job`, testing.rs:21-32. -/
def mockJob : EnqueuableJob where
  executor := "executor"
  data := .str "data"
  metadata := .str "metadata"
  maxAttempts := 5
  scheduledAt := now

def error : ExecError := { errorType := .other "custom", message := "Error Message" }

/-- `increment_job_attempt`, testing.rs:250-268. -/
def incrementAttempt (id : Int) : Nat → Test b Unit
  | 0 => pure ()
  | n + 1 => do
    let _ ← next (b := b) "executor"
    ok (.retryable id now error)
    incrementAttempt id n

/-- Does the test pass? -/
def passes (b : Candidate) (t : Test b Unit) : Bool := (t.run b.start).isSome

/-! ## `test_suite!` -/

def subscribeReadyJobs : Test b Unit := do
  let _ ← enqueue { mockJob with executor := "another_executor" }
  let id ← enqueue mockJob
  let job ← next "executor"
  assert (job.id == id)
  assert (job.executor == "executor")

def streamsJobsByPriority : Test b Unit := do
  let id₁ ← enqueue { mockJob with scheduledAt := now + 500 * ms }
  let id₂ ← enqueue { mockJob with priority := 2 }
  let id₃ ← enqueue mockJob
  let a ← next "executor"
  let b ← next "executor"
  let c ← next "executor" (now + 500 * ms)
  assert ([a.id, b.id, c.id] == [id₃, id₂, id₁])

def onlyOneStreamReceivesJob : Test b Unit := do
  let id₁ ← enqueue mockJob
  let id₂ ← enqueue mockJob
  let a ← next "executor"
  let c ← next "executor"
  assert ([a.id, c.id] == [id₁, id₂] || [a.id, c.id] == [id₂, id₁])

def enqueueTest : Test b Unit := do
  let id₁ ← enqueue mockJob
  let id₂ ← enqueue mockJob
  assert (id₁ != id₂)
  let _ ← getJob id₁
  let _ ← getJob id₂

def enqueueUnique : Test b Unit := do
  let id₁ ← enqueue mockJob
  let id₂ ← enqueue { mockJob with criteria := some (Criteria.byExecutor.andWithin (120 * sec)) }
  assert (id₂ == id₁)
  let _ ← getJob id₂

def enqueueUniqueNoMatching : Test b Unit := do
  let id₁ ← enqueue mockJob
  let id₂ ← enqueue { mockJob with criteria := some ((Criteria.byStatuses [.retryable]).andWithin (120 * sec)) }
  assert (id₁ != id₂)
  let _ ← getJob id₁
  let _ ← getJob id₂

def enqueueUniqueReplace : Test b Unit := do
  let id₁ ← enqueue { mockJob with priority := 2 }
  let rep := Replace.build .priority [.also .data, .also .metadata, .also .scheduledAt, .also .maxAttempts]
  let id₂ ← enqueue { mockJob with
    criteria := some ((Criteria.byExecutor.andWithin (120 * sec)).onConflictReplace rep) }
  assert (id₂ == id₁)
  let job ← getJob id₁
  assert (job.priority == 0)

def updateJob : Test b Unit := do
  let id ← enqueue mockJob
  let job ← getJob id
  ok (.update { job with priority := 3 })
  let job ← getJob id
  assert (job.priority == 3)

/-- `raw_job`, testing.rs:219-241. -/
def rawJob : Job where
  id := 0
  executor := "executor"
  status := .scheduled
  data := .null
  metadata := .null
  attempt := 0
  maxAttempts := 3
  priority := 0
  tags := []
  errors := []
  insertedAt := now
  scheduledAt := now + hours 2
  attemptedAt := none
  completedAt := none
  cancelledAt := none
  discardedAt := none

def updateJobNotFound : Test b Unit := notFound (.update rawJob)

def markJobComplete : Test b Unit := do
  let id ← enqueue mockJob
  ok (.complete id)
  let job ← getJob id
  assert (job.status == .complete)

def markJobCompleteNotFound : Test b Unit := notFound (.complete 42)

def rerunAfter (n : Nat) (status : JobStatus) : Test b Unit := do
  let id ← enqueue mockJob
  incrementAttempt id n
  ok (.rerun id)
  let job ← getJob id
  assert (job.status == status)
  assert (job.attempt == n)
  assert (job.maxAttempts == 6)
  assert (job.completedAt.isNone && job.cancelledAt.isNone && job.discardedAt.isNone)

def rerunJobFirstAttempt : Test b Unit := rerunAfter 1 .scheduled

def rerunJobFirstSubsequentAttempt : Test b Unit := rerunAfter 2 .retryable

def rerunJobNotFound : Test b Unit := notFound (.rerun 42)

def snoozeAfter (n : Nat) (status : JobStatus) : Test b Unit := do
  let id ← enqueue mockJob
  incrementAttempt id n
  ok (.snoozed id (now + hours 24))
  let job ← getJob id
  assert (job.status == status)
  assert (job.attempt == n - 1)
  assert (decide (((job.scheduledAt - (now + hours 24)).natAbs : Int) < ms))

def markJobSnoozedFirstAttempt : Test b Unit := snoozeAfter 1 .scheduled

def markJobSnoozedOtherAttempt : Test b Unit := snoozeAfter 2 .retryable

def markJobSnoozedNotFound : Test b Unit := notFound (.snoozed 42 (now + hours 24))

def failWith (o : Int → Op) (status : JobStatus) : Test b Unit := do
  let id ← enqueue mockJob
  ok (o id)
  let job ← getJob id
  assert (job.status == status)
  match job.errors with
  | [e] => assert ((e.attempt : Int) == job.attempt && e.errorType == error.errorType && e.details == error.message)
  | _ => failure

def markJobDiscarded : Test b Unit := failWith (.discarded · error) .discarded

def markJobDiscardedNotFound : Test b Unit := notFound (.discarded 42 error)

def markJobRetryable : Test b Unit := failWith (.retryable · (now + hours 24) error) .retryable

def markJobRetryableNotFound : Test b Unit := notFound (.retryable 42 (now + hours 24) error)

def markJobCancelled : Test b Unit := failWith (.cancelled · error) .cancelled

def markJobCancelledNotFound : Test b Unit := notFound (.cancelled 42 error)

def queryTest : Test b Unit := do
  let id ← enqueue mockJob
  let _ ← enqueue { mockJob with executor := "other_executor" }
  let _ ← enqueue mockJob
  let js ← query (.idEquals 42)
  assert (js.length == 0)
  let js ← query (.idEquals id)
  assert (js.length == 1)
  let js ← query (.executorEqual "executor")
  assert (js.length == 2)

/-- Enqueue and complete `n` jobs. -/
def completed (e : Nat → EnqueuableJob) : Nat → Test b Unit
  | 0 => pure ()
  | n + 1 => do
    completed e n
    let id ← enqueue (e n)
    ok (.complete id)

/-- The project uses `n = 100`. -/
def pruneJobs (n : Nat) : Test b Unit := do
  completed (fun i => { mockJob with scheduledAt := now - hours i }) n
  completed (fun _ => { mockJob with executor := "other_executor" }) n
  ok (.prune { status := .cancelled, pruneBy := .maxLength 10, executors := .except [] })
  let js ← query (.not (.executorEqual ""))
  assert (js.length == 2 * n)
  ok (.prune { status := .complete, pruneBy := .maxLength (n / 2), executors := .only ["other_executor"] })
  let js ← query (.not (.executorEqual ""))
  assert (js.length == 2 * n - n / 2)
  -- by now the clock is a little later
  match ← call (.op (.prune { status := .complete, pruneBy := .maxAge (hours (n / 2 : Nat)), executors := .only ["executor"] })) (now + 1000) with
  | .unit => pure ()
  | _ => failure
  let js ← query (.not (.executorEqual ""))
  assert (js.length == n)

/-- The suite, without `subscribe_ready_jobs_enqueuing_wakes_subscriber` (below). -/
def suite (n : Nat) (b : Candidate) : List (Test b Unit) :=
  [subscribeReadyJobs, streamsJobsByPriority, onlyOneStreamReceivesJob, enqueueTest, enqueueUnique,
   enqueueUniqueNoMatching, enqueueUniqueReplace, updateJob, updateJobNotFound, markJobComplete,
   markJobCompleteNotFound, rerunJobFirstAttempt, rerunJobFirstSubsequentAttempt, rerunJobNotFound,
   markJobSnoozedFirstAttempt, markJobSnoozedOtherAttempt, markJobSnoozedNotFound, markJobDiscarded,
   markJobDiscardedNotFound, markJobRetryable, markJobRetryableNotFound, markJobCancelled,
   markJobCancelledNotFound, queryTest, pruneJobs n]

example : (suite 100 memory).all (passes memory) = true := by decide +kernel
example : (suite 100 postgres).all (passes postgres) = true := by decide +kernel
example : (suite 20 postgres').all (passes postgres') = true := by decide +kernel

end Rexecutor.Conformance
