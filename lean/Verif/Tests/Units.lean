import Verif.Tests.Conformance
import Verif.Model.PgStream
import Verif.Model.Backoff
import Verif.Spec.Samples

/-!
# Unit tests and documented examples of the project, run on the model

Tests of the model, as in `Verif.Tests.Conformance`.
-/

namespace Rexecutor.Conformance

/-! ## rexecutor/src/backend/queryable.rs:85-295 -/

/-- The list of lines 89-103. -/
def matching : List Query :=
  [.executorEqual "executor", .idEquals 0, .idIn [0, 42], .dataEquals .null, .metadataEquals .null,
   .statusEqual .scheduled, .scheduledAtEqual rawJob.scheduledAt, .scheduledAtBefore (rawJob.scheduledAt + hours 1),
   .scheduledAtAfter (rawJob.scheduledAt - hours 1), .tagsAllOf []]

/-- The list of lines 119-131. -/
def nonMatching : List Query :=
  [.executorEqual "another_executor", .idEquals 1, .idIn [42, 1], .dataEquals (.num 42), .metadataEquals (.num 42),
   .statusEqual .executing, .scheduledAtEqual (rawJob.scheduledAt + hours 1),
   .scheduledAtBefore (rawJob.scheduledAt - hours 1), .scheduledAtAfter (rawJob.scheduledAt + hours 1),
   .tagsAllOf ["tag"], .tagsOneOf ["tag"]]

-- `query_matches`
example : (∀ q ∈ matching, q.matches rawJob = true ∧ (Query.not q).matches rawJob = false) ∧
    (Query.and matching).matches rawJob = true ∧ (Query.or matching).matches rawJob = true ∧
    (∀ q ∈ nonMatching, q.matches rawJob = false ∧ (Query.not q).matches rawJob = true) ∧
    (Query.and nonMatching).matches rawJob = false ∧ (Query.or nonMatching).matches rawJob = false ∧
    (Query.and (nonMatching ++ matching)).matches rawJob = false ∧
    (Query.or (nonMatching ++ matching)).matches rawJob = true := by decide +kernel

-- `query_matches_tags`
example :
    (∀ q ∈ [Query.tagsAllOf ["tag1", "tag2"], .tagsOneOf ["tag1", "tag2"], .tagsAllOf ["tag1"], .tagsOneOf ["tag1"],
      .tagsAllOf ["tag2"], .tagsOneOf ["tag2"]], q.matches { rawJob with tags := ["tag1", "tag2"] } = true) ∧
    (∀ q ∈ [Query.tagsAllOf ["tag1", "tag2", "tag3"], .tagsOneOf ["tag3"], .tagsAllOf ["tag3"]],
      q.matches { rawJob with tags := ["tag1", "tag2"] } = false) := by decide +kernel

-- `prune_spec_matches`
example : (PruneSpec.matches ⟨.scheduled, .maxLength 5, .only ["executor"]⟩ rawJob) = true ∧
    (PruneSpec.matches ⟨.executing, .maxLength 5, .only ["executor"]⟩ rawJob) = false := by decide +kernel

-- `spec_matches`
example : (ExecSpec.except ["executor"]).matches rawJob = false ∧ (ExecSpec.only ["executor"]).matches rawJob = true ∧
    (ExecSpec.except ["other_executor"]).matches rawJob = true ∧
    (ExecSpec.only ["other_executor"]).matches rawJob = false := by decide +kernel

/-- `with_uniqueness_criteria`. -/
def criteriaJob (c : Criteria) : EnqueuableJob := { mockJob with criteria := some c }

-- `enqueuable_job_no_uniqueness_criteria`
example : mockJob.matches now (mockJob.intoJob now 42) = false := by decide +kernel

-- `enqueuable_job_uniqueness_criteria_by_executor`
example : (criteriaJob .byExecutor).matches now ((criteriaJob .byExecutor).intoJob now 42) = true ∧
    (criteriaJob .byExecutor).matches now (EnqueuableJob.intoJob now { mockJob with executor := "other" } 43) = false := by
  decide +kernel

-- `enqueuable_job_uniqueness_criteria_by_key`
example : (criteriaJob (.byKey 42)).matches now ((criteriaJob (.byKey 42)).intoJob now 42) = true ∧
    (criteriaJob (.byKey 42)).matches now ((criteriaJob (.byKey 43)).intoJob now 43) = false := by decide +kernel

/-- The stored job with some fields changed. -/
def edited (k : KeyedJob) (f : Job → Job) : KeyedJob := { k with job := f k.job }

-- `enqueuable_job_uniqueness_criteria_by_statuses`
example :
    let e := criteriaJob (.byStatuses [.retryable])
    e.matches now (e.intoJob now 42) = false ∧
    e.matches now (edited (e.intoJob now 43) fun j => { j with status := .retryable }) = true := by decide +kernel

-- `enqueuable_job_uniqueness_criteria_within`; the clock is read a little later
example :
    let e := criteriaJob (.within (hours 24))
    (∀ t ∈ [now, now + hours 24, now - hours 24 + 60 * sec],
      e.matches (now + 1000) (edited (e.intoJob now 43) fun j => { j with scheduledAt := t }) = true) ∧
    (∀ t ∈ [now + hours 24 + 60 * sec, now - hours 24],
      e.matches (now + 1000) (edited (e.intoJob now 43) fun j => { j with scheduledAt := t }) = false) := by decide +kernel

/-! ## rexecutor/src/backend/memory.rs:515-691 -/

/-- An `enqueue` call, start to end. -/
def enqueueActs (i : Nat) (e : EnqueuableJob) : List TStAct :=
  ⟨now, .client (.start e)⟩ :: List.replicate 3 ⟨now, .client (.advance i)⟩

/-- A stream of `executor` looks and goes to sleep, then jobs for another executor and for
`executor` are enqueued. -/
def sleepThenEnqueue : List TStAct :=
  [⟨now, .subscribe "executor"⟩] ++ List.replicate 3 ⟨now, .stream 0 false⟩ ++
    enqueueActs 0 { mockJob with executor := "another_executor" } ++ enqueueActs 1 mockJob

/-- The jobs a stream returned. -/
def returned (h : List StEv) : List (String × Int) :=
  h.filterMap fun e => match e with
    | .returned _ j => some (j.executor, j.id)
    | _ => none

-- `subscribe_ready_jobs_enqueuing_wakes_subscriber`
example : returned ((Streams.init).trace (sleepThenEnqueue ++ List.replicate 5 ⟨now + sec, .stream 0 false⟩)) =
    [("executor", 1)] := by decide +kernel

-- `subscribe_ready_jobs_enqueuing_does_not_wakes_subscriber_when_paused`
example : returned ((Streams.init true).trace (sleepThenEnqueue ++ List.replicate 20 ⟨now + sec, .stream 0 false⟩)) = [] := by
  decide +kernel

-- `calling_notify_all_continues_execution`
example : returned ((Streams.init true).trace (sleepThenEnqueue ++ [⟨now, .client (.op .notifyAll)⟩] ++
    List.replicate 5 ⟨now + sec, .stream 0 false⟩)) = [("executor", 1)] := by decide +kernel

/-- Is the answer `Err(BackendError::BadState)`? -/
def isBadState : LockEv → Bool
  | .badState => true
  | _ => false

-- `badstate_errors`
example :
    let s : Locked := { conc := Conc.run {} (enqSteps now 0 mockJob), poisoned := true }
    (∀ o ∈ [Op.complete 0, .rerun 0, .retryable 0 (now + hours 24) error, .discarded 0 error, .cancelled 0 error,
      .snoozed 0 (now + hours 24), .prune ⟨.executing, .maxLength 5, .only ["executor"]⟩, .update rawJob,
      .query (.idEquals 0)], isBadState (s.step now (.op o)).1 = true) ∧
    (s.trace (enqSteps now 1 mockJob)).any isBadState = true := by decide +kernel

/-! ## rexecutor-sqlx/src/backend.rs:120-374 -/

/-- Asks for a job and finds none. -/
def noJob {b : Candidate} : Test b Unit := do
  match ← call (.op (.load "executor")) with
  | .job none => pure ()
  | _ => failure

/-- Asks for a job and is given this one. -/
def givenJob {b : Candidate} (id : Int) : Test b Unit := do
  let job ← next "executor"
  assert (job.id == id && job.status == .executing)

def returnsNoneWhenEmpty {b : Candidate} : Test b Unit := noJob

def returnsJobWhenReady {b : Candidate} : Test b Unit := do
  let id ← enqueue mockJob
  givenJob id

def doesNotReturnExecutingJobs {b : Candidate} : Test b Unit := do
  let id ← enqueue mockJob
  givenJob id
  noJob

def returnsRetryableJobs {b : Candidate} : Test b Unit := do
  let id ← enqueue mockJob
  ok (.retryable id now { errorType := .panic, message := "Oh dear" })
  givenJob id

def returnsJobScheduledInPast {b : Candidate} : Test b Unit := do
  let id ← enqueue { mockJob with scheduledAt := now - hours 3 }
  givenJob id

def returnsOldestExecutableJob {b : Candidate} : Test b Unit := do
  let expected ← enqueue { mockJob with scheduledAt := now - hours 3 }
  let _ ← enqueue mockJob
  let id ← enqueue mockJob
  ok (.complete id)
  let id ← enqueue mockJob
  ok (.discarded id { errorType := .panic, message := "Oh dear" })
  let id ← enqueue mockJob
  ok (.cancelled id { errorType := .cancelled, message := "Not needed" })
  givenJob expected

def enqueueStoresOne {b : Candidate} : Test b Unit := do
  let _ ← enqueue mockJob
  let js ← query (.not (.executorEqual ""))
  assert (js.length == 1)

def handouts (b : Candidate) : List (Test b Unit) :=
  [returnsNoneWhenEmpty, returnsJobWhenReady, doesNotReturnExecutingJobs, returnsRetryableJobs,
   returnsJobScheduledInPast, returnsOldestExecutableJob, enqueueStoresOne]

example : (handouts postgres).all (passes postgres) = true := by decide +kernel
example : (handouts postgres').all (passes postgres') = true := by decide +kernel
example : (handouts memory).all (passes memory) = true := by decide +kernel

-- `subscribe_ready_jobs_enqueuing_wakes_subscriber` on Postgres
example :
    let act t a : TNetAct := ⟨t, Int.toNat, a⟩
    let h := PgNet.trace sampleHash (fun _ => true) {}
      ([act now .connect, act now (.subscribe 0 "executor"), act now (.stream 0 false), act now (.stream 0 false),
        act now (.stream 0 false), act now (.db (.plain { mockJob with executor := "another_executor" })),
        act now (.db (.plain mockJob)), act now (.deliver 0), act now (.deliver 0)] ++
        List.replicate 8 (act (now + sec) (.stream 0 false)))
    h.filterMap (fun e => match e with
      | .returned i j => some (i, j.executor, j.id)
      | _ => none) = [(0, "executor", 2)] := by decide +kernel

/-! ## rexecutor/src/backoff.rs, documented examples -/

/-- `strategy.backoff(attempt)` for attempts 1, 2, .., in seconds (no jitter). -/
def backoffs (c : BackoffCtor) (calls : List BackoffCall) (n : Nat) : List (Option Int) :=
  (List.range n).map fun i => ((c.build calls).delay true 0 (i + 1)).map (· / sec)

example : backoffs (.constant (10 * sec)) [] 3 = [some 10, some 10, some 10] := by decide +kernel
example : backoffs (.exponential (2 * sec)) [.withMax (30 * sec)] 6 =
    [some 2, some 4, some 8, some 16, some 30, some 30] := by decide +kernel
example : backoffs (.linear (10 * sec)) [.withMax (40 * sec)] 5 =
    [some 10, some 20, some 30, some 40, some 40] := by decide +kernel
example : backoffs (.polynomial (10 * sec) 2) [.withMax (200 * sec)] 6 =
    [some 10, some 40, some 90, some 160, some 200, some 200] := by decide +kernel

/-- The bounds of backoff.rs:230-245, for the extreme draws. -/
example :
    let b := (BackoffCtor.linear (20 * sec)).build [.withMax (60 * sec), .withJitter (.absolute (10 * sec))]
    [1, 2, 3, 10].map (fun n => (b.delay true (-i64Max) n, b.delay true i64Max n)) =
      [(some (10 * sec), some (30 * sec)), (some (30 * sec), some (50 * sec)), (some (50 * sec), some (70 * sec)),
       (some (50 * sec), some (70 * sec))] := by decide +kernel

/-! ## rexecutor/src/pruner.rs:378-408 -/

-- `config`
example : ((PrunerConfig.new.withPruner (((Pruner.maxAge (31 * hours 24) .complete).only "simple").andOnly "mock")).withPruner
    (((Pruner.maxLength 200 .discarded).except "simple").andExcept "mock")).pruners.length = 2 := by decide +kernel

-- `into_spec_all`
example : IntoSpec.intoSpec ({} : AllExecutors) = .except [] := by decide +kernel

end Rexecutor.Conformance
