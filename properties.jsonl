{"id": "C01", "title": "Job ids identify one job", "statement": "On the in-memory backend, every enqueue call that inserts a job returns an id that no other inserted job has ever been given, even when many enqueue calls run concurrently and finish in a different order than they started, as long as fewer than 2^32 jobs have been inserted. After 2^32 insertions ids repeat.", "quantifier": "every number of concurrent enqueue calls, every interleaving of their atomic steps with each other and with every other backend call, up to 2^32 insertions", "why_tests_cant": "a test runs a handful of enqueues in a few schedules; the claim is over all schedules and 2^32 insertions", "anchors": ["rexecutor/src/backend/memory.rs: InMemoryBackend::insert_new_job, insert_unique_job", "rexecutor/src/job.rs: JobId"]}
{"id": "C02", "title": "Unknown ids are reported and have no effect", "statement": "Every in-memory call that addresses one job by id (complete, retryable, discarded, cancelled, snoozed, rerun, update) returns JobNotFound with that id exactly when no stored job has the id, and in that case nothing stored changes and no subscriber is woken; otherwise it returns Ok.", "quantifier": "every backend state reachable by any history of calls, every id, every by-id call", "why_tests_cant": "requires all states and ids, tests pick one absent id (42) on an empty store", "anchors": ["rexecutor/src/backend/memory.rs: mark_job_complete, mark_job_retryable, mark_job_discarded, mark_job_cancelled, mark_job_snoozed, rerun_job, update_job"]}
{"id": "C03", "title": "Calls on one job leave every other job alone", "statement": "A by-id call on the in-memory backend changes at most the job with that id: every other stored job keeps every field and its position, no job is added and none removed.", "quantifier": "every reachable store, every id, every by-id call", "why_tests_cant": "a frame condition quantifies over all the other jobs and all their fields", "anchors": ["rexecutor/src/backend/memory.rs: Backend impl for InMemoryBackend"]}
{"id": "C04", "title": "Only due jobs of the right executor are handed out", "statement": "Whenever the in-memory backend hands a job to the stream of an executor, that job is stored for exactly that executor, was Scheduled or Retryable, and was due less than 100 ms after the current time; and if such a job exists when the stream asks, one is handed out.", "quantifier": "every store, every clock value, every executor name", "why_tests_cant": "needs all combinations of jobs, statuses, executors and clock values", "anchors": ["rexecutor/src/backend/memory.rs: load_job_mark_as_executing_for_executor"]}
{"id": "C05", "title": "Earlier first, then higher priority, then first come", "statement": "The job handed out by the in-memory backend is, among all eligible jobs of the executor, one with the earliest scheduled time; among those with that scheduled time one with the lowest priority number; among those the one inserted first.", "quantifier": "every store, every clock value", "why_tests_cant": "sorting claims need all lists; the tests use three jobs", "anchors": ["rexecutor/src/backend/memory.rs: load_job_mark_as_executing_for_executor", "rexecutor/src/job/builder.rs: JobBuilder::with_priority"]}
{"id": "C06", "title": "A job is never handed out twice without being put back", "statement": "Between two hand-outs of the same job, to any of any number of streams, there is always a call that put the job back in the queue: a retry, a snooze, a rerun, an update of the job, or an enqueue whose uniqueness criteria matched the job.", "quantifier": "every history of backend calls by any number of concurrent clients and streams", "why_tests_cant": "mutual exclusion is a claim about all interleavings", "anchors": ["rexecutor/src/backend/memory.rs: load_job_mark_as_executing_for_executor", "rexecutor/src/backend.rs: Backend::subscribe_ready_jobs"]}
{"id": "C07", "title": "The attempt counter counts executions", "statement": "In every history without update_job and without a uniqueness conflict, a job's attempt number equals the number of times it was handed out minus the number of times it was snoozed; each hand-out carries the incremented attempt number, and retry, discard, cancel, complete and rerun leave it unchanged.", "quantifier": "every history of backend calls", "why_tests_cant": "counts over unbounded histories", "anchors": ["rexecutor/src/backend/memory.rs: Job::mark_job_executing, mark_job_snoozed", "rexecutor/src/backend.rs: Backend::mark_job_snoozed"]}
{"id": "C08", "title": "A failing job is executed max_attempts times and then discarded", "statement": "A job enqueued with max_attempts = n ≥ 1, handled only by its runner (no rerun, update or uniqueness replacement), is executed with a failing outcome (error, panic or timeout) at most n times whatever the interleaving; after the n-th failure its status is Discarded, after fewer failures it is not Discarded, and snoozes do not use up attempts.", "quantifier": "every n ≥ 1, every sequence of outcomes, every interleaving with other jobs, enqueues, prunes and queries", "why_tests_cant": "needs all n and all outcome sequences, unbounded in the number of snoozes", "anchors": ["rexecutor/src/job/runner.rs: JobRunner::handle_job_error, execute_job_without_timeout, execute_job_with_timeout", "rexecutor/src/job.rs: Job::is_final_attempt", "rexecutor/src/backend/memory.rs: mark_job_retryable, mark_job_discarded"]}
{"id": "C09", "title": "Finished jobs are not executed again by themselves", "statement": "Once a job is Complete, Cancelled or Discarded, it is never handed out again in any continuation of the history that contains no rerun, retry, snooze or update of that job and no enqueue whose uniqueness criteria matched it.", "quantifier": "every history and every continuation", "why_tests_cant": "absence of an event in every continuation", "anchors": ["rexecutor/src/backend/memory.rs: load_job_mark_as_executing_for_executor, Backend impl"]}
{"id": "C10", "title": "The error history is complete and append-only", "statement": "Every retry, discard and cancel of a stored job appends exactly one error carrying the given type and message and the job's attempt number at that moment (as a 16-bit number); no call other than update_job of that job and the write-back of a uniqueness conflict with it removes, reorders or edits an earlier error; so without those the errors of a job are exactly the failures reported for it, oldest first.", "quantifier": "every history of backend calls", "why_tests_cant": "history variable over unbounded runs", "anchors": ["rexecutor/src/backend/memory.rs: Job::mark_job_retryable, mark_job_discarded, mark_job_cancelled, into_job_error", "rexecutor/src/backend.rs: Backend docs"]}
{"id": "C11", "title": "The outcome of an execution decides the job's fate", "statement": "For every executed job: Done makes exactly one complete call; Cancel exactly one cancel call with type Cancelled and the reason; Snooze(d) exactly one snooze call for now + d; an error, a panic or an elapsed timeout exactly one discard call if the attempt equals max_attempts and otherwise exactly one retry call for now + backoff(attempt), recording type Other(name), Panic or Timeout and the message. No other backend call is made and an error from that call changes nothing else. A result produced within the timeout is treated the same whether or not a timeout is configured.", "quantifier": "every job, outcome, timeout setting, backoff function and clock", "why_tests_cant": "a decision table over all inputs, tests sample one job with one attempt count", "anchors": ["rexecutor/src/job/runner.rs: execute_job, execute_job_with_timeout, execute_job_without_timeout, handle_job_*"]}
{"id": "C12", "title": "Retries and snoozes are not executed early", "statement": "After a job is retried or snoozed for time t, it is not handed out while the clock is at or before t - 100 ms, in any continuation where the clock does not run backwards and the job is not rerun, updated, retried or snoozed again or matched by a unique enqueue.", "quantifier": "every history, every t, every continuation with a monotone clock", "why_tests_cant": "a timing claim over all continuations", "anchors": ["rexecutor/src/backend/memory.rs: mark_job_retryable, mark_job_snoozed, load_job_mark_as_executing_for_executor"]}
{"id": "C13", "title": "Rerun gives one more attempt, right away", "statement": "Rerunning a stored job raises max_attempts by exactly one, clears the completed, cancelled and discarded timestamps, keeps data, metadata, errors and attempt number, and makes it due immediately, so if it is Complete, Cancelled or Discarded with attempt ≤ max_attempts it can be handed out again and that execution is not past its last attempt. A job whose max_attempts is already 65535 can however no longer be decoded after a rerun.", "quantifier": "every stored job and every clock value", "why_tests_cant": "needs all attempt/max_attempts values including the 16-bit boundary", "anchors": ["rexecutor/src/backend/memory.rs: Job::mark_job_rerunable", "rexecutor/src/job.rs: TryFrom<backend::Job>", "rexecutor/src/executor.rs: Executor::rerun_job"]}
{"id": "C14", "title": "Status and timestamps agree", "statement": "In every history without update_job: a Complete job has a completion time, a Cancelled job a cancellation time, a Discarded job a discard time, an Executing job an attempt time, and a job that was never handed out, completed, cancelled or discarded has none of these.", "quantifier": "every history of backend calls without update_job", "why_tests_cant": "state invariant over all histories", "anchors": ["rexecutor/src/backend/memory.rs: Job::mark_job_*"]}
{"id": "C15", "title": "Pruning only removes jobs it was asked to look at", "statement": "A prune on the in-memory backend removes only jobs whose status is the requested one and whose executor is selected; every other job survives, and the survivors keep all their fields and their order.", "quantifier": "every store, every prune specification, every clock value", "why_tests_cant": "frame condition over all stores and specifications", "anchors": ["rexecutor/src/backend/memory.rs: prune_jobs", "rexecutor/src/backend/queryable.rs: PruneSpec::matches, Spec::matches"]}
{"id": "C16", "title": "Age pruning removes exactly the jobs that are too old (in-memory)", "statement": "A max-age prune removes a selected job exactly when it was scheduled at least the given age before now.", "quantifier": "every store, every age, every clock value", "why_tests_cant": "needs every scheduled time on both sides of now", "anchors": ["rexecutor/src/backend/memory.rs: prune_jobs (MaxAge)", "rexecutor/src/pruner.rs: PruneBy::MaxAge"]}
{"id": "C17", "title": "Length pruning keeps the newest jobs (in-memory)", "statement": "After a max-length prune with limit n at most n selected jobs remain, exactly min(n, number selected) of them, and every removed job is at least as old as every selected survivor.", "quantifier": "every store and every n", "why_tests_cant": "the shipped test passes by coincidence because it prunes 50 of 100", "anchors": ["rexecutor/src/backend/memory.rs: prune_jobs (MaxLength)", "rexecutor/src/pruner.rs: PruneBy::MaxLength"]}
{"id": "C18", "title": "A query returns exactly the matching jobs", "statement": "An in-memory query returns, in insertion order, exactly the stored jobs that satisfy the query read as a boolean formula: not is negation, an and-list is the conjunction of all members (true when empty), an or-list the disjunction (false when empty), and each leaf compares the named field; and a query changes nothing.", "quantifier": "every store and every query of any depth and width", "why_tests_cant": "queries are an unbounded recursive type", "anchors": ["rexecutor/src/backend/queryable.rs: Query::matches", "rexecutor/src/backend/memory.rs: query, matching_jobs"]}
{"id": "C19", "title": "Where combinators mean what they say and stay inside the executor", "statement": "For all queries a, b built with the Where API, a.and(b) matches a job iff both match, a.or(b) iff either matches, !a iff a does not match; and query_jobs for an executor on the in-memory backend returns exactly that executor's stored jobs that match, whatever the query.", "quantifier": "all Where expressions of any shape, all jobs, all executors", "why_tests_cant": "and/or flatten their left operand, so the claim is an induction over all shapes", "anchors": ["rexecutor/src/job/query.rs: Where::and, Where::or, Not", "rexecutor/src/backend.rs: Query::for_executor, TryFrom<job::query::Query>", "rexecutor/src/executor.rs: query_jobs_on_backend"]}
{"id": "C20", "title": "Unique enqueue inserts only when there is no match", "statement": "On the in-memory backend with no concurrent call, enqueueing with uniqueness criteria inserts a new job exactly when no stored job matches the criteria, and otherwise inserts nothing and returns the id of a stored matching job; so a history of unique enqueues of one executor with the same by-executor criteria never leaves two Scheduled jobs of that executor created by it.", "quantifier": "every store, every criteria, every history of such enqueues", "why_tests_cant": "uniqueness is an invariant over all histories", "anchors": ["rexecutor/src/backend/memory.rs: insert_unique_job, enqueue", "rexecutor/src/backend/queryable.rs: EnqueuableJob::matches"]}
{"id": "C21", "title": "Do-nothing conflicts do nothing", "statement": "With no concurrent call, an enqueue whose criteria say do nothing on conflict and which finds a match leaves every stored job exactly as it was and uses up no id.", "quantifier": "every store, every criteria with do-nothing resolution", "why_tests_cant": "all stores, all fields", "anchors": ["rexecutor/src/backend/memory.rs: insert_unique_job, Job::replace, update_job"]}
{"id": "C22", "title": "Replace touches only the named fields of one job", "statement": "With no concurrent call, an enqueue with a replace resolution that finds a match changes only the first matching job, only if its status is one of for_statuses, and there exactly the flagged fields among scheduled time, data, metadata, priority and max_attempts, which take the new job's values.", "quantifier": "every store, every criteria, all 32 flag combinations, every status set", "why_tests_cant": "all flag/status combinations times all stores", "anchors": ["rexecutor/src/backend/memory.rs: Job::replace, insert_unique_job", "rexecutor/src/job/uniqueness_criteria.rs: Replace"]}
{"id": "C23", "title": "Concurrent unique enqueues create one job (in-memory)", "statement": "Several concurrent enqueues with the same do-nothing by-executor criteria on a store without a match create exactly one job.", "quantifier": "every interleaving of any number of concurrent enqueue calls", "why_tests_cant": "a race over interleavings", "anchors": ["rexecutor/src/backend/memory.rs: insert_unique_job"]}
{"id": "C24", "title": "A uniqueness conflict never disturbs an executing job", "statement": "An enqueue that conflicts with a stored job changes at most the fields named by its replace resolution, whatever other calls run concurrently; in particular it never makes an executing job available again.", "quantifier": "every interleaving of enqueue with hand-outs and other calls", "why_tests_cant": "a lost-update race", "anchors": ["rexecutor/src/backend/memory.rs: insert_unique_job, update_job"]}
{"id": "C25", "title": "The uniqueness window is around the scheduled time", "statement": "With criteria within(d), a stored job counts as a duplicate exactly when it also satisfies the other criteria and its scheduled time is within d of the new job's scheduled time.", "quantifier": "every store, every scheduled time, every duration", "why_tests_cant": "all scheduled times relative to now", "anchors": ["rexecutor/src/backend/queryable.rs: EnqueuableJob::matches", "rexecutor-sqlx/src/unique.rs: Unique::query", "rexecutor/src/job/uniqueness_criteria.rs: UniquenessCriteria::within"]}
{"id": "C26", "title": "Several cron runners enqueue one job per tick", "statement": "When two runners with the same executor and data both enqueue for the same tick, one job results.", "quantifier": "every tick, every pair of runners, every clock value", "why_tests_cant": "depends on hash keys and time windows for all values", "anchors": ["rexecutor/src/cron_runner.rs: CronRunner::enqueue_job", "rexecutor/src/backend/queryable.rs", "rexecutor-sqlx/src/unique.rs"]}
{"id": "C27", "title": "Concurrency limits hold", "statement": "A runner for an executor with MAX_CONCURRENCY = k never has more than k executions in flight, in any schedule; with k = None there is no limit.", "quantifier": "every k, every schedule of hand-outs and completions", "why_tests_cant": "bound over all schedules", "anchors": ["rexecutor/src/job/runner.rs: JobRunner::spawn", "rexecutor/src/executor.rs: Executor::MAX_CONCURRENCY"]}
{"id": "C28", "title": "Shutdown starts nothing new and loses nothing in flight", "statement": "After graceful shutdown no further execution is started by that instance, while every execution already in flight can still finish and its outcome is recorded exactly as without shutdown.", "quantifier": "every schedule around the shutdown", "why_tests_cant": "all interleavings of shutdown with hand-outs and completions", "anchors": ["rexecutor/src/lib.rs: Rexecutor::graceful_shutdown, drop_guard", "rexecutor/src/job/runner.rs: JobRunner::spawn"]}
{"id": "C29", "title": "A crash never causes a second execution", "statement": "If an execution ends without its outcome being recorded (process crash, undecodable job, lost task), the job stays Executing with its attempt used and is never handed out again, and never finished, until someone calls rerun, update, cancel or another by-id call for it.", "quantifier": "every crash point, every continuation", "why_tests_cant": "all crash points and continuations", "anchors": ["rexecutor/src/job/runner.rs: JobRunner::spawn (decode error arm)", "rexecutor/src/backend/memory.rs: load_job_mark_as_executing_for_executor"]}
{"id": "C30", "title": "Waiting streams miss no job", "statement": "A stream waiting for work on an unpaused in-memory backend never waits past the moment when some job of its executor becomes due: if its wake-up channel is empty, its timer runs out no later than the scheduled time of every available job of its executor whose enqueue call has finished (or 15 ms after it went to sleep, if that is later), and no wait is longer than 30 s.", "quantifier": "every interleaving of stream steps with enqueues, retries, snoozes, reruns, updates and hand-outs to other streams", "why_tests_cant": "lost-wakeup freedom is a claim over all interleavings", "anchors": ["rexecutor/src/backend/memory.rs: ReadyJobStream::next, notify_subscribers, next_available_job_scheduled_at_for_executor"]}
{"id": "C31", "title": "A paused backend wakes nobody until told to", "statement": "While the in-memory backend is paused no call other than notify_all wakes a waiting stream; notify_all wakes every stream of every executor exactly once.", "quantifier": "every history of calls on a paused backend", "why_tests_cant": "absence of an event over all histories", "anchors": ["rexecutor/src/backend/memory.rs: paused, notify_all, notify_subscribers"]}
{"id": "C32", "title": "Backoff delays stay within their bounds", "statement": "For every strategy, the delay is never below the configured minimum (zero by default); without jitter and offset it never exceeds max (or the minimum, if larger); jitter changes it by at most the absolute jitter or the given fraction of the unjittered delay, up to half a millisecond and the precision of f64.", "quantifier": "every configuration, every attempt 0..65535, every random draw", "why_tests_cant": "all configurations and random draws", "anchors": ["rexecutor/src/backoff.rs: BackoffStrategy::backoff, Jitter::apply_jitter, Strategy impls"]}
{"id": "C33", "title": "Backoff grows as documented", "statement": "Without jitter: constant is the same for every attempt; linear is factor·attempt, polynomial factor·attempt^power (with overflow checks, or while attempt^power fits 32 bits), exponential base^attempt in whole seconds, each capped by max, plus the offset if there is one; the default is four seconds to the power of the attempt, at most seven days, up to ten per cent more or less; and linear, polynomial (under the same condition) and exponential delays with non-negative factor (base at least one second) never decrease as the attempt grows.", "quantifier": "every configuration and every attempt", "why_tests_cant": "closed forms over all attempts", "anchors": ["rexecutor/src/backoff.rs: Constant, Linear, Polynomial, Exponential"]}
{"id": "C34", "title": "Computing a backoff never panics", "statement": "Computing a delay from a non-negative configuration returns a value for every attempt.", "quantifier": "every configuration and every attempt 0..65535", "why_tests_cant": "overflow only at large attempts", "anchors": ["rexecutor/src/backoff.rs"]}
{"id": "C35", "title": "The builder enqueues exactly what was configured", "statement": "The job a builder enqueues has the executor's name, the last data, metadata, max_attempts, priority, schedule time and criteria set, the tags set last by with_tags followed by every tag added after it, and for everything not set: max_attempts and criteria of the executor, priority 0, the time the builder was created, no tags, null data/metadata.", "quantifier": "every sequence of builder calls of any length", "why_tests_cant": "last-write-wins over all call sequences", "anchors": ["rexecutor/src/job/builder.rs: JobBuilder"]}
{"id": "C36", "title": "An executor receives exactly what was enqueued", "statement": "If data and metadata values survive serialisation, then a job enqueued through the builder is handed to the executor's execute with equal data, equal metadata and its tags, priority, max_attempts and schedule, and attempt 1 on first execution; in particular metadata may be omitted.", "quantifier": "every data/metadata type with a lossless codec, every value, every builder configuration", "why_tests_cant": "all types and values", "anchors": ["rexecutor/src/job.rs: TryFrom<backend::Job>", "rexecutor/src/job/builder.rs: _enqueue_to_backend", "rexecutor/src/job/runner.rs: spawn", "rexecutor/src/executor.rs: Executor::Metadata"]}
{"id": "C37", "title": "Reading a job and writing it back changes nothing", "statement": "Querying a job through the typed API and passing it unchanged to update_job leaves the in-memory store unchanged, for every job whose counters fit 16 bits.", "quantifier": "every stored job, every lossless codec", "why_tests_cant": "all field values", "anchors": ["rexecutor/src/backend.rs: TryFrom<job::Job>", "rexecutor/src/job.rs: TryFrom<backend::Job>", "rexecutor/src/backend/memory.rs: update_job"]}
{"id": "C38", "title": "Jobs move only along the documented lifecycle", "statement": "Under a runner (hand-out, then one outcome) a job's status only moves Scheduled/Retryable → Executing → Complete, Cancelled, Discarded, Retryable, or back to Scheduled by a snooze of its first attempt; the only other moves are those a user asks for with cancel, rerun, update or a by-id call, and jobs leave the store only through pruning.", "quantifier": "every history of calls, every step", "why_tests_cant": "transition relation over all histories", "anchors": ["rexecutor/src/backend/memory.rs: Backend impl", "rexecutor/src/job.rs: JobStatus"]}
{"id": "C39", "title": "The global backend is set once", "statement": "The first set of the global backend succeeds and every later one returns an error and changes nothing; every use before the first set fails with an error; every use afterwards reaches the backend set first.", "quantifier": "every sequence of set and use calls, in any order", "why_tests_cant": "all call sequences", "anchors": ["rexecutor/src/global_backend.rs: GlobalBackend::set, as_ref", "rexecutor/src/lib.rs: set_global_backend"]}
{"id": "C40", "title": "A cron runner enqueues each tick at most once, on time", "statement": "For every schedule and every monotone clock, the jobs a cron runner enqueues are scheduled exactly at schedule ticks, in strictly increasing order, each enqueued no earlier than 10 ms before its tick, and no tick is skipped if every enqueue finishes before the following tick.", "quantifier": "every schedule, every pattern of delays", "why_tests_cant": "unbounded runs of the loop with arbitrary delays", "anchors": ["rexecutor/src/cron_runner.rs: CronRunner::spawn"]}
{"id": "C41", "title": "A pruner run applies every configured pruner once", "statement": "Each pruner run issues exactly one prune call per configured pruner, in order, an error in one does not stop the others, and the only/except/and builders select exactly the named executors or all but the named ones (all executors by default). Runs happen once per tick of the schedule, no more than 10 ms early.", "quantifier": "every configuration, every error pattern", "why_tests_cant": "all configurations and failures", "anchors": ["rexecutor/src/pruner.rs: PrunerConfig, Pruner", "rexecutor/src/pruner/runner.rs: PrunerRunner::prune"]}
{"id": "C42", "title": "assert_enqueued counts matching jobs", "statement": "assert_enqueued!(n jobs, ...) passes iff exactly n stored jobs satisfy all the given conditions.", "quantifier": "every store, every n, every list of conditions", "why_tests_cant": "all stores", "anchors": ["rexecutor/src/testing.rs: assert_enqueued!"]}
{"id": "C43", "title": "Postgres queries mean the same as in-memory queries", "statement": "The SQL condition produced for a query selects exactly the rows that satisfy the query as a boolean formula.", "quantifier": "every query of any depth, every row", "why_tests_cant": "unbounded recursive queries, precedence", "anchors": ["rexecutor-sqlx/src/query.rs: handle_query, ToQuery for Query", "rexecutor/src/backend.rs: Query::for_executor"]}
{"id": "C44", "title": "Postgres id-list queries return the listed jobs", "statement": "A query for a list of ids returns exactly the jobs whose id is in the list.", "quantifier": "every list of ids, every row", "why_tests_cant": "all lists", "anchors": ["rexecutor-sqlx/src/query.rs: handle_query (IdIn)"]}
{"id": "C45", "title": "Postgres hands out due jobs by priority then time", "statement": "A job handed out by the Postgres backend belongs to the asking executor, was Scheduled or Retryable and due within 100 ms, and among the jobs not locked by a concurrent hand-out it has the lowest priority number and among those the earliest schedule; exactly its status, attempt (+1) and attempt time change.", "quantifier": "every table, clock, set of locked rows and tie-breaking choice", "why_tests_cant": "all tables and database choices", "anchors": ["rexecutor-sqlx/src/lib.rs: load_job_mark_as_executing_for_executor"]}
{"id": "C46", "title": "Concurrent Postgres nodes never execute the same attempt", "statement": "In every interleaving of any number of nodes running the hand-out statement and any by-id statements, no job is handed out twice without a statement in between that put it back in the queue.", "quantifier": "every number of nodes, every interleaving, every database choice", "why_tests_cant": "distributed mutual exclusion", "anchors": ["rexecutor-sqlx/src/lib.rs: load_job_mark_as_executing_for_executor"]}
{"id": "C47", "title": "Postgres pruning keeps the right jobs", "statement": "Max-length pruning with limit n leaves exactly min(n, selected) selected jobs: for finished statuses the most recently scheduled, otherwise the earliest scheduled; max-age pruning removes exactly the selected jobs scheduled more than the age ago (finished) or more than the age ahead (others); nothing else is removed or changed.", "quantifier": "every table, every specification, every tie-breaking choice", "why_tests_cant": "all tables", "anchors": ["rexecutor-sqlx/src/query.rs: ToQuery for PruneSpec", "rexecutor-sqlx/src/lib.rs: delete_from_spec"]}
{"id": "C48", "title": "Concurrent unique enqueues create one job (Postgres)", "statement": "Any number of concurrent Postgres enqueues with the same criteria and executor, without a key, leave at most one new matching Scheduled job: the advisory lock makes check and insert one step.", "quantifier": "every interleaving of the transactions' steps", "why_tests_cant": "interleavings across connections", "anchors": ["rexecutor-sqlx/src/lib.rs: insert_unique_job", "rexecutor-sqlx/src/unique.rs: unique_identifier"]}
{"id": "C49", "title": "Keyed uniqueness works on Postgres", "statement": "Two enqueues with the same key criteria, one after the other, create one job.", "quantifier": "every key, every hash function", "why_tests_cant": "depends on the hash of all keys", "anchors": ["rexecutor-sqlx/src/unique.rs: unique_identifier, query", "rexecutor-sqlx/src/lib.rs: insert_unique_job"]}
{"id": "C50", "title": "Both backends agree on the job lifecycle", "statement": "Starting from equal stores, the same complete, retry, discard, cancel, snooze, rerun and plain enqueue calls give equal results and equal stores on the in-memory and the Postgres backend (times in whole microseconds, attempts within 16 bits, error type names other than the built-in ones, fewer than 2^31 - 1 jobs so far); so do hand-outs whenever one due job comes first both by time and by priority.", "quantifier": "every history of these calls", "why_tests_cant": "simulation over all histories", "anchors": ["rexecutor-sqlx/src/lib.rs: _mark_job_*, rerun, insert_job", "rexecutor-sqlx/src/backend.rs", "rexecutor/src/backend/memory.rs"]}
{"id": "C51", "title": "Cancelling is final", "statement": "A job cancelled before it was handed out is never executed, unless it is rerun, retried, snoozed or updated afterwards; a job cancelled while executing stays cancelled.", "quantifier": "every history and continuation", "why_tests_cant": "race between cancel and completion", "anchors": ["rexecutor/src/executor.rs: Executor::cancel_job", "rexecutor/src/backend/memory.rs: mark_job_cancelled, mark_job_complete", "rexecutor-sqlx/src/lib.rs: _mark_job_complete"]}
{"id": "C52", "title": "update_job stores the given job", "statement": "After a successful update the stored job equals the given one on the in-memory backend; on Postgres exactly data, metadata, max_attempts, scheduled time, priority and tags take the given values and status, attempt, errors and timestamps are kept.", "quantifier": "every store, every job value", "why_tests_cant": "all fields and stores", "anchors": ["rexecutor/src/backend/memory.rs: update_job", "rexecutor-sqlx/src/lib.rs: update"]}
{"id": "C53", "title": "Errors read back from Postgres are the errors recorded", "statement": "An error recorded on Postgres is read back with the same attempt, type, message and time.", "quantifier": "every error type string, message, attempt", "why_tests_cant": "all strings", "anchors": ["rexecutor-sqlx/src/types.rs: ErrorType, JobError, TryFrom<Job>", "rexecutor-sqlx/src/lib.rs: _mark_job_retryable"]}
{"id": "C54", "title": "Waiting Postgres streams are woken", "statement": "Every committed insert or update that leaves a row Scheduled or Retryable, and no other, notifies every subscriber of exactly that row's executor once, in order, on every node whose listener is running and keeps its connection.", "quantifier": "every statement, every table, every set of subscribers and nodes", "why_tests_cant": "trigger behaviour for all statements", "anchors": ["rexecutor-sqlx/migrations: rexecutor_new_job_notify, rexecutor_insert, rexecutor_update", "rexecutor-sqlx/src/lib.rs: from_pool"]}
{"id": "C55", "title": "max_attempts is never exceeded", "statement": "No job is ever executed more often than its current max_attempts, not counting snoozed executions, whatever max_attempts is (including zero) and even if a replace resolution or update lowered it.", "quantifier": "every history of enqueues, updates, replacements and outcomes", "why_tests_cant": "only shows at max_attempts values at or below the current attempt", "anchors": ["rexecutor/src/job.rs: Job::is_final_attempt", "rexecutor/src/job/runner.rs: handle_job_error", "rexecutor/src/executor.rs: Executor::MAX_ATTEMPTS"]}
{"id": "C56", "title": "Combining uniqueness criteria only narrows them", "statement": "Adding and_executor, and_within or and_key to uniqueness criteria makes a stored job count as a duplicate only if it did before and also satisfies the added criterion, and the order in which the parts are combined does not matter.", "quantifier": "every stored job, every new job, every criteria value, every time of the call", "why_tests_cant": "all combinations of criteria and stored jobs; tests try a few fixed combinations", "anchors": ["rexecutor/src/job/uniqueness_criteria.rs: UniquenessCriteria::and_executor, and_within, and_key, and_statuses, on_conflict", "rexecutor/src/backend/memory.rs: is_unique, matching_jobs"]}
{"id": "C57", "title": "max_concurrency limits how many pruners run at once", "statement": "During a pruner run at most max_concurrency prune calls are in progress at the same time.", "quantifier": "every configuration, every order in which the calls finish", "why_tests_cant": "needs calls that overlap, which the in-memory backend never produces", "anchors": ["rexecutor/src/pruner.rs: PrunerConfig::with_max_concurrency", "rexecutor/src/pruner/runner.rs: PrunerRunner::prune"]}
{"id": "C58", "title": "Executor-scoped queries on Postgres return only that executor's jobs", "statement": "Executor::query_jobs for an executor returns only jobs of that executor, on Postgres.", "quantifier": "every query of any depth, every table", "why_tests_cant": "needs nested queries and other executors' rows in the table", "anchors": ["rexecutor/src/executor.rs: Executor::query_jobs", "rexecutor-sqlx/src/query.rs: Query for Where / handle_query", "rexecutor-sqlx/src/lib.rs: run_query"]}
{"id": "C59", "title": "Sequential unique enqueue on Postgres", "statement": "With no concurrent enqueue, a unique enqueue on Postgres inserts a row exactly when no row is a duplicate under the criteria; with do-nothing a conflict changes nothing; with replace it changes exactly the flagged fields of one duplicate; a replacement that flags nothing fails and changes nothing.", "quantifier": "every table, every job and criteria, every replacement list", "why_tests_cant": "the criteria combine keys, statuses, executor and a time window; tests sample a few", "anchors": ["rexecutor-sqlx/src/lib.rs: RexecutorPgBackend::insert_unique_job", "rexecutor-sqlx/src/unique.rs: Unique for UniquenessCriteria"]}
{"id": "C60", "title": "Waiting Postgres streams miss no job", "statement": "A job stream of the Postgres backend that waits with nothing left to receive wakes up by itself no later than the scheduled time of every waiting row of its executor (or within 15 ms); it never sleeps longer than 30 s whatever breaks; and once awake with a due, unlocked row it returns a job of its executor.", "quantifier": "every schedule of any number of nodes, clients and streams, every interleaving of statements and notifications", "why_tests_cant": "races between looking, sleeping and being notified cannot be enumerated by tests", "anchors": ["rexecutor-sqlx/src/stream.rs: ReadyJobStream::next", "rexecutor-sqlx/src/lib.rs: next_available_job_scheduled_at_for_executor, load_job_mark_as_executing_for_executor", "rexecutor-sqlx/migrations: rexecutor_new_job_notify"]}
{"id": "C61", "title": "The listener keeps running whatever is enqueued", "statement": "As long as the database connection does not fail for good, the listener task of a node keeps running and keeps notifying the streams of its node, whatever jobs are enqueued.", "quantifier": "every schedule, every scheduled time a job can have", "why_tests_cant": "needs a job whose notification cannot be parsed and a long observation afterwards", "anchors": ["rexecutor-sqlx/src/lib.rs: RexecutorPgBackend::from_pool", "rexecutor-sqlx/migrations: rexecutor_new_job_notify"]}
{"id": "C62", "title": "The attempt counter counts executions (Postgres)", "statement": "In every history of the Postgres database, with any number of nodes and clients and including update_job and replacements, a stored job's attempt number equals the number of times it was handed out minus the number of times it was snoozed, and each hand-out carries the number of that execution.", "quantifier": "every interleaving of hand-outs, unique enqueues, by-id calls, prunes and failing sessions", "why_tests_cant": "the counter is changed by two statements that race with all others; tests see single runs", "anchors": ["rexecutor-sqlx/src/lib.rs: load_job_mark_as_executing_for_executor", "rexecutor-sqlx/src/lib.rs: _mark_job_snoozed"]}
{"id": "C63", "title": "The error history is complete and append-only (Postgres)", "statement": "In every history of the Postgres database a stored job's errors are exactly the failures reported for it by successful retry, discard and cancel calls, oldest first, each with type, message, time and the attempt number at that moment; nothing ever removes, reorders or edits an error while the job is stored.", "quantifier": "every interleaving, every job", "why_tests_cant": "needs all interleavings of concurrent array appends", "anchors": ["rexecutor-sqlx/src/lib.rs: _mark_job_retryable", "rexecutor-sqlx/src/lib.rs: _mark_job_discarded", "rexecutor-sqlx/src/lib.rs: _mark_job_cancelled"]}
{"id": "C64", "title": "Status and timestamps say what last happened (Postgres)", "statement": "In every history of the Postgres database the status of a stored job is given by the last event that concerns it (hand-out, complete, discard, cancel, retry, snooze, rerun), its completion, cancellation and discard times are those of the last such call since the last rerun, and its attempt time is that of its last hand-out.", "quantifier": "every interleaving, every job", "why_tests_cant": "status and four timestamps are written by eight statements; tests check one transition at a time", "anchors": ["rexecutor-sqlx/src/lib.rs: RexecutorPgBackend"]}
{"id": "C65", "title": "Finished jobs are not executed again by themselves (Postgres)", "statement": "Once a job was completed, cancelled or discarded on Postgres, no node is handed it again before someone retries, snoozes or reruns it; updates and replacements do not revive it.", "quantifier": "every interleaving of any number of nodes, every continuation", "why_tests_cant": "the absence of a hand-out in all continuations, with hand-out statements already under way when the job is finished", "anchors": ["rexecutor-sqlx/src/lib.rs: load_job_mark_as_executing_for_executor", "rexecutor-sqlx/src/backend.rs"]}
{"id": "C66", "title": "Job ids identify one job (Postgres)", "statement": "No two jobs are ever inserted into the Postgres table with the same id, not even after one was pruned, and every stored job's id is positive.", "quantifier": "every interleaving of plain and unique enqueues, prunes and rollbacks", "why_tests_cant": "ids are drawn before the transaction commits, so commits come in another order", "anchors": ["rexecutor-sqlx/migrations/20240330221437_add-job-table.up.sql", "rexecutor-sqlx/src/lib.rs: insert_job", "rexecutor-sqlx/src/lib.rs: insert_unique_job"]}
{"id": "C67", "title": "By-id calls on Postgres report unknown ids and leave other jobs alone", "statement": "A by-id call on Postgres waits only while another transaction has locked that row; it returns JobNotFound with the id exactly when no row has it, and then changes nothing; otherwise it succeeds and changes no other row, no id and no position.", "quantifier": "every reachable table, every by-id call", "why_tests_cant": "quantifies over all tables and all other transactions under way", "anchors": ["rexecutor-sqlx/src/backend.rs: handle_update", "rexecutor-sqlx/src/lib.rs"]}
{"id": "C70", "title": "Retries and snoozes are not executed early (Postgres)", "statement": "After a job is retried or snoozed until time t on Postgres, it is not handed out while the clock is at or before t - 100 ms (to the microsecond), in any continuation where the clock does not run backwards and the job is not retried, snoozed, rerun, updated or replaced.", "quantifier": "every interleaving, also with hand-out statements that began earlier", "why_tests_cant": "needs hand-out statements under way while the job is put back", "anchors": ["rexecutor-sqlx/src/lib.rs: load_job_mark_as_executing_for_executor", "rexecutor-sqlx/src/lib.rs: _mark_job_snoozed"]}
{"id": "C71", "title": "A unique enqueue that succeeds names a stored job (Postgres)", "statement": "When a unique enqueue on Postgres succeeds, the job whose id it returns is in the table, so that some job for the work exists.", "quantifier": "every interleaving of unique enqueues with prunes, hand-outs and other calls", "why_tests_cant": "a race between the check, another statement and the return", "anchors": ["rexecutor-sqlx/src/lib.rs: insert_unique_job", "rexecutor-sqlx/src/backend.rs: prune_jobs"]}
{"id": "C72", "title": "Replacement next to other calls (Postgres)", "statement": "When a unique enqueue on Postgres replaces fields of an existing job, it changes exactly the flagged fields of exactly that job, whatever runs at the same time, and the job has one of the statuses the replacement is for.", "quantifier": "every interleaving of unique enqueues, hand-outs, by-id calls and prunes", "why_tests_cant": "the row is read and updated by two statements; what happens in between cannot be enumerated by tests", "anchors": ["rexecutor-sqlx/src/lib.rs: insert_unique_job", "rexecutor/src/job/uniqueness_criteria.rs: Replace"]}
{"id": "C68", "title": "The retry budget holds under runners (Postgres)", "statement": "A job enqueued on Postgres with max_attempts n >= 1 and otherwise left alone is, over its whole life and across all nodes, executed with failure at most n times; it is stored as Discarded exactly when n failures have been recorded; and snoozed executions do not use up attempts. This holds whatever crashes, lost reports and failing connections happen.", "quantifier": "any number of nodes and runners, every schedule of hand-outs, executions, reports, crashes, shutdowns and statements of other clients about other jobs, every n", "why_tests_cant": "unbounded interleavings of several processes with one database, including crashes at every point", "anchors": ["rexecutor/src/job/runner.rs: handle_job_error", "rexecutor-sqlx/src/lib.rs: load_job_mark_as_executing_for_executor", "rexecutor-sqlx/src/lib.rs: _mark_job_retryable"]}
{"id": "C69", "title": "An executing job has an executor (Postgres)", "statement": "As long as no process ends, no connection fails and no runner panics, every job stored as Executing is being executed by some runner, or is on its way to one; in particular a graceful shutdown does not leave a job stored as Executing that nobody executes.", "quantifier": "any number of nodes, every schedule, including shutdown at any point", "why_tests_cant": "the shutdown must fall between a hand-out statement and its answer", "anchors": ["rexecutor/src/job/runner.rs: JobRunner::spawn", "rexecutor-sqlx/src/stream.rs: ReadyJobStream::next", "rexecutor/src/lib.rs: Rexecutor::graceful_shutdown"]}
{"id": "C73", "title": "Concurrency limits hold (Postgres)", "statement": "A runner on Postgres for an executor with MAX_CONCURRENCY = Some(k), k >= 1, never has more than k executions in flight, counting the one its stream is asking for.", "quantifier": "any number of runners, every schedule, every k >= 1", "why_tests_cant": "bound over all schedules", "anchors": ["rexecutor/src/job/runner.rs: JobRunner::spawn", "rexecutor/src/executor.rs: Executor::MAX_CONCURRENCY"]}
{"id": "C74", "title": "Jobs follow the documented lifecycle under runners (Postgres)", "statement": "A job on Postgres that other clients leave alone only moves along the documented lifecycle: inserted Scheduled; from Scheduled or Retryable to Executing; from Executing to Complete, Cancelled, Discarded or Retryable, or back to Scheduled when its first execution was snoozed.", "quantifier": "any number of nodes and runners, every step of every schedule", "why_tests_cant": "every pair of neighbouring states in unboundedly many schedules", "anchors": ["rexecutor/src/job.rs: JobStatus", "rexecutor/src/job/runner.rs", "rexecutor-sqlx/src/lib.rs"]}
{"id": "C75", "title": "Shutdown starts nothing new and leaves executions in flight alone (Postgres)", "statement": "Once a runner on Postgres is told to stop it sends no further hand-out statement and starts no further execution; its executions in flight end and are recorded exactly as without the stop.", "quantifier": "every schedule around the shutdown, any number of nodes", "why_tests_cant": "all interleavings of shutdown with hand-outs, completions and other nodes", "anchors": ["rexecutor/src/lib.rs: Rexecutor::graceful_shutdown", "rexecutor/src/job/runner.rs: JobRunner::spawn"]}
{"id": "C76", "title": "One execution at a time across all nodes (Postgres)", "statement": "As long as other clients leave a job alone, at most one execution of it is in flight on all nodes together; while there is one, no other stream holds the job, and it is stored as Executing.", "quantifier": "any number of nodes and runners, every schedule including crashes and shutdowns", "why_tests_cant": "races between hand-out statements of several nodes, and crashes at every point", "anchors": ["rexecutor-sqlx/src/lib.rs: load_job_mark_as_executing_for_executor", "rexecutor/src/job/runner.rs: JobRunner::spawn"]}
{"id": "C77", "title": "A backoff strategy is what its builder calls say", "statement": "After any chain of with_max, with_jitter, with_min and with_offset calls on any constructor, in any order, the strategy uses the constructor's numbers and the argument of the last call of each kind; by default there is no maximum, jitter or offset and the minimum is zero. The maximum bounds the delay before the offset and the jitter are added.", "quantifier": "every constructor, every chain of calls", "why_tests_cant": "all chains and orders of calls", "anchors": ["rexecutor/src/backoff.rs: BackoffStrategy::{constant,exponential,linear,polynomial,new,with_max,with_jitter,with_min,with_offset}"]}
{"id": "C78", "title": "Cancelling sticks (Postgres)", "statement": "On Postgres, a job cancelled before its first hand-out is never handed out unless it is retried, snoozed or rerun; and a cancelled job stays Cancelled until someone changes it by a call of their own, whatever runners do.", "quantifier": "every interleaving on any number of nodes, cancellation at any point", "why_tests_cant": "cancellation races with hand-outs and with the report of an execution in flight", "anchors": ["rexecutor/src/job/query.rs: cancel", "rexecutor-sqlx/src/lib.rs: mark_job_cancelled", "rexecutor-sqlx/src/lib.rs: load_job_mark_as_executing", "rexecutor/src/job/runner.rs: handle_job_result"]}
{"id": "C79", "title": "What a crash leaves behind (Postgres)", "statement": "If nothing is recorded for a handed-out job on Postgres (the process ended, the connection failed), the job stays stored as Executing exactly as it was handed out, and no node is handed it again until someone records a result, reruns, updates or prunes it.", "quantifier": "every history with any number of nodes after the hand-out, whatever else they do", "why_tests_cant": "a claim about everything that happens after a crash on any node", "anchors": ["rexecutor-sqlx/src/lib.rs: load_job_mark_as_executing", "rexecutor-sqlx/src/lib.rs: rerun_job"]}
{"id": "C80", "title": "max_attempts is never exceeded (Postgres)", "statement": "A job on Postgres is executed, by all nodes together, at most max_attempts times, not counting snoozed executions.", "quantifier": "any number of nodes, every schedule, every value of max_attempts, including 0 and later edits", "why_tests_cant": "bound over all histories; the edge cases are values no test uses", "anchors": ["rexecutor/src/job/runner.rs: handle_job_result", "rexecutor-sqlx/src/lib.rs: update_job", "rexecutor-sqlx/src/lib.rs: mark_job_retryable"]}
{"id": "C81", "title": "An executor receives exactly what was enqueued (Postgres)", "statement": "A job built and enqueued on Postgres, with or without uniqueness criteria, and then handed out for the first time is received by the executor with equal data and metadata, the enqueued tags, priority, max_attempts and schedule (to the microsecond), attempt 1 and no errors; metadata may be omitted.", "quantifier": "every builder, every serialisable data and metadata type, every history between insertion and hand-out", "why_tests_cant": "the insertion is the last of several steps of a call that races with others; all types and values", "anchors": ["rexecutor/src/job/builder.rs: JobBuilder::enqueue", "rexecutor-sqlx/src/lib.rs: insert_unique_job", "rexecutor-sqlx/src/lib.rs: load_job_mark_as_executing", "rexecutor/src/job.rs: TryFrom<backend::Job>"]}
{"id": "C82", "title": "Reading a job and writing it back changes nothing (Postgres)", "statement": "Reading a job through the typed API and passing it unchanged to update_job leaves the stored row as it was, in every state of the database.", "quantifier": "every reachable database state, every row, all lossless data and metadata types", "why_tests_cant": "every stored value and the truncation of times to microseconds", "anchors": ["rexecutor-sqlx/src/lib.rs: update_job", "rexecutor/src/job.rs: TryFrom<backend::Job>", "rexecutor/src/job/query.rs: update_job"]}
{"id": "C83", "title": "Shutdown stops cron runners and pruners", "statement": "When the cancellation token is cancelled, a cron runner enqueues at most one further job and a pruner starts at most one further run, and then they end; until then they do what they would have done without. If select! takes the token whenever it can, they do exactly what they would have done before the token was cancelled. The bound of one is for schedules with ticks at least a second apart and loops whose steps take at most 190 ms longer than they should.", "quantifier": "every schedule, every stop time, every pattern of delays and every choice of select!", "why_tests_cant": "races between the timer, the token and the body of the loop", "anchors": ["rexecutor/src/cron_runner.rs: spawn", "rexecutor/src/pruner/runner.rs: spawn", "rexecutor/src/lib.rs: graceful_shutdown"]}
{"id": "C84", "title": "A due job is not overtaken for ever in memory", "statement": "Take a waiting job of the in-memory backend that is due. As long as nobody else touches it, no waiting jobs are pruned and no job is put in the queue in front of it (earlier scheduled time, or the same time and no higher priority number), the number of times streams of its executor can ask for work without getting it is at most the number of waiting jobs that were in front of it; after that the job is handed out, and a runner that can decode it executes it.", "quantifier": "every reachable state, every set of runners, every interleaving of streams, enqueues and other calls, any number of jobs in front", "why_tests_cant": "a test can show one queue draining; that no interleaving makes streams pass over a due job is a statement about all schedules", "anchors": ["rexecutor/src/backend/memory.rs:159-181", "rexecutor/src/job/runner.rs:44-60"]}
{"id": "C85", "title": "A due job is not overtaken for ever on Postgres", "statement": "Take a waiting row that is due. As long as nobody changes it other than by handing it out, nothing is queued in front of it (lower priority number, or the same and not later), and jobs of its executor are put back with a delay of at least 100 ms only, no more hand-outs for its executor can be committed than there were rows in front of it and hand-outs under way, unless some session has locked the row to take it. If no transaction is given up, the row is then handed out; and if moreover everything goes smoothly in the processes (none ends, no stream is stopped while it waits), an execution of the job is started. SKIP LOCKED and stale snapshots never let younger rows go first for ever.", "quantifier": "every reachable state of the database, any number of nodes and sessions, every interleaving of their statements, every choice of the database among ties", "why_tests_cant": "needs all interleavings of concurrent hand-outs with stale snapshots, row locks and put-backs", "anchors": ["rexecutor-sqlx/src/lib.rs:115-157"]}
{"id": "C86", "title": "One job cannot stop its executor", "statement": "Whatever a job contains and however its execution ends, and whatever other runners do, the runner of an executor keeps taking due jobs until shutdown. (False: a snooze or retry beyond chrono's range, or a panic in timeout, backoff or decoding, ends the runner for good. Undecodable jobs, errors, panics and timeouts of bodies, backend answers and crashes of other runners do not.)", "quantifier": "every history of any number of runners in memory, every job and every way executions end", "why_tests_cant": "a poisoned job among others, in any interleaving", "anchors": ["rexecutor/src/job/runner.rs:43-73", "rexecutor/src/job/runner.rs:180-268"]}
{"id": "C87", "title": "One job cannot stop its executor (Postgres)", "statement": "The same on Postgres: a runner whose process goes on keeps sending hand-out statements until it is told to stop, whatever rows it receives, however executions end, whatever connections fail and whatever other nodes do. (False for the same two reasons as C86.)", "quantifier": "every history of any number of runners and sessions on one database", "why_tests_cant": "a poisoned job or a failing connection among others, in any interleaving", "anchors": ["rexecutor/src/job/runner.rs:43-73", "rexecutor-sqlx/src/stream.rs:18-48"]}
{"id": "C88", "title": "Uniqueness criteria and replacements are what their builder calls say", "statement": "After any chain of builder calls, criteria look at the executor exactly if some call said so, and have the key, duration, statuses and resolution of the last call giving one (statuses default to Scheduled, the resolution to do-nothing); a replacement covers exactly the fields named by some call, for the statuses of the last for_statuses (default Scheduled).", "quantifier": "every constructor and every chain of calls, in any order and with repetitions", "why_tests_cant": "all chains", "anchors": ["rexecutor/src/job/uniqueness_criteria.rs:214-474", "rexecutor/src/job/uniqueness_criteria.rs:476-738"]}
{"id": "C89", "title": "An executor is given its own jobs only", "statement": "Whatever other executors, nodes and clients do, a runner only receives jobs enqueued for its own executor, on both backends; on Postgres only jobs that a committed hand-out statement marked as executing.", "quantifier": "every history of any number of runners and clients, every set of executors", "why_tests_cant": "interleavings of streams of several executors and of statements under way", "anchors": ["rexecutor/src/job/runner.rs:43-61", "rexecutor-sqlx/src/stream.rs:18-48", "rexecutor-sqlx/src/lib.rs:115-157"]}
{"id": "C90", "title": "No call takes the in-memory backend down", "statement": "Whatever calls are made, with whatever arguments, the in-memory backend keeps working: later calls do what they would have done, and waiting jobs are still handed out.", "quantifier": "for every state of the backend, every interleaving of calls by any number of clients and streams, every clock", "why_tests_cant": "a call that breaks the backend for everybody else needs an unusual argument; tests use a fresh backend each and ordinary arguments", "anchors": ["rexecutor/src/backend/memory.rs:458-484", "rexecutor/src/backend/memory.rs:159-181"]}
{"id": "C91", "title": "The pruner keeps pruning", "statement": "Every turn of the pruner carries out every configured pruner, and after each turn there is another one until shutdown.", "quantifier": "for every pruner configuration, schedule, clock and delays, on both backends", "why_tests_cant": "which configurations stop the pruner for good only shows with unusual ages and after the first turn", "anchors": ["rexecutor/src/pruner/runner.rs:22-67", "rexecutor/src/backend/memory.rs:458-468", "rexecutor-sqlx/src/query.rs:29-43"]}
{"id": "C92", "title": "Calls that do not overlap behave as described one by one", "statement": "When the steps of backend calls are not interleaved with those of others, each call gives the answer and has the effect of its sequential description, whatever calls have been started before and left unfinished: in memory always, on Postgres as long as no open session holds a lock; and such calls leave no lock behind.", "quantifier": "for every earlier schedule (including calls left half done), every sequence of calls with their clock readings, and on Postgres every resolution of unspecified order and every hash function", "why_tests_cant": "The claim links two descriptions of every call (one atomic, one in steps) over all reachable states with half-done calls; tests run single calls on fresh backends and never leave another call suspended.", "anchors": ["rexecutor/src/backend/memory.rs:203-260", "rexecutor/src/backend/memory.rs:383-520", "rexecutor-sqlx/src/lib.rs:115-157", "rexecutor-sqlx/src/lib.rs:185-273", "rexecutor-sqlx/src/backend.rs:29-120"]}
{"id": "C93", "title": "Several clock readings in one call change little", "statement": "An in-memory hand-out, which reads the clock anew for every job it looks at, gives out only a job that is due at the latest reading, and passes over only jobs that sort later or were not due at the earliest reading; the same holds for the search of a unique enqueue. With a clock that does not move during the call everything is as with one reading.", "quantifier": "for every store, every job, every executor, and every sequence of clock readings between two bounds", "why_tests_cant": "A test's clock hardly moves during one call, and cannot be made to move between two chosen jobs.", "anchors": ["rexecutor/src/backend/memory.rs:159-181", "rexecutor/src/backend/memory.rs:203-241", "rexecutor/src/backend/memory.rs:272-318", "rexecutor/src/backend/queryable.rs:63-70"]}
{"id": "C94", "title": "Times out of range panic before anything is stored", "statement": "Building a job, a query or uniqueness criteria panics exactly if a time it computes is outside the range of the time type; then nothing has been stored, no lock is kept, and no other call is disturbed. Otherwise the result is the documented one.", "quantifier": "for every sequence of builder calls, every query time span, every unique enqueue, and every state of the database", "why_tests_cant": "The bounds are extreme values combined with the current time; tests use ordinary ones.", "anchors": ["rexecutor/src/job/builder.rs:262-267", "rexecutor/src/job/query.rs:272-279", "rexecutor-sqlx/src/unique.rs:51-56", "rexecutor-sqlx/src/lib.rs:185-199"]}
{"id": "C95", "title": "How an execution ended is always recorded", "statement": "When an execution has ended and its runner reports that, the job leaves Executing as documented, whatever the text of the error, of the cancellation or of the panic message is.", "quantifier": "for every history of any number of runners, every outcome, every error type and message", "why_tests_cant": "Tests use ordinary error messages; nobody tries every possible text, and the failure shows only in a later state of the table.", "anchors": ["rexecutor/src/job/runner.rs:163-314", "rexecutor-sqlx/src/lib.rs:300-395", "rexecutor-sqlx/src/backend.rs:63-111", "rexecutor/src/backend/memory.rs:389-457"]}
{"id": "C96", "title": "An execution with a timeout ends when its timeout passes", "statement": "An execution whose executor gives it a timeout ends when the timeout has passed, not earlier because of it, and otherwise as if there were no timeout. (False of bodies that compute for long without waiting, which is what BLOCKING executors are for: they are never interrupted. And the time spent waiting for a worker or a thread counts.)", "quantifier": "every body as a sequence of computing and waiting, every timeout, every moment at which the timer fires", "why_tests_cant": "needs all bodies and all timings of the timer against the polls", "anchors": ["rexecutor/src/job/runner.rs:76-106", "rexecutor/src/job/runner.rs:127-147", "rexecutor/src/executor.rs:276-282", "rexecutor/src/executor.rs:314-316"]}
{"id": "C97", "title": "An instance executes jobs of exactly the executors it was set up for", "statement": "If neither with_executor nor with_cron_executor was called for an executor, its jobs are not executed on this instance; each such call makes one runner for its executor.", "quantifier": "every sequence of set-up calls, every schedule, both backends, any number of other nodes", "why_tests_cant": "needs every sequence of calls and every schedule", "anchors": ["rexecutor/src/lib.rs:810-818", "rexecutor/src/lib.rs:851-908", "rexecutor/src/lib.rs:990-993"]}
{"id": "C98", "title": "MAX_CONCURRENCY limits an executor on an instance", "statement": "An instance never executes more than MAX_CONCURRENCY jobs of an executor at once, however the executor was enabled. (False: with_cron_executor spawns a runner in addition, so an executor that is enabled by n calls executes n times as many.)", "quantifier": "every sequence of set-up calls, every schedule, both backends", "why_tests_cant": "needs combinations of set-up calls and schedules in which all runners are busy", "anchors": ["rexecutor/src/executor.rs:274", "rexecutor/src/lib.rs:810-818", "rexecutor/src/lib.rs:892-908", "rexecutor/src/job/runner.rs:48"]}
{"id": "C99", "title": "After graceful shutdown the process can end", "statement": "When graceful_shutdown has returned, ending the process loses no execution: jobs being executed have had time to complete. (False: it only cancels a token and returns; there is nothing to wait for.)", "quantifier": "every schedule on Postgres, any number of nodes", "why_tests_cant": "needs a process that ends at every possible moment after the call", "anchors": ["rexecutor/src/lib.rs:995-1000", "rexecutor/src/lib.rs:1055-1058", "rexecutor/src/job/runner.rs:42-72"]}
{"id": "C100", "title": "A runner outlives failures of the in-memory backend", "statement": "When calls to the in-memory backend fail, the runners go on: no runner is lost, none polls its stream without ever waiting, and due jobs are executed in the end.", "quantifier": "for every state of the backend, every number of streams at any point of their loop, every interleaving with calls of clients, every clock", "why_tests_cant": "needs a panic inside the lock at a moment when a stream is between two steps of its loop, and all that can follow", "anchors": ["rexecutor/src/backend/memory.rs: ReadyJobStream::next", "rexecutor/src/backend/memory.rs: load_job_mark_as_executing_for_executor", "rexecutor/src/backend/memory.rs: prune_jobs", "rexecutor/src/job/runner.rs: spawn"]}
{"id": "C101", "title": "An executing job has an executor", "statement": "In memory, a job stored as Executing has somebody executing it, or about to record how its execution ended: no job is left Executing with nobody working on it, as long as no runner fails.", "quantifier": "every schedule of any number of runners and clients, including clients that enqueue unique jobs", "why_tests_cant": "the state is wrong only after a particular interleaving of a client's steps with those of a runner", "anchors": ["rexecutor/src/backend/memory.rs: enqueue_job", "rexecutor/src/backend/memory.rs: load_job_mark_as_executing_for_executor", "rexecutor/src/job/runner.rs: spawn"]}
{"id": "C102", "title": "An execution that succeeded is the last one", "statement": "When an execution ends with success, with a cancellation or with a failure at the last attempt, the job is never executed again as long as clients leave it alone: also if its outcome has not been recorded yet or never is, because the connection fails or the process ends.", "quantifier": "every history of any number of runners and clients, on both backends, every continuation", "why_tests_cant": "needs every failure at every moment between the end of an execution and the recording of its outcome", "anchors": ["rexecutor/src/job/runner.rs: handle_job_result", "rexecutor/src/backend/memory.rs: load_job_mark_as_executing_for_executor", "rexecutor-sqlx/src/lib.rs: load_job_mark_as_executing_for_executor"]}
{"id": "C103", "title": "One unreadable job does not hide the others", "statement": "query_jobs returns the jobs of the executor that satisfy the query and can be decoded, whatever other jobs are stored. (False: one job that is found and cannot be decoded, such as one enqueued without metadata, makes the whole query fail; on Postgres it may even belong to another executor.)", "quantifier": "every store or table, every executor, every query of any nesting, all data and metadata types", "why_tests_cant": "needs stored jobs the executor's types cannot read, among others that they can, and every query", "anchors": ["rexecutor/src/executor.rs: query_jobs_on_backend", "rexecutor-sqlx/src/backend.rs: query", "rexecutor/src/job/builder.rs: enqueue_to_backend"]}
{"id": "C104", "title": "The record of a job is its history", "statement": "Whatever calls were made, the record a stored job shows is exactly what happened to it: the executor, data, metadata, tags and priority some enqueue asked for, the time it was stored, max_attempts plus one per rerun, the schedule set by the last retry, snooze or rerun, the status its last event left, and the times of its last hand-out, completion, cancellation and discard, as long as nobody edited it.", "quantifier": "every history of calls on either backend, every stored job", "why_tests_cant": "The record depends on the whole sequence of calls; a test sees a few short ones.", "anchors": ["rexecutor/src/backend/memory.rs:250", "rexecutor/src/backend/memory.rs:281", "rexecutor/src/backend/memory.rs:320", "rexecutor-sqlx/src/lib.rs:119", "rexecutor-sqlx/src/lib.rs:275", "rexecutor-sqlx/src/lib.rs:420"]}
{"id": "C105", "title": "Executors do not get in each other's way", "statement": "What other executors do with their jobs makes no difference to an executor: if two histories agree on everything that is its business, and elsewhere do entirely different things at the same moments, then its stored jobs, what its streams are told, the jobs it is handed and the answers it gets are the same. This is for uniqueness criteria within the executor, updates that keep a job's executor, and length prunes that do not mix executors.", "quantifier": "every executor, every pair of histories of any number of clients, interleaved within calls in memory and call by call on Postgres", "why_tests_cant": "It compares two whole histories that differ arbitrarily; a test runs one.", "anchors": ["rexecutor/src/backend/memory.rs:159", "rexecutor/src/backend/memory.rs:183", "rexecutor/src/backend/memory.rs:229", "rexecutor/src/backend/memory.rs:458", "rexecutor/src/backend/queryable.rs:50", "rexecutor-sqlx/src/lib.rs:115", "rexecutor-sqlx/src/unique.rs:29", "rexecutor-sqlx/src/query.rs:12"]}
{"id": "C106", "title": "A job has one execution at a time", "statement": "At no moment are there two executions of the same job, whichever runners and clients there are. (False: rerunning a job while it is executed starts a second execution of it, on both backends. What holds: two executions of a job at once need a client that made the job wait while it was being executed.)", "quantifier": "every schedule of any number of runners and clients, every job, both backends", "why_tests_cant": "needs particular overlaps of executions with calls of clients, for all lengths of schedule", "anchors": ["rexecutor/src/backend/memory.rs:485", "rexecutor/src/backend/memory.rs:159", "rexecutor/src/job/runner.rs:126", "rexecutor-sqlx/src/lib.rs:119", "rexecutor-sqlx/src/lib.rs:419"]}
{"id": "C107", "title": "An executor manages its own jobs", "statement": "cancel_job, rerun_job and update_job of an executor change only jobs of this executor. (False: they act on whichever job has the id. What holds: called with an own job, and for update_job one that is still said to be its own, they change nothing of any other executor.)", "quantifier": "every store or table, every pair of executors, every such call, all data and metadata types", "why_tests_cant": "a statement about all ids and all stores, including ids the executor never saw", "anchors": ["rexecutor/src/executor.rs:341", "rexecutor/src/executor.rs:383", "rexecutor/src/executor.rs:500", "rexecutor/src/backend/memory.rs:485", "rexecutor/src/backend/memory.rs:496", "rexecutor-sqlx/src/lib.rs:436"]}
{"id": "C108", "title": "Rerunning is for jobs that are over", "statement": "rerun_job makes a complete, discarded or cancelled job due at once with one more attempt, and refuses a job that is still waiting or being executed. (False in the second half: a job of any status is accepted; one scheduled for next year runs now, one being executed waits again.)", "quantifier": "every store or table, every stored job of any status, every time", "why_tests_cant": "the documented cases pass; what is wrong is the set of statuses accepted", "anchors": ["rexecutor/src/executor.rs:383", "rexecutor/src/backend.rs:100", "rexecutor/src/backend/memory.rs:320", "rexecutor/src/backend/memory.rs:485", "rexecutor-sqlx/src/lib.rs:419"]}
{"id": "C109", "title": "A waiting stream returns a due job within a bounded number of steps", "statement": "Take an in-memory backend with any number of streams, and a waiting job that has been enqueued and is due. A stream of its executor that is asleep or about to look has, by the time it has made 3 n + 4 steps of its own (n jobs being ahead), seen to it that the job has been handed out, provided clients leave the job alone and put nothing in front of it; a message in its channel, or its timer, wakes it up in time.", "quantifier": "every reachable state of the backend and its streams, every interleaving with other streams and clients, any number of jobs ahead", "why_tests_cant": "liveness of the whole waiting loop: a lost wake-up or a stream that looks at the wrong job shows only in particular interleavings", "anchors": ["rexecutor/src/backend/memory.rs:44", "rexecutor/src/backend/memory.rs:144", "rexecutor/src/backend/memory.rs:159", "rexecutor/src/backend/memory.rs:183"]}
{"id": "C110", "title": "Pruning again changes nothing", "statement": "A prune that follows the same prune at the same moment removes nothing more; a length prune never does, at whatever time, as long as nothing was added. (False in memory for length prunes: every run removes another n jobs, so a pruner told to keep n jobs removes all of them.)", "quantifier": "every store or table, every specification, every tie-breaking choice of the database", "why_tests_cant": "a test prunes once; what matters is a pruner that runs for weeks", "anchors": ["rexecutor/src/backend/memory.rs:458", "rexecutor-sqlx/src/lib.rs:409", "rexecutor-sqlx/src/query.rs:12"]}
{"id": "C111", "title": "Calls about different jobs can be made in any order", "statement": "Recording results of executions, rerunning, cancelling and updating commute as long as they are about different jobs: in whatever order a set of such calls reaches the backend, each returns the same, and the stored jobs in the end are the same (in memory the streams get the same messages, perhaps in another order).", "quantifier": "every store or table, every finite set of calls about different jobs, existing or not, every permutation", "why_tests_cant": "needs every order of every set of calls; concurrent runners produce arbitrary ones", "anchors": ["rexecutor/src/backend/memory.rs:389", "rexecutor/src/backend/memory.rs:485", "rexecutor-sqlx/src/backend.rs:19", "rexecutor-sqlx/src/backend.rs:63"]}
{"id": "C112", "title": "A Postgres stream gets a due job handed out within a bounded number of polls", "statement": "Take a stream of a Postgres backend that is beginning a round, or asleep and either notified or asleep for at least 30 s when the counting begins; and a waiting, due row of its executor. Whatever notifications are late or lost and whatever other nodes do, by the time the stream has been polled 7 (n + m + 1) times (n rows ahead, m hand-outs under way at the start), the row has been handed out, provided nobody changes it otherwise or puts jobs in front of it, no statement fails, and no hand-out still under way holds its lock.", "quantifier": "every reachable state of the database, its listeners and streams; every interleaving with other nodes, clients, lost notifications and broken listeners; any number of rows ahead", "why_tests_cant": "liveness of the polling loop together with row locks, stale snapshots and lost notifications: holds or fails only over all interleavings", "anchors": ["rexecutor-sqlx/src/stream.rs:18-48", "rexecutor-sqlx/src/lib.rs:115-157"]}
{"id": "C113", "title": "Calls on Postgres do not wait for one another for ever", "statement": "Hand-outs lock rows, unique enqueues hold an advisory lock and then wait for a row. In every state in which some such call is under way, one of them can take its next step without waiting; and if no further calls of several steps are begun, then after giving each of the n calls under way a turn in 4 n rounds, in any order and whatever one-statement calls come in between, all of them are over and no call has to wait.", "quantifier": "every state of the database and its sessions, every order of turns, every choice among ties, any number of calls", "why_tests_cant": "deadlock freedom: a test that does not happen to interleave two transactions the wrong way round shows nothing", "anchors": ["rexecutor-sqlx/src/lib.rs:115-157", "rexecutor-sqlx/src/lib.rs:185-273"]}
{"id": "C114", "title": "Concurrent calls on the in-memory backend behave as if they took place one after another", "statement": "However the threads that use an in-memory backend interleave in taking and releasing the lock on the jobs and the one on the subscribers, the outcome is that of a schedule in which every call, and every step of an enqueue call, takes place at once: the same results, jobs, ids and notifications. It takes place between the beginning and the return of the call.", "quantifier": "every number of threads, every mix of calls, every interleaving of their lock operations, every clock", "why_tests_cant": "Tests run a handful of interleavings the scheduler happens to choose; a lost update or an inconsistent read between two lock operations shows up only in particular ones.", "anchors": ["rexecutor/src/backend/memory.rs:83-89", "rexecutor/src/backend/memory.rs:159-241", "rexecutor/src/backend/memory.rs:361-513"]}
{"id": "C115", "title": "The in-memory backend never deadlocks", "statement": "Whatever calls run at the same time on an in-memory backend, as long as one has not returned there is one that can go on without waiting for a lock; if all threads keep being scheduled, every call returns after a bounded number of turns and no lock is held any more.", "quantifier": "every number of threads, every mix of calls, every interleaving, every fair continuation", "why_tests_cant": "A deadlock between two locks needs a particular interleaving of particular calls, which a test has no way to force; absence of deadlock concerns all of them.", "anchors": ["rexecutor/src/backend/memory.rs:129-142", "rexecutor/src/backend/memory.rs:184-201", "rexecutor/src/backend/memory.rs:361-513"]}
{"id": "C116", "title": "What can be enqueued in memory can be enqueued on Postgres", "statement": "A job accepted by the in-memory backend is accepted by the Postgres backend and stored with the same executor, data, metadata and tags; likewise a call accepted in memory is accepted on Postgres.", "quantifier": "every job and every call, every text in its JSON values, tags, queries and pruner specifications, every state of the table", "why_tests_cant": "Which texts a database refuses is a property of all strings at all depths of a JSON value; tests use a handful of ordinary ones.", "anchors": ["rexecutor-sqlx/src/lib.rs:45-55", "rexecutor-sqlx/src/lib.rs:159-183", "rexecutor-sqlx/src/lib.rs:200-226", "rexecutor/src/backend/memory.rs:214-227"]}
{"id": "C117", "title": "Concurrent calls on Postgres behave as if they took place one after another", "statement": "Whatever calls overlap on the Postgres backend, their answers and the table left behind are those of the same calls made one after another in some order, in which a call that had returned before another began comes first.", "quantifier": "every reachable state without calls under way, every interleaving of the steps of any number of overlapping calls, every choice the database makes among equals", "why_tests_cant": "The anomalies need a statement to begin before and finish after other transactions; a test sees one interleaving, and the claim is about the existence of an order for each of them.", "anchors": ["rexecutor-sqlx/src/lib.rs:115-157", "rexecutor-sqlx/src/lib.rs:159-183", "rexecutor-sqlx/src/stream.rs:33-40"]}
{"id": "C118", "title": "A cron runner stores exactly one job for every tick it serves", "statement": "However the calls of a cron runner are delayed and overlap with other calls, once they have returned exactly one job of the executor has been stored for every tick the runner served, on both backends, provided nobody else enqueues jobs of that executor for the same ticks; on Postgres also provided that no call is cut off, ids are left, and no uniqueness hash in use equals the key of the cron job.", "quantifier": "every schedule of ticks, every pattern of delays of the loop, every interleaving with any other calls, any number of turns", "why_tests_cant": "A missing or doubled job shows only for particular delays or interleavings of the uniqueness check with other calls over many ticks.", "anchors": ["rexecutor/src/cron_runner.rs:44-92", "rexecutor/src/backend/memory.rs:214-241", "rexecutor-sqlx/src/lib.rs:185-273"]}
{"id": "C119", "title": "A job is carried to its end", "statement": "On both backends every enqueued job with at least one attempt is complete, cancelled or discarded (or pruned) from some moment on, whatever its executions do, provided that its executor keeps being asked for jobs, executions end and report, data can be decoded, the job is not snoozed for ever, no client tampers with it, from some moment on no job is put in front of it, and time goes on. On Postgres the connections must moreover keep working: statements are answered, and started calls are not dropped.", "quantifier": "every endless schedule of the whole system: any number of runners, jobs, clients, errors, retries, snoozes, prunes", "why_tests_cant": "It is a liveness property of infinite runs; a test sees only finite prefixes of a few of them.", "anchors": ["rexecutor/src/job/runner.rs:40-75", "rexecutor/src/job/runner.rs:163-268", "rexecutor/src/backend/memory.rs:159-196", "rexecutor/src/backend/memory.rs:389-458", "rexecutor-sqlx/src/lib.rs:115-157", "rexecutor-sqlx/src/stream.rs:33-41"]}
{"id": "C120", "title": "Clocks that are wrong shift executions by no more than their error", "statement": "Suppose no clock in use (that of the process, of each node, of the database) is ever off by more than d. The clocks may disagree, jump and run backwards within that margin. Then a job is never handed out more than d + 100 ms before the time it is scheduled for, and a job that a failed or snoozed execution put off by D is not handed out again, unless somebody puts it back by hand, before D - 2 d - 100 ms have really passed since that execution ended. Postgres adds 1 and 2 microseconds of rounding.", "quantifier": "for all clock errors, all real times, all runners, all schedules of calls, executions, reports and statements, both backends", "why_tests_cant": "tests run with one accurate clock; which of several clocks is compared with which, and how their errors add up over a retry, is a statement about all clock readings", "anchors": ["rexecutor/src/job/runner.rs:163-268", "rexecutor/src/backend/memory.rs:159-181", "rexecutor-sqlx/src/lib.rs:115-157", "rexecutor-sqlx/src/stream.rs:18-48"]}
{"id": "C121", "title": "A stream with nothing to hand out does not poll in a busy loop", "statement": "A stream that hands out no job and gets no message waits between two looks at the store: thirty seconds if there is no available job of its executor, until the job it found is due (thirty seconds at most) if there is one, and fifteen milliseconds if the job it found is overdue but could not be had. It sleeps for less only when what it found has been taken or put off meanwhile.", "quantifier": "for every state of the backend, every schedule of clients, streams, listeners and the database with a clock that does not run backwards, every number of streams", "why_tests_cant": "the wait depends on where in its loop a stream is when others take the job, lock the row or let time pass; a test sees one such interleaving and cannot tell a short wait from none", "anchors": ["rexecutor/src/backend/memory.rs:34-72", "rexecutor-sqlx/src/stream.rs:14-49", "rexecutor/src/job/runner.rs:44-75"]}
{"id": "C122", "title": "A due job is handed out on time", "statement": "If a job stream makes each of its steps within ε of the moment it first can (it is never starved of CPU or of the lock for longer than ε), then at most 15 ms + 6 ε after a waiting job of its executor is due – or after the moment the job is first seen waiting, if that is later – the stream has returned a job or the job waits no longer (another stream took it, or it was cancelled, edited or removed). On Postgres the bound is 15 ms + 10 ε after the later of the due time and the moment by which the node's listener has worked off the notifications in its inbox (δ each), as long as the listener keeps running; there the stream may also have returned an error, or another session may have locked the row. Sleeping on a timer computed from an older look never delays this, because whatever makes a job due earlier leaves a message that wakes the stream.", "quantifier": "for all numbers of streams, executors, jobs and clients, all interleavings, all histories before and after, all non-decreasing clocks, all ε ≥ 0 and δ ≥ 0, all due times and all delays chosen by the stream", "why_tests_cant": "A test with real timers shows one latency on an idle machine; the worst case over interleavings of enqueue, notification, look, delay computation and timer is never observed, and a lost wake-up would show up only as a rare 30 s delay.", "anchors": ["rexecutor/src/backend/memory.rs:34-72", "rexecutor/src/backend/memory.rs:360-381", "rexecutor-sqlx/src/stream.rs:14-49", "rexecutor-sqlx/src/lib.rs:67-104"]}
{"id": "C123", "title": "Unique within a period runs at most one job per period", "statement": "As the documentation promises for by_executor().and_within(300 s) (\"to ensure that only one unique job is ran every five minutes\"): if every enqueue for an executor uses uniqueness criteria by executor within d, then no two jobs of the executor begin to execute within d of each other. (With the criteria as documented this is false of the code: they look at Scheduled jobs only, so a job that has begun no longer counts. Looking at all statuses, jobs are scheduled at least d apart, and jobs that begin at most λ late begin more than d - λ - 100 ms apart.)", "quantifier": "for all periods d, all executors, all histories of enqueues, hand-outs, completions, cancellations and queries (on Postgres all interleavings of any number of nodes), all lateness λ", "why_tests_cant": "The documentation's own test enqueues twice while nothing executes the jobs; whether a job that has begun or finished still counts, and how close two executions can be, depends on the history.", "anchors": ["rexecutor/src/lib.rs:56-100", "rexecutor/src/job/uniqueness_criteria.rs:485-503", "rexecutor/src/backend/queryable.rs:48-75", "rexecutor-sqlx/src/unique.rs:40-60", "rexecutor-sqlx/src/lib.rs:185-273"]}
{"id": "C124", "title": "A runner begins a due job on time", "statement": "Runner and stream together: if a runner that has room makes every step of its stream within ε of the moment it first can, and is never without room for longer than D (its executions free a place in that time), then in memory it has begun with a waiting job of its executor at most 15 ms + 6 ε + D, and another 3 ε + D for every waiting job ahead of it, after the job is due (or after it is first seen waiting, if that is later) – if the job is left alone meanwhile and nothing is put in front of it. On Postgres, for a row that is due and that no other session has locked: at most 15 ms + 10 ε + D, and another 7 ε + D for every row ahead of it, every hand-out for its executor under way, and one more, after the listener of the runner's node (which takes at most δ for each notification and stays connected) has handled what it has received – unless another session has locked the row by then.", "quantifier": "for all numbers of runners, nodes, limits on concurrency, jobs and clients, all interleavings of clients, polls, steps of the streams, notifications, executions and reports, all non-decreasing clocks, all ε, δ, D ≥ 0", "why_tests_cant": "A test sees one latency with one limit on an idle machine. The worst case combines the timer chosen by the stream, wake-ups arriving while the stream is not polled because the limit is reached, and executions that end in any order.", "anchors": ["rexecutor/src/job/runner.rs:43-75", "rexecutor/src/backend/memory.rs:34-72", "rexecutor/src/backend/memory.rs:360-381", "rexecutor-sqlx/src/stream.rs:18-48", "rexecutor-sqlx/src/lib.rs:67-104"]}
{"id": "C125", "title": "How a runner waits for jobs makes no difference to what it does", "statement": "A runner waits on its job stream: it polls only while it has room, sleeps on timers, is woken by messages and stops when it notices a shutdown. To everybody else it is a runner that now and then asks the backend for a due job: every history of such runners – calls, jobs taken, ends of executions, reports, with their times – is a history of runners that ask directly, with the same jobs stored in the end. So it takes only due jobs of its own executor, keeps to its limit, and gives a job no more attempts than it has.", "quantifier": "for all numbers of runners, limits and clients, all schedules of polls, stream steps, executions, reports and calls, with and without a shutdown, backend paused or not; on Postgres also all nodes, notifications, lost answers and ends of processes", "why_tests_cant": "The claim compares all histories of one machine with all histories of another; a test runs one history of one of them.", "anchors": ["rexecutor/src/job/runner.rs:43-75", "rexecutor/src/backend/memory.rs:34-72", "rexecutor/src/backend/memory.rs:360-381"]}
{"id": "C126", "title": "A job is finished by a time that can be computed beforehand", "statement": "On the in-memory backend, let a runner be as prompt as in C124 (its stream makes each of its steps within ε of when it first can and the runner has room; the runner is never without room for longer than D). A waiting job of its executor with n attempts left, left alone by other clients, that never has more than N jobs ahead of it while it waits and nothing put in front of it, whose executions start and report within B, which is never put off by a retry or snooze for longer than Δ and is snoozed at most S times, is Complete, Cancelled or Discarded (or pruned) by (n + S) · (15 ms + 6ε + D + N(3ε + D) + B + Δ) after it was due, and stays so. On Postgres, with a runner on a listening node whose listener handles each notification within δ and never has more than I of them before it, with none of the runner's statements failing, with at most N rows ahead of the job and hand-outs under way together, with a row held by somebody else handed out within H, and with a report within B of every hand-out, the same holds by (n + S) · (Iδ + 15.001 ms + 10ε + D + (N + 1)(7ε + D) + H + B + Δ) after it was due.", "quantifier": "all runners and executors, histories with the executor's runner begun in them, numbers ε, D, B, Δ, N, S, schedules of runners, executions and other clients with their interleavings, and jobs", "why_tests_cant": "composes the bound of C124 over every attempt and every interleaving; tests run one schedule with real timers and cannot bound the time of all of them", "anchors": ["rexecutor/src/job/runner.rs:43-75", "rexecutor/src/backend/memory.rs:34-72", "rexecutor/src/backend/memory.rs:288-318"]}
{"id": "C127", "title": "Stored numbers fit their columns", "statement": "In every history with at most 2147418112 hand-outs, snoozes and reruns each, the id, attempt and max_attempts of every stored job fit an i32 / INTEGER and its priority fits a u16, on both backends, provided clients pass numbers of the types the interface has. On Postgres ids are positive as well. The bound on reruns is the best possible.", "quantifier": "for every interleaving of any number of enqueues, unique enqueues, hand-outs and other calls, and every stored job", "why_tests_cant": "the counters change in many places and drift over histories no test can be long enough for; the bound needs an invariant over enqueues in progress as well", "anchors": ["rexecutor/src/backend/memory.rs:214-227", "rexecutor/src/backend/memory.rs:281-330", "rexecutor-sqlx/src/lib.rs:115-157", "rexecutor-sqlx/src/lib.rs:320-336", "rexecutor-sqlx/src/lib.rs:419-435"]}
{"id": "C128", "title": "A finished job is kept as long as asked for, and then deleted", "statement": "With a pruner that deletes finished jobs of a given age: a finished job nobody touches again is still stored, unchanged, as long as it is younger than that (counted from its scheduled time), and it is gone at the latest one interval of the pruner's schedule and the delays of two turns of the pruner after it has reached that age (or after the pruner was started); once gone it never comes back.", "quantifier": "every schedule with a tick in every interval of some length, every pattern of delays up to a bound, every interleaving of any number of concurrent calls on either backend, every finished job", "why_tests_cant": "Retention is a promise about all interleavings and all times; it needs the pruner's loop, the prune statement and everything else clients do in between together, and a test waits for one deletion in one run.", "anchors": ["rexecutor/src/pruner/runner.rs: PrunerRunner::spawn", "rexecutor/src/backend/memory.rs: prune_jobs (MaxAge)", "rexecutor-sqlx/src/query.rs: ToQuery for PruneSpec", "rexecutor-sqlx/src/lib.rs: delete_from_spec"]}
{"id": "C129", "title": "An enqueued job is begun, and finished, by a time that can be computed beforehand", "statement": "What an enqueue call promises when it returns. In memory, with a runner as prompt as in C124: once a call has stored a job of the runner's executor and has returned – the notification is sent by the call, before or after the runner subscribed – and the job is left alone, nothing is put in front of it and there are never more than N jobs ahead of it, a runner has begun with it by 15 ms + 6 ε + D + N (3 ε + D) after it is due, or after the call returned if that is later. With the hypotheses of C126 it is over (Complete, Cancelled, Discarded or pruned) by (max_attempts + S) rounds after that time; the same holds on Postgres from the insert, because its trigger notifies the listening nodes.", "quantifier": "all runners and executors, every point of the history at which the call is made (for being begun: before or after the subscription), all interleavings of the steps of the call with those of the runners, streams and other clients, all numbers ε, D, N, B, Δ, S", "why_tests_cant": "The call and the stream run concurrently: a notification lost between the push and the subscription, or before the stream waits, delays the job without bound in one interleaving of very many.", "anchors": ["rexecutor/src/backend/memory.rs: enqueue", "rexecutor/src/backend/memory.rs:34-72", "rexecutor/src/job/runner.rs:43-75", "rexecutor-sqlx/src/lib.rs: enqueue", "rexecutor-sqlx/src/stream.rs:18-48"]}
{"id": "C130", "title": "The job of a cron tick is begun, and finished, soon after the tick", "statement": "Let the delays of a cron runner be bounded: R between looking at the schedule and reading the clock, O by which its sleep overshoots, E for the enqueue call, Q until it looks at the schedule again. The call for a tick has returned by O + E after the later of 10 ms before the tick and R after the runner looked at the schedule, and so by R + O + E after the tick; if ticks are more than R + O + E + Q apart, there is a call for every tick from the start up to the last one served. With a prompt runner for the executor (C124), the job of the tick is begun by R + O + E + 15 ms + 6 ε + D + N (3 ε + D) after the tick, and with the hypotheses of C126 it is over by R + O + E and (max_attempts + S) rounds after the tick, on either backend.", "quantifier": "every schedule, every pattern of delays within the bounds, all runners, all interleavings with other clients", "why_tests_cant": "It composes the cron loop, the enqueue call, the stream and the runner over every interleaving; a test waits for one tick of one schedule.", "anchors": ["rexecutor/src/cron_runner.rs:45-91", "rexecutor/src/job/runner.rs:43-75", "rexecutor/src/backend/memory.rs:34-72", "rexecutor-sqlx/src/stream.rs:18-48"]}
{"id": "C131", "title": "Migrations can be run again", "statement": "On a database with nothing of the backend's in it, run_migrations creates the job table with its type, indexes, function and both triggers, leaves everything else as it is and records that it has done so; run again it succeeds and changes nothing; and if it is cut short at any point – the program is killed, the connection lost – a later run succeeds with the same result. The script that undoes the migration leaves what there was before.", "quantifier": "every database without objects of those names, every sequence of runs, every statement after which each of them is cut short", "why_tests_cant": "A crash between two particular statements does not happen in a test, and what a second run then does depends on every statement before.", "anchors": ["rexecutor-sqlx/migrations/20240330221437_add-job-table.up.sql", "rexecutor-sqlx/migrations/20240330221437_add-job-table.down.sql", "rexecutor-sqlx/src/lib.rs:106-113"]}
{"id": "C132", "title": "The backend's migrations go with the application's own", "statement": "An application that keeps migrations of its own with sqlx in the same database can call run_migrations before or after running its own.", "quantifier": "every application with migrations of other versions, both orders", "why_tests_cant": "The tests of the backend run on a database with nothing else in it.", "anchors": ["rexecutor-sqlx/src/lib.rs:106-113"]}
{"id": "C133", "title": "Cron jobs when the clock is set", "statement": "A cron runner serves each tick once even if the clock of the machine is off by up to d and is set within that margin: no job is enqueued more than 10 ms + d before its tick, no tick is skipped if the runner is back more than d before the next one, and no tick is served twice.", "quantifier": "every schedule, every d, every error of the clock at every reading within d, every pattern of delays", "why_tests_cant": "Tests do not set the clock of the machine while a cron runner waits, and the outcome depends on where between two readings it is set.", "anchors": ["rexecutor/src/cron_runner.rs:39-75", "rexecutor/src/cron_runner.rs:76-91"]}
{"id": "C134", "title": "Without notifications a due job is handed out within half a minute", "statement": "If nobody tells the streams of new jobs - the in-memory backend is paused; on Postgres the listener task has ended, is reconnecting, or loses notifications - a waiting job is still handed out within about thirty seconds of its insertion or about fifteen milliseconds of when it is due, whichever is later: by that time its stream has returned a job or an error, or another session has locked the row, or the job is no longer waiting.", "quantifier": "every schedule of calls, streams, listeners and database sessions in which one stream of the executor makes each step within ε of when it first can and clocks do not run backwards, every ε, every job of the executor and every time at which it waits; nothing is assumed of notifications, of pausing, of listeners, nor that the enqueueing call has returned", "why_tests_cant": "It is the fallback timer that does it, and whether it covers every moment at which a notification can be missed - between looking and going to sleep, while a transaction is open, after the listener has died - is a question about all interleavings; a test waits for a job and nearly always sees it woken by a notification.", "anchors": ["rexecutor/src/backend/memory.rs:40-72", "rexecutor-sqlx/src/stream.rs:14-48"]}
{"id": "C135", "title": "However clocks are set, a due job waits half a minute at most", "statement": "Clocks may be set forwards or backwards at any time, run fast or slow, and on Postgres the clocks of the nodes and of the database may disagree. If a job waits, and from some moment on every clock that is read shows at least the time the job is scheduled for, then within thirty seconds of real time (and a few scheduling delays) of that moment its stream has returned a job or an error, or another session has locked the row, or the job is no longer waiting. Notifications are not needed for this.", "quantifier": "every schedule of calls, streams, listeners and database sessions in real time with an arbitrary reading of the clock at every action, in which one stream of the executor makes each step within ε of when it first can; every ε, every job, every moment from which on the readings are past its time", "why_tests_cant": "Tests run with one clock that is right. What a stream does when the clock jumps between looking at the store, reading the clock, asking for a job and going to sleep depends on which of the two sources of time each step uses.", "anchors": ["rexecutor/src/backend/memory.rs:40-72", "rexecutor-sqlx/src/stream.rs:14-48", "rexecutor-sqlx/src/lib.rs:115-160"]}
{"id": "C136", "title": "Notifications do not pile up behind a busy executor", "statement": "While an executor is busy and its stream is not polled, what waits in the channel of its stream stays within a bound that does not depend on how many jobs are put in or written; and each message waiting costs the stream at most one look at the store.", "quantifier": "for every number of messages, every state of the backend, every schedule of clients, streams, listeners and the database", "why_tests_cant": "memory use and look counts depend on how many writes happen while nobody polls; a test makes a few and cannot see that there is no bound", "anchors": ["rexecutor/src/backend/memory.rs:34-72", "rexecutor/src/backend/memory.rs:183-201", "rexecutor/src/backend/memory.rs:360-381", "rexecutor-sqlx/src/backend.rs:31-54", "rexecutor-sqlx/src/lib.rs:79-100"]}
{"id": "C137", "title": "However clocks are set, no job is handed out early or twice", "statement": "Whatever the clocks show, forwards or backwards, and however that differs from the time the timers count: a stream hands out only waiting jobs of its executor that are due, to a tenth of a second, by the clock asked during the hand-out; between two hand-outs of a job some call has put it back; and all calls do exactly what they do in a schedule of calls at the times shown.", "quantifier": "for every schedule of clients, streams, nodes and the database with an arbitrary clock reading at every step, both backends, every number of streams; in memory as long as no more than 2^32 ids are taken", "why_tests_cant": "needs clocks that jump between any two steps of concurrent streams", "anchors": ["rexecutor/src/backend/memory.rs:34-72", "rexecutor/src/backend/memory.rs:144-181", "rexecutor-sqlx/src/stream.rs:18-48", "rexecutor-sqlx/src/lib.rs:115-157"]}
{"id": "C138", "title": "Without notifications a runner begins a due job within half a minute", "statement": "Runner and stream together, and nobody tells them of new jobs - the in-memory backend is paused; on Postgres the listener task of the node has ended, is reconnecting, or loses notifications: if a runner that has room makes every step of its stream within ε of the moment it first can, and is never without room for longer than D, it has still begun with a waiting job of its executor about half a minute after the job is first seen waiting, or when it is due, if that is later: at most 15 ms + 6 ε + D, and another 3 ε + D for every waiting job ahead of it, after that time (30 s + 2 ε after the job was first seen, or its due time); on Postgres, for a row that is due and that no other session has locked, at most 30.015 s + 12 ε + D, and another 7 ε + D for every row ahead of it, every hand-out for its executor under way, and one more - unless another session has locked the row by then. The job is left alone meanwhile and nothing is put in front of it.", "quantifier": "for all numbers of runners, nodes, limits on concurrency, jobs and clients, all interleavings of clients, polls, steps of the streams, listeners that fail, reconnect or say nothing, executions and reports, all non-decreasing clocks, all ε, D ≥ 0; nothing is assumed of notifications or of pausing, nor that the enqueueing call has returned", "why_tests_cant": "A lost notification and a full runner at the same time do not happen in a test by accident, and a test that waits half a minute per case cannot try the interleavings of the timer with executions that end in any order.", "anchors": ["rexecutor/src/job/runner.rs:43-75", "rexecutor/src/backend/memory.rs:34-72", "rexecutor-sqlx/src/stream.rs:14-48"]}
{"id": "C139", "title": "A stream or runner that is polled is never stuck", "statement": "Whatever clients, listeners and other streams have done - the in-memory backend may be paused, on Postgres the listener task may have ended - a stream can always make its next step by the moment it is awaited, and go on making each of its steps within ε of when it first can, for as long as one likes, with nobody else doing anything, whichever branch of select! is taken: it never waits for something that need not happen. So, if a job of its executor waits, such a stream left to itself returns a job by 30.015 s + 8 ε after, or by 15 ms + 6 ε after the job is due, if that is later (on Postgres, with four more ε: it returns a job or an error, or has handed out the row, or another session has the row locked). A runner that still takes jobs, on either backend, can likewise always go on - polling, stepping, and, when it is at its limit, letting an execution end and report (on Postgres the report may fail if another session has the row locked) - unless the runner itself panics over a job. Left to itself with a waiting job and with executions of other jobs that go well, it begins with the job in the time C138 gives - on Postgres, if no other session has the row locked, unless its stream returns an error.", "quantifier": "for all histories of clients, streams, listeners and executions before in which the stream (or runner) was prompt, all non-decreasing clocks, all ε > 0, D ≥ 0, all times T to be reached, both branches of select!, all executors, limits and numbers of runners", "why_tests_cant": "The claim is that from every reachable state there is a way on; a test only ever looks at the way that was taken. It is also what makes the time limits of C122, C124, C134 and C138 mean something: were a stream ever stuck, no prompt schedule would reach the limit.", "anchors": ["rexecutor/src/job/runner.rs:43-75", "rexecutor/src/backend/memory.rs:34-72", "rexecutor-sqlx/src/stream.rs:14-48"]}
{"id": "C140", "title": "A finished job is kept for the given age after it finished", "statement": "With `Pruner::max_age(age, status)` a job of that status can still be looked up until `age` after the moment it completed, was cancelled or was discarded, if nobody touches it. (False of the code on both backends: the age is counted from the time the job was scheduled for. A job begun late, or executed for long, is deleted that much earlier, and at once if it finished `age` or more after its time.)", "quantifier": "all histories before and after the job finishes, all ages, all prunes in between, clocks off by at most some d", "why_tests_cant": "a test prunes jobs that finish when they are due; what remains of the age after a late finish, for all histories and clocks, takes following the job through everything that happens", "anchors": ["rexecutor/src/pruner.rs:226-232", "rexecutor/src/pruner.rs:277-283", "rexecutor/src/backend/memory.rs:458-470", "rexecutor-sqlx/src/query.rs:29-42"]}
{"id": "C141", "title": "Unique enqueues do the same on both backends", "statement": "Starting from equal stores, an enqueue with uniqueness criteria gives the same result and equal stores on the in-memory and the Postgres backend, alone or in a history with the calls of C50. (False of the code: keys, windows around a time to come, several duplicates and empty replacements are handled differently. It holds for criteria without a key when no stored job in their statuses has one, the windows around now and around the scheduled time hold the same jobs, at most one job is a duplicate, and a replacement replaces something.)", "quantifier": "every pair of equal stores, every job and criteria, every history of calls, every hash function and every order the database may return rows in", "why_tests_cant": "tests run each backend by itself on a few stores; the claim is about the pair, for all stores and histories", "anchors": ["rexecutor/src/backend/memory.rs:229-241", "rexecutor/src/backend/memory.rs:331-355", "rexecutor-sqlx/src/lib.rs:185-273", "rexecutor-sqlx/src/unique.rs:19-65"]}
{"id": "C142", "title": "Queries, updates and prunes do the same on both backends", "statement": "Starting from equal stores, the same query gives the same answer, and the same update or prune leaves equal stores, on the in-memory and the Postgres backend, alone or in a history with the calls of C50 and C141. (False of the code: the order of an answer, queries that need parentheses, updates of a status or of times, prunes of waiting jobs by age and prunes by number are handled differently. Queries that are disjunctions of conjunctions find the same jobs, updates of the six fields Postgres writes agree, and prunes agree exactly if no selected job lies on the wrong side of now or on the edge, or if twice as many jobs are selected as are to be kept, the first half due first.)", "quantifier": "every pair of equal stores, every query, update and prune specification, every history of calls and every order the database may return rows in", "why_tests_cant": "Tests of one backend say nothing about the other; whether the backends agree depends on the contents of the whole store and on how the calls are combined.", "anchors": ["rexecutor/src/backend/memory.rs:458-513", "rexecutor-sqlx/src/backend.rs:91-120", "rexecutor-sqlx/src/query.rs:12-165", "rexecutor/src/backend/queryable.rs:14-48"]}
{"id": "C143", "title": "A stream of more urgent jobs does not keep an older job waiting for ever", "statement": "A due job is handed out after at most as many hand-outs as there were waiting jobs in front of it, however many jobs are enqueued meanwhile for later than it, with whatever priority. (True in memory, where the scheduled time comes before the priority. False on Postgres, where the priority comes first: if a more urgent job is enqueued before each request, a less urgent one is never handed out, however long this goes on.)", "quantifier": "every reachable store, every waiting job, every history of enqueues, retries, snoozes, reruns and updates of any length; on Postgres every table, every job that is not of the highest priority and every sequence of times", "why_tests_cant": "A test enqueues a few jobs and ends; that a job is never overtaken, or never reached, is a statement about histories of any length.", "anchors": ["rexecutor/src/backend/memory.rs:159-181", "rexecutor-sqlx/src/lib.rs:115-140"]}
{"id": "C144", "title": "A pruner by number keeps the number of stored jobs bounded", "statement": "With a pruner that is to keep n jobs of a status, at most n selected jobs are stored after each run, and until the next run at most as many more as jobs reach the status meanwhile, whatever else happens. (True on Postgres. False in memory: each run removes n jobs, however many there are. If k jobs come in between two runs, the number of stored jobs changes by k - n each time, so for every n it exceeds every bound if n + 1 jobs come in each time.)", "quantifier": "every limit, every specification, on Postgres every interleaving of calls before and after the prune, in memory every store and every number of rounds", "why_tests_cant": "A test prunes once and counts; that the number stays bounded is a statement about pruning again and again next to everything else that happens to jobs.", "anchors": ["rexecutor/src/backend/memory.rs:458-484", "rexecutor-sqlx/src/query.rs:12-59", "rexecutor-sqlx/src/lib.rs:409-417"]}
{"id": "C145", "title": "A stored job stays until a prune of its status removes it", "statement": "Whatever is called, on either backend and in any interleaving: a job that is stored is still stored under its id afterwards, unless one of the calls was a prune that selects the job as it was just then, by status and executor, and removed it. On Postgres it also keeps its executor and its time of insertion. Runners remove nothing, however executions end and whether runners panic, are stopped or killed: the prune is one that somebody else made.", "quantifier": "every interleaving of calls, from every state in memory and every reachable state on Postgres, every job", "why_tests_cant": "A test can see that one call keeps one job; that no sequence of calls, sessions and aborts loses a job needs an induction over all of them.", "anchors": ["rexecutor/src/backend/memory.rs:458-484", "rexecutor/src/backend/memory.rs:159-517", "rexecutor-sqlx/src/query.rs:12-59", "rexecutor-sqlx/src/lib.rs:115-461"]}
{"id": "C146", "title": "An enqueued job is unknown to a later call only if it was pruned", "statement": "If a job was inserted with an id and a later call naming that id (complete, retry, discard, cancel, snooze, rerun, update) is refused as `JobNotFound`, then between the two a prune selected the job with that id, by its status and executor just then, and removed it. The same holds for an id that an enqueue returned, also of a unique enqueue that returns the id of an older job: the prune was then after the enqueue began.", "quantifier": "every interleaving of calls and sessions before, between and after, on both backends, every by-id call", "why_tests_cant": "A test can provoke `JobNotFound` with an id never given out; that it never comes for an id given out, unless pruned, is about all histories.", "anchors": ["rexecutor/src/backend/memory.rs:214-227", "rexecutor/src/backend/memory.rs:389-506", "rexecutor-sqlx/src/backend.rs:19-26", "rexecutor-sqlx/src/backend.rs:63-111", "rexecutor-sqlx/src/query.rs:12-59"]}
{"id": "C147", "title": "An enqueue that fails leaves the stored jobs as they were", "statement": "If an enqueue in memory returns an error, none of its steps has added, changed or removed a stored job, so that it can be tried again; also when the lock of the backend is poisoned at any moment. The same holds on Postgres for a unique enqueue that fails by an error of the database or because its connection fails before the commit.", "quantifier": "every interleaving of calls with every step of the failing one, from every state", "why_tests_cant": "An enqueue has several steps that take locks or statements one by one; tests do not reach failures between them.", "anchors": ["rexecutor/src/backend/memory.rs:203-242", "rexecutor/src/backend/memory.rs:496-506", "rexecutor-sqlx/src/lib.rs:185-273"]}
