# Formal model of rexecutor

The subject is the Rust job-processing library in `/repo` (crates `rexecutor` and
`rexecutor-sqlx`). This directory holds a Lean 4 model of that code, written
function by function, and proofs about it. `properties.jsonl` lists the claims,
`MANIFEST.json` says which theorem settles which claim.

## Trusted base

* Lean 4.33.0's kernel. No `sorry`, no axioms of our own, no `native_decide`,
  no `bv_decide`. Property theorems depend on at most `propext`,
  `Classical.choice` and `Quot.sound` (listed per theorem at the end).
* The correspondence between the Lean definitions and the Rust text, which is
  by reading. Each definition cites the file and lines it models.
* The behaviour assumed for the libraries underneath: `std::sync::RwLock`,
  tokio channels/timers/`select!`, `futures` streams, chrono, serde, the `cron`
  crate, sqlx, PostgreSQL. The assumptions are stated where they are used.

## Conventions of the model

* Time is an integer number of nanoseconds. Every function that calls
  `Utc::now()` takes the clock reading as an argument. Theorems quantify over
  all readings; those that need a monotone clock say so. Overflow of
  `DateTime` arithmetic (years beyond ±262000) is modelled where a panic has
  consequences beyond the caller (the runner, `prune_jobs`); for callers
  (`schedule_in`, `Where` constructors, `within` on Postgres) separately, in `Ranges`.
  A call that reads the clock several times gets one reading, except in `Clocks`, which
  bounds the difference that makes (C93).
* A lock-protected section is one atomic step; C114 derives this from a model in which
  threads take and release the locks one by one (`Locks`). Calls that take a lock more than
  once (`insert_new_job`, `insert_unique_job`) are also modelled as several
  steps that other calls can interleave with. Lock poisoning (a panic while
  holding a lock) is modelled in `Poison`; the other files assume a healthy lock,
  which `C90_goes_on_partial` justifies.
* `i32` counters on jobs are unbounded integers in the state; the casts that
  matter (`as u16`, `try_into::<u16>().unwrap()`, the wrapping id counter) are
  modelled exactly. 2^31 executions of one job are not modelled.
* JSON values are an inductive type; serde implementations of user types are a
  pair of functions, with losslessness as a hypothesis where needed.
* Panics and errors are explicit values.
* Postgres is modelled at the level of statements: a table is a list of rows;
  an unspecified choice (ties in `ORDER BY`, `LIMIT 1` without order, which
  rows are locked by others) is an argument quantified over.

## Layout

* `lean/Verif/Model/*` – the model, one file per source file or concern.
* `lean/Verif/Spec/*` – small independent specifications used in statements.
* `lean/Verif/Lemmas/*` – helper lemmas.
* `lean/Verif/Props/*` – the property theorems and, beside each, an `example`
  showing a concrete non-trivial case.
* `lean/Verif/Tests/*` – the project's own backend test suite (run on the model of
  both backends), unit tests and documented examples. They test the model against
  behaviour the code is known to have; they are not proofs of properties.

## Plan per property

| id | modelled | how proved |
|----|----------|-----------|
| C01 | enqueue split into allocate / push / notify steps, any number of pending calls, i32 wrap | invariant by induction over the schedule: ids handed out so far are the wrapped numbers below the counter |
| C02, C03 | all by-id calls on the store | case analysis + list lemmas, for every store with the reachable invariant "ids distinct" |
| C04, C05 | filter + stable sort + first | characterisation of the head of a stable sort |
| C06 | trace of calls with results | induction over the history: status stays away from available unless a putting-back call occurs |
| C07, C10, C14 | store under all calls | history variables computed by a separate fold over the trace; invariant by induction |
| C08, C55 | store + runner + in-flight tasks | invariant relating failures, snoozes and attempt; negation witness for C55 |
| C09, C12, C29, C51 | continuation of a history | induction over the continuation; negation witness for the second half of C51 |
| C11 | runner decision code | case analysis against an independent outcome table |
| C13 | rerun + decode | calculation, with the 16-bit boundary as a witness |
| C15–C17 | prune | list induction; C16/C17 as stated are false for the code: negations by witness, `_partial` theorems say what holds |
| C18, C19 | recursive query evaluator, Where builders | structural induction against a denotational `Prop` semantics |
| C20–C22 | unique enqueue, sequential | case analysis; invariant by induction for the "never two" part |
| C23, C24 | unique enqueue split in read/write steps | false for the code: negation by an explicit schedule; partial theorems for schedules that do not interleave inside one call |
| C25, C26 | matching of criteria; cron enqueue | false: negation by witness; partial theorems |
| C27, C28 | runner pool as a transition system | invariant by induction over schedules; C28 is false while a poll is under way, at most one more job per runner (`Live`) |
| C30, C31 | stream state machine with timers and channel | invariant by induction over schedules |
| C32–C34 | chrono `TimeDelta` with its range, i64/i32 arithmetic with overflow, `f64` products with their rounding | calculation/induction; C34 false: witnesses plus partial |
| C77 | backoff builder as a fold over calls | induction over the call list against a "last call wins" specification |
| C35 | builder as a fold over calls | induction over the call list against a "last call wins" specification |
| C36, C37 | encode/decode | round trip; C36 false for omitted metadata: witness plus partial |
| C38 | status transition relation | case analysis over steps of reachable states |
| C39 | once cell | induction over call sequences |
| C40 | cron loop over abstract schedule and clock readings | induction over loop iterations |
| C41 | pruner configuration and run | induction |
| C42 | macro expansion | calculation; false for n = 1: witness plus partial |
| C43, C44 | SQL text as tokens, PostgreSQL precedence as a parser | structural induction for the safe fragment; negations by witness |
| C45–C47, C52 | SQL statements as table functions | list lemmas |
| C46, C48 | transactions split into steps with row/advisory locks | invariant by induction over schedules |
| C49 | unique insert then lookup | false: negation for every non-colliding hash; partial |
| C50 | both backends | simulation, induction over histories |
| C53 | error encode/decode | round trip; witness for reserved names; partial |
| C54 | trigger, notifications in commit order, listener, channels | exact list of messages by induction over schedules |
| C55 | (with C08) | negation witnesses for 0, for a lowered limit and for a rerun during an execution; `_partial` otherwise, with the edits of other clients restricted to those that respect the attempts (`EditOk`) |
| C56 | criteria builders | calculation on the matching functions; negation for `and_key` in memory |
| C57 | pruner run with overlapping calls | negation by a schedule; partial for few pruners |
| C58 | executor-scoped query rendered as SQL | negation by witness; partial for conjunctive queries |
| C59 | unique insert as one transaction running alone | case analysis |
| C60 | database, nodes, listeners, streams and timers as one transition system | invariant by induction over schedules |
| C61 | the same | negation by a schedule; partial when every payload can be parsed |
| C62–C67, C70 | database with any number of sessions (`PgConc`) | every step changes the table in one of five ways; induction over histories, rows against the events about them |
| C71, C72 | database with any number of sessions (`PgConc`) | following one unique enqueue by its index from its check on; both claims are false of the code in one part, shown by schedules |
| C68, C74, C76 | runners on the database (`PgSys`) | the database part of every history is a history of `PgConc`; whoever has a job, as a carrier (stream or execution); one carrier per job, and its row is executing; counters of the row against the counts in the history |
| C69 | runners on the database (`PgSys`) | false: shutdown while a hand-out statement is under way; it stays stranded; partial for histories without that |
| C73 | runners on the database (`PgSys`) | invariant on each runner |
| C75 | runners on the database (`PgSys`, `PgLive`) | invariant of a stopped runner; simulation with and without the stop; false while a poll is under way, at most one more job per runner (`PgLive`) |
| C78, C80 | runners on the database (`PgSys`) | negation witnesses as for C51 and C55; `_partial` by induction over the continuation and by counting executions against hand-outs |
| C79 | database with any number of sessions (`PgConc`); runners on it (`PgSys`) | induction over the continuation of a history |
| C83 | cron and pruner loops with a cancellation token | induction over the turns; that the bound on the lags is needed, by a loop whose enqueues take a second |
| C84 | in-memory backend and runners, any schedule | list of jobs in front only shrinks; induction over the continuation, counting requests |
| C85 | database with any number of sessions (`PgConc`); runners on it (`PgSys`) | the same count with each statement judged by its own snapshot; monotone clock; a lock is followed by the hand-out unless given up; the hand-out stays with its stream until taken |
| C86, C87 | runners in memory and on the database | invariant "takes jobs, or there is a cause in the history", and that each cause stops the runner for good; negation by a job that snoozes beyond the range of time |
| C88 | criteria and replacement builders as folds over calls | induction over the call list against a "last call wins" specification |
| C89 | runners in memory and on the database | case analysis; invariant on the session each stream waits for |
| C90, C91 | the lock of the in-memory backend with poisoning, the pruner's loop with panics | simulation of the model without poisoning; induction over what follows a poisoning |
| C100 | the streams of the in-memory backend with a lock that may be poisoned | simulation of the streams without poisoning; induction over what follows a poisoning; witness |
| C101 | runners in memory | false: a stale write-back by a unique enqueue; it stays stranded; partial: invariant "executing means in flight" for histories without that |
| C102 | runners in memory and on the database | after such an end the job is executing and carried by that execution only, or finished, or gone; induction over the continuation |
| C103 | typed queries in memory and on Postgres | false: one unreadable job; exact condition from C19, C43 and C58 |
| C104 | histories on both backends | life_induction in memory; induction from the inserting event on Postgres; sessions trace back to the enqueue action |
| C105 | two runs side by side, on both backends | a relation between the two states (own jobs, own channels, own calls under way), preserved by every pair of steps |
| C106 | runner systems on both backends | invariant: without a requeue in flight at most one execution holds the job, and then it does not wait |
| C107 | job calls of an executor, both backends | the changed job is the named one; filtering the others commutes with the change |
| C108 | one rerun, both backends | computed from the by-id update |
| C109 | in-memory streams next to clients (`Streams`) | a measure that every step of the stream makes smaller: three times the number of jobs ahead plus the steps left in the stream's round; C30 for the wake-up |
| C110 | repeated prunes, both backends | from C15, C16, C17 and C47; false in memory by length: everything goes |
| C111 | permutations of calls by id, both backends | induction over the permutation; two by-id updates commute |
| C112 | Postgres nodes, listeners and streams (`PgNet`) | a measure: steps left in the stream's round, seven more for each hand-out committed for the executor; then C85 on the schedule of the database, and the lock is resolved |
| C113 | sessions of the Postgres backend (`PgConc`), any state | lock order: a session with a row lock never waits, one with the advisory lock waits for row locks only; the sum of the steps left falls in every round |
| C114 | threads that take and release the two locks of the in-memory backend (`Fine`) | simulation by the atomic model: a call takes effect when it changes the jobs, or when it sends the notification if it sends one; whoever owes a notification holds the jobs for writing; mutual exclusion as an invariant of what every thread holds |
| C115 | the same | lock order: whoever holds the subscribers never waits, whoever holds the jobs waits for the subscribers only; the sum of the steps left falls in every round |
| C116 | statements refused because of U+0000 | false: witness; the check agrees with the set of all texts of the call, by induction on JSON values and queries; hand-outs and duplicate searches by the name of the executor |
| C117 | overlapping calls, as made one after another | false: witnesses; for hand-outs next to reports, late enqueues and pruning: a sequential run that is ahead by the locked rows, each hand-out taking place when it gets its lock |
| C118 | one job stored per tick of a cron runner | count of stored jobs plus calls under way is the count of calls begun, by induction on schedules; the check of a cron job never finds anything |
| C119 | a job is carried to its end | endless schedules; jobs ahead only decrease once time has passed the job's own, so it is handed out again and again while not over, each report counts a failure, and failures are bounded by the attempts (C08). `C119_on_postgres`: the same over the statements of the concurrent Postgres machine, with every session carried on and no call dropped |
| C120 | executions under clocks that are wrong by at most d | real times are assigned to the positions of a schedule; the last reading that matters before a hand-out and the one the retry was computed from each contribute d |
| C121 | no busy loop while there is nothing to hand out | consecutive looks of a stream, as a list of times and findings; invariant: where the stream is in its loop and which clock reading its delay comes from |
| C122 | a due job is handed out within 15 ms + 6 ε by a stream that is never more than ε late | the time from which the stream can move next is carried along the schedule; invariant: this time is at most the due time plus 15 ms plus one ε per step still to make, or the stream decided on old information and a message is pending. `C122_on_postgres`: the stages of the hand-out statement each cost one more ε; the position of the notification in the node's inbox times δ bounds when it is heard |
| C123 | jobs unique by executor within d over all statuses are scheduled at least d apart, so executions that begin on time are d apart; false with the documented criteria | in memory: sequential invariant on stored jobs and their distance, the window lies around the call and clocks do not go back; Postgres: from `C48_no_clash`, after showing that no allowed step moves a row in time; hand-outs are at most 100 ms early |
| C124 | a runner begins a due job within 15 ms + 6 ε + D, plus 3 ε + D per job ahead; on Postgres within 15 ms + 10 ε + D, plus 7 ε + D per row ahead, per hand-out under way, and once more | runners with their streams (`Live`, `PgLive`); each action is projected to one of the streams, so the invariants of C30 and C122 carry over; the deadline moves with the room: without room it is `D` after the moment the last place was taken; in memory induction on the number of jobs ahead, on Postgres the stream's returns are counted against the hand-outs, which C85 bounds |
| C125 | runners with streams refine runners that ask the backend directly | forward simulation: the backends differ only in the channels, no call reads them; a stream step is silent or is one request; a runner that has stopped is one that is not scheduled; on Postgres the streams are forgotten by a function of the state |
| C126 | a job is over by a time computed beforehand (both backends, runners with streams) | induction on the attempts and snoozes left; each round is C124, then the first report of the one execution in flight (the bookkeeping of C125, on Postgres of C119, through the simulation); on Postgres a row held by another session is handed out within `H` by hypothesis |
| C127 | ids, attempts and priorities fit `i32`/`INTEGER` in histories with at most 2147418112 hand-outs, snoozes and reruns each | invariant over jobs and enqueues in progress, with the counts of the history as bounds; a history of reruns shows that the bound is attained |
| C128 | retention: the pruner's loop, `C16_exactly`/`C47_max_age` and everything clients do in between | bound on the gap between whole runs by induction over the loop; a row or job nobody touches is followed through the history up to the prune event and beyond it |
| C129 | an enqueued job is begun, and over, by a time computed beforehand | the rounds of C126 with the end of the enqueue call inside the first of them; a job stored before the runner subscribed is found by the stream's first look, one stored after it by the message of the call, which is counted through the channel |
| C130 | the job of a cron tick is begun, and over, soon after the tick | bound on each turn of the cron loop from the bounds on its delays; composition of `C40_job` and C129 |
| C131 | migrations can be run again | the scripts statement by statement, with transactions; every number of statements after which a run may be cut short; false for one of them |
| C132 | the backend's migrations next to an application's own | `Migrator::run`; false in both orders |
| C133 | cron jobs when the clock is set | the loop with an error of the clock at every reading; false when it is set back by however little |
| C134 | half a minute without notifications | the streams and sessions of C122 with no condition on the backend or the listeners: the 30 s timer is enough |
| C135 | however clocks are set, half a minute | the streams again with an arbitrary clock reading at every action and timers in real time; how far the stream is after the readings are past the job's time |
| C136 | messages behind a busy executor | false: for every n a schedule after which n wait; looks counted against returned jobs, messages and timers from any state on; nothing new coming in, only what waited is taken |
| C137 | however clocks are set, never early, never twice | the streams with arbitrary clock readings simulated by a schedule of calls at those readings; then C04, C06, C45, C46 |
| C138 | without notifications a runner begins a due job within half a minute (both backends) | the proofs of C124 with the dozing stream of C134 as one more case; on Postgres the lemmas of C124 take a proposition saying whether the node listens, true for C124 and false here |
| C139 | a stream or runner that is polled is never stuck | along prompt schedules a bound from below on the moment the next step is awaited from; at that moment plus ε the step can be made; induction on the number of steps |
| C140 | how long a finished job is kept after it finished | false: witnesses on both backends; `C128_kept_*` with the lateness and the error of the clocks taken off |
| C141 | unique enqueues on both backends, from equal stores | false: five witnesses; otherwise the simulation of C50 with one more call |
| C142 | queries, updates and prunes on both backends, from equal stores | false: five witnesses; for prunes exactly when they agree; otherwise the simulation of C50 and C141 with these calls |
| C143 | the order jobs are handed out in, against jobs enqueued meanwhile | in memory from the no-starvation theorem of C84, as the time comes first; on Postgres false, for every job that is not of the highest priority: induction over the enqueues and requests; with less urgent jobs true: the number of rows ahead falls with each request |
| C144 | prunes by number, next to everything that changes the status of jobs | on Postgres by induction over the history: an event adds at most one selected row, and only if it sets the status; in memory false: the exact number after any number of rounds of enqueues and prunes |
| C145 | all calls in any interleaving, on both backends | induction over the schedule: every step but a prune keeps the ids, and a prune keeps what it does not select |
| C146 | the by-id calls after any interleaving, on both backends | from C145 and the exact conditions for `JobNotFound` (C02, C67) |
| C147 | enqueue calls in memory with a lock that may be poisoned; sessions of unique enqueues that may be aborted before the commit (a connection lost during the commit is not modelled) | a step that changes stored jobs leaves the call in a state from which it cannot fail any more |
| C93 | the in-memory calls that read the clock once per job, with a clock per position | comparing the filtered lists position by position |
| C94 | builders, time queries and the Postgres look-up with checked arithmetic | induction over the builder calls; case analysis |
| C95 | runners on Postgres with statements refused because of U+0000 | false: witness; simulation by runners whose reports get lost, hence stranded for good; partial without the character |
| C96 | a body as stretches of computing and waiting, polled under `tokio::time::timeout` | induction over the stretches against a closed formula for when it comes to each `await`; negation by witnesses |
| C97, C98 | the set-up calls of an instance; runners on both backends | from C89, C27 and C73, by induction over the calls; C98 false: witness on both backends, partial with the sum of the limits, which a constructed schedule reaches on both backends |
| C99 | runners on the database (`PgSys`), a process that ends | false: witness, stranded for good by C69; partial by the invariant of C69 |
| C92 | each call alone in the concurrent models against its sequential description | running the steps of the call symbolically; induction over the calls |
| C81, C82 | `PgConc`, with encode/decode | following the session of an enqueue by its index to the row it inserts; invariant that stored times are whole microseconds; C81 false for omitted metadata: witness plus partial |

## What is modelled, file by file

| source | modelled | in |
|---|---|---|
| rexecutor/src/backend/memory.rs | every backend method, the subscriber channels, `ReadyStream::next`, pausing, the two locks, lock poisoning, clock readings | Memory, Concurrent, Locks, Stream, StreamClock, Live, Poison, PoisonStream, Clocks |
| rexecutor/src/backend/queryable.rs | all of the non-test code | Queryable |
| rexecutor/src/backend.rs | `Job`, `EnqueuableJob`, `Query`, `ExecutionError`, `mark_*` methods, conversions | Types, Typed, Memory |
| rexecutor/src/job.rs | `Job`, `JobStatus`, `JobError`, `ErrorType`, `is_final_attempt`, conversions | Types, Typed |
| rexecutor/src/job/builder.rs | every builder method, `enqueue_to_backend`, panics | Builder, Ranges |
| rexecutor/src/job/query.rs | `Where` and all its constructors and combinators, panics | Typed, Ranges |
| rexecutor/src/job/uniqueness_criteria.rs | all constructors, resolutions, `Replace` | Criteria, Types |
| rexecutor/src/job/runner.rs | all of it except the log output | Runner, Timeout, System, Live, PgSys, PgLive |
| rexecutor/src/executor.rs | job manipulation functions, default backoff, constants | Typed, Manage, Runner, Backoff |
| rexecutor/src/backoff.rs | all strategies, jitter (with `f64` arithmetic), min/max/offset, the builder | Backoff, Float |
| rexecutor/src/cron_runner.rs | the loop and its shutdown, and with a clock that is set; the schedule is abstract | Cron, CronClock |
| rexecutor/src/pruner.rs, pruner/runner.rs | builders, configuration, the loop and its shutdown, overlapping prune calls, panics | Pruner, Poison |
| rexecutor/src/global_backend.rs | set and use | GlobalBackend |
| rexecutor/src/testing.rs | `assert_enqueued!` in its forms | AssertEnqueued |
| rexecutor/src/lib.rs | the set-up calls, one runner per `with_executor`, cancellation token | Instance, System, Live, PgSys, PgLive |
| rexecutor-sqlx/src/lib.rs | every SQL statement, the listener task, refused text, `run_migrations` | Pg, PgConc, PgStream, PgText, Migrate |
| rexecutor-sqlx/src/backend.rs | every backend method, `handle_update` | Pg, PgConc, PgStream |
| rexecutor-sqlx/src/query.rs | both `ToQuery` implementations | PgQuery, Pg |
| rexecutor-sqlx/src/types.rs | all conversions | PgTypes |
| rexecutor-sqlx/src/unique.rs | `unique_identifier`, the look-up condition, panics | Pg, Fx, Ranges |
| rexecutor-sqlx/src/stream.rs | `ReadyJobStream::next`, and with clocks that are set | PgStream, StreamClock, PgSys, PgLive |
| rexecutor-sqlx/migrations | table defaults, `SERIAL`, triggers; the scripts, statement by statement, without the columns | Pg, PgStream, Migrate |

## Assumptions about what is underneath

Each is repeated at the definition that uses it.

* `std::sync::RwLock` gives a lock to one writer or to readers, and to a thread that can have it; a panic under the write lock poisons it; tokio channels deliver
  every message once, in order; `select!` may take any branch that is ready; timers fire
  at or after their time and read the same clock as `Utc::now()` (not in CronClock and
  StreamClock, where clocks may show anything and timers count real time); a sleep of positive length
  is not ready when it is first polled.
* `futures::for_each_concurrent(Some(0), ..)` means no limit.
* tokio's `OnceCell::set` is check, permit, publish.
* chrono: `TimeDelta` is limited to `i64` seconds (minus one), `+`/`*` panic outside;
  `DateTime + TimeDelta` panics outside years ±262000 (`addTime`).
* `serde`: a user type is an encoder and a decoder; losslessness is a hypothesis.
  The untagged variant of the sqlx `ErrorType` is tried last.
* `sqlx::migrate!().run` takes a lock, refuses versions on record that are not its own, skips its own that are, and applies the others:
  `BEGIN`, the script, a record in `_sqlx_migrations`, `COMMIT` (`Migrate`).
* `sqlx` sends a `DateTime` as whole microseconds since 2000, cutting towards that date.
* PostgreSQL at `READ COMMITTED`: a statement sees what was committed before it began;
  `FOR UPDATE SKIP LOCKED` passes over locked rows and rechecks the newest version of
  the row it locks; the `IN (SELECT .. LIMIT 1)` is evaluated once; updates and deletes
  wait for locked rows (a delete of several rows waits for all of them at once);
  advisory locks last until commit or rollback; `nextval` is not rolled back.
  `NOT` binds tighter than `AND`, `AND` tighter than `OR`. `JSONB` equality is structural
  equality of JSON values. `INTEGER` arithmetic does not overflow (C127: it does not in histories with at
  most 2147418112 hand-outs, snoozes and reruns each). Session time zone UTC:
  `sqlx` asks for it when it connects, and with a pool that sets another one `timezone('UTC', now())` is off by the offset.
  Text parameters have no character U+0000, except in `PgText`; times are after 4713 BC.
* `NOTIFY` reaches every listening connection once, at commit, in commit order, and is
  lost for a connection that breaks before reading it; payloads stay below 8000 bytes.
* The hash of unique keys is an arbitrary function; only `C49_fx_violated` uses a model of
  `FxHasher64` (`Model/Fx.lean`).
* Which timestamps the listener can parse is a parameter (`Parses`).
* `f64`: IEEE 754 double precision, nearest with ties to even; `round` rounds halves away from zero; `as i64` saturates and makes NaN 0.

## Where the code does something else than documented or expected

Found while modelling. The ones a property names are proved as `.._violated`.

In-memory backend
* `max_length` pruning removes the first n selected jobs instead of keeping n (C17), at every run
  another n, so that none is left in the end (C110).
* `max_age` pruning also removes jobs scheduled far in the future (C16).
* `max_age` pruning counts the age from `scheduled_at`, not from when the job finished: a job that finished a second
  ago is deleted as an hour old if it was due an hour ago (C140, both backends).
* Concurrent unique enqueues can create several jobs (C23); a do-nothing conflict writes
  back an old copy of the job and can make an executing job available again (C24), or a
  completed one `Executing` for good, with nobody working on it (C101).
* The duration of uniqueness criteria is measured from now, not from the job's schedule
  time (C25); a zero duration, which cron jobs use, never matches (C26).
* Criteria without a key only match jobs without a key, so `and_key` does not narrow (C56).
* A paused backend still runs jobs when the 30 s timer of a stream fires
  (`C31_timer_still_runs`).
* Ids wrap around after 2^32 enqueues (`C01_ids_repeat`).

Postgres backend
* Query conditions are not parenthesised (C43) and so leak jobs of other executors (C58);
  an empty `and`/`or` is invalid SQL (`C43_accepted`); an id list is compared with `ALL` (C44; `C44_exactly` says what is found).
* The stored uniqueness key is a hash of the key, the look-up uses the key itself (C49, C26).
* A unique enqueue on Postgres reads the conflicting row without locking it. Until it
  returns the row can be pruned, so that it returns the id of a job that does not exist
  (C71), or be handed out, so that the replacement hits an executing job (C72).
* A graceful shutdown (or dropped guard) drops the stream's future, but a hand-out
  statement it has sent still commits: the job is stored as `Executing` forever and never
  executed (`C69_violated`, `C69_stranded_for_good`).
* An error, cancellation or panic text with U+0000 is refused by PostgreSQL; the runner logs
  that, and the job is stored as `Executing` forever (C95). Data, metadata, a tag or a query
  with it is refused on Postgres and accepted in memory (C116).
* Calls that overlap need not look as if made one after another: a hand-out reads the table as it was
  when the statement began and skips locked rows, so a more urgent job enqueued meanwhile can be passed
  over, and a query can show the second job executing and the first one not (C117).
* A unique enqueue whose duration reaches beyond the range of `DateTime` panics on Postgres
  (`C94_unique`) and works in memory.
* The advisory lock depends on the statuses but not the duration (`C48_different_statuses`).
* A replace resolution without fields is invalid SQL (`C59_conflict`).
* Error types named like a built-in one change on reading; an error recorded at attempt
  -1 makes the row unreadable (C53).
* The listener of a node dies when a payload cannot be parsed (C61).
* The migration script has its own `COMMIT`, which ends the transaction `sqlx` records the migration in. A crash in between makes
  `run_migrations` fail for good (C131).
* `run_migrations` uses the table `_sqlx_migrations` of the application's own migrations; whichever runs second fails (C132).
* The channels of the streams have no limit and nothing is merged: while an executor is at its limit every job put in leaves a message, on Postgres every write of an available job as well, and each costs a look later (C136).
* Times are cut to microseconds; ids start at 1 (in memory at 0); queries return newest
  first (in memory in insertion order); hand-out order among equal jobs differs (`C50_handout_differs`).
* A unique enqueue finds other duplicates than in memory: with a key, with stored jobs that have one, with a window and a time to
  come, with several duplicates; a replacement of nothing fails (C141).
* The backends answer the same query in opposite orders; an update of a status is made in memory only; a waiting job overdue by more
  than the age is pruned in memory only; pruning all but n jobs removes n in memory and all but n on Postgres (C142).
* On Postgres the priority comes before the time, so a due job waits for ever if a more urgent job is enqueued before
  each request; in memory the time comes first, and jobs enqueued for later never overtake it (C143).
* A pruner by number bounds the stored jobs on Postgres only. In memory each run removes n jobs whatever is stored, so the
  number grows for ever if more than n come in between two runs, and falls to none if fewer do (C144).
* Updating a finished job notifies streams in memory but not on Postgres.

Both
* A job can stop its executor. `Utc::now() + delay` is computed in the runner's own future, so
  a snooze (or a retry delay) beyond the range of chrono panics there, and so do panics in
  `timeout` and `backoff`; the runner is gone for good and nobody is told (`C86_violated`,
  `C86_never_recovers`, `C87_violated`).
* An age pruner whose age reaches beyond the range of `DateTime<Utc>` panics. That ends the
  pruner's task (C91). In memory it happens while the write lock is held: the lock is
  poisoned, and every later call fails, for good (C90). A runner whose stream is about to load a
  job then dies; all others get errors from their streams without ever waiting, a busy loop (C100).
* When the statements of a Postgres stream fail (the table is missing, a permission was revoked, the
  server is shutting down), the stream yields an error and the runner asks again at once: a busy loop
  that logs a warning each time (`C121_violated_postgres`).
* The criteria the documentation recommends "to ensure that only one unique job is ran every five
  minutes" do not: `by_executor()` looks at Scheduled jobs only, so as soon as a job has begun the next
  enqueue inserts another, which runs at once (`C123_violated_in_memory`, `C123_violated_on_postgres`).
  With `.and_statuses(&JobStatus::ALL)` scheduled times are five minutes apart (C123).
* A cron runner sleeps by elapsed time and looks at the schedule by the clock. If the clock is set back, or loses
  more than the sleep overshoots by, just when a tick is served, it serves the tick again and stores a second job (C133).
* One job that a query finds and that cannot be decoded makes the whole query fail (C103).
* A rerun puts a job back as `Scheduled` only when its attempt is exactly 1; a job cancelled before it ever ran is put back as `Retryable` with attempt 0 (`C104`, the status clause).
* A runner's report overwrites a cancellation made while the job was executing (C51, C78).
* `max_attempts` 0, or lowered to at most the current attempt, means retried forever (C55, C80).
* `rerun_job` of a job that is being executed can do the same, without anything being lowered: the
  execution under way was not the last when it began and retries a job whose attempts are used up
  (`C55_violated_rerun`, `C80_violated_rerun`).
* A rerun of a job with `max_attempts` 65535 makes it undecodable (`C13_rerun_at_limit`).
* `MAX_CONCURRENCY = Some(0)` means unlimited (C27).
* Backoff computations can panic, and that ends the runner (C34).
* A pruner's `max_concurrency` limits only the handling of results (C57).
* Cron jobs and jobs enqueued without metadata store `null` (C36, C81).
* `assert_enqueued!(1 job, to: ..)` only checks that there is at least one (C42).
* `TagsAllOf` is documented as "all of the job's tags are in the provided set"; the code
  checks that all provided tags are among the job's.
* `scheduled_at_within_the_last` also selects every job scheduled for the future
  (`C19_constructors`).
* A polynomial backoff wraps around in builds without overflow checks (`C33_release_wraps`).
* Criteria that are not limited to the executor, and length prunes over several executors, make one executor's jobs depend on another's (`C105_open_criteria_interfere`, `C105_shared_prune_interferes`).
* `cancel_job`, `rerun_job`, `update_job` of an executor work on jobs of every executor; in memory an
  update can move a job to another executor (C107).
* `rerun_job` accepts jobs that wait or are being executed (C108); the latter gives two executions of
  one job at the same time (C106).
* `graceful_shutdown` only cancels the token; it does not wait for executions. A poll of a stream that
  is under way on another thread goes on and can still take a job, which is then executed (`C28_violated`, on
  Postgres `C75_violated`).
* A snooze reported twice can bring the attempt to -1; an aborted task is recorded as a panic.
* **C96** A timeout interrupts a body only at an `await` that has to wait. An executor with
  `BLOCKING = true` whose body only computes, as the documentation intends, is never
  interrupted, and its late result is recorded. The timeout counts from before the body is
  given a thread, so with a full blocking pool short bodies are timed out.
* **C98** `with_cron_executor` also calls `with_executor`. An executor with several cron jobs,
  or enabled on its own as well, has several runners, each with its own `MAX_CONCURRENCY`.
* **C99** `graceful_shutdown` and the drop guard return at once and give nothing to wait for.
  A `main` that ends with them drops the executions in flight; on Postgres the jobs stay
  `Executing`.

## How the theorems are tested

`seeded/LOG.jsonl` has one line per wrong program: a definition of the model is edited in a
scratch copy as a realistic bug would, everything is rebuilt, and the theorems that no
longer check are listed. When the edit makes a claim false and all theorems of the claim
still checked, the theorem was tightened (field `tightened`).

## Not modelled

Connection handling, tracing output, `Deref` forwarding of the
backend trait, the `cron` expression parser (a schedule is an abstract function
from a time to the next tick), time zones, compile-time type-state checks of the builders, overflow of `INTEGER` columns (but see C127), memory use (but see C136, C144).
A unique enqueue on Postgres whose connection fails while the commit is under way: in the model the connection
fails before the commit (nothing stored, an error) or not at all; in fact the row may be stored and an error returned.

## Axioms per theorem

Generated from `#print axioms` for every theorem named in `MANIFEST.json`.

### none (5)

`C33_release_wraps`, `C34_violated`, `C35_builder_total`, `C56_violated`, `C56_order_irrelevant`

### `propext` (43)

`C11_timeout_irrelevant`, `C13_rerun_at_limit`, `C16_violated`, `C17_violated`, `C20_snooze_makes_two`, `C25_violated_memory`, `C27_violated`, `C28_violated`, `C28_streams_nothing_lost`, `C31_timer_still_runs`, `C36_violated`, `C39_first_set`, `C41_builders`, `C42_violated`, `C51_violated`, `C55_violated_zero`, `C55_violated_lowered`, `C55_violated_rerun`, `C57_violated`, `C58_violated`, `C64_attempt_time`, `C77_builder`, `C77_order`, `C93_constant`, `C96_otherwise_same`, `C96_violated`, `C96_covered`, `C100_violated`, `C103_violated`, `C105_open_criteria_interfere`, `C105_shared_prune_interferes`, `C106_violated_rerun`, `C107_violated`, `C107_violated_move`, `C108_violated`, `C108_violated_executing`, `C121_violated_postgres`, `C123_violated_in_memory`, `C123_violated_late`, `C123_violated_overlapping`, `C135_right_clock`, `C135_right_clock_postgres`, `C140_violated_in_memory`

### `Quot.sound`, `propext` (95)

`C02_unknown_id`, `C03_frame`, `C11_calls_prescribed`, `C15_prune_frame`, `C17_max_length_partial`, `C19_and`, `C19_or`, `C19_not`, `C23_violated`, `C24_violated`, `C27_limit_partial`, `C28_nothing_started_partial`, `C28_nothing_lost`, `C32_min`, `C32_max`, `C32_not_a_number`, `C33_constant`, `C33_linear`, `C33_polynomial`, `C33_polynomial_release`, `C33_offset`, `C35_builder`, `C35_builder_tags`, `C37_write_back`, `C40_on_tick`, `C40_increasing`, `C40_no_skip`, `C40_job`, `C41_config`, `C41_each_once`, `C41_can_finish`, `C41_memory`, `C41_timing`, `C43_violated`, `C44_empty_violated`, `C47_frame`, `C47_max_age`, `C52_postgres`, `C52_update_memory`, `C57_exactly`, `C57_small_config_partial`, `C72_fields`, `C72_otherwise`, `C73_limit`, `C75_at_most_one_partial`, `C77_linear`, `C81_rounding`, `C83_slow`, `C86_never_recovers`, `C86_violated`, `C87_answer_taken`, `C87_never_recovers`, `C88_replace`, `C88_all_statuses`, `C88_criteria`, `C90_never_recovers`, `C92_memory`, `C95_memory`, `C96_ends_partial`, `C96_not_before`, `C96_queued_violated`, `C97_loops`, `C98_limit_partial`, `C98_limit_postgres_partial`, `C100_no_jobs`, `C101_violated`, `C106_violated_conflict`, `C107_own_postgres_partial`, `C108_postgres_partial`, `C110_exactly`, `C110_violated`, `C110_postgres_max_age`, `C111_in_memory`, `C113_never_stuck`, `C114_atomic`, `C114_exclusive`, `C115_never_stuck`, `C115_all_finish`, `C130_enqueued`, `C130_every_tick`, `C131_fresh`, `C131_failed`, `C131_violated`, `C131_down`, `C133_right_clock`, `C133_on_tick`, `C133_order`, `C133_once_partial`, `C133_no_skip`, `C133_exactly`, `C137_on_postgres`, `C144_exactly_in_memory`, `C144_violated_in_memory`, `C147_in_memory`, `C147_on_postgres`

### `Classical.choice`, `Quot.sound`, `propext` (346)

`C01_ids_unique`, `C01_ids_signed`, `C01_ids_repeat`, `C01_many`, `C01_collision`, `C04_only_due_jobs`, `C05_order`, `C05_positions_are_insertion_order`, `C06_no_double_handout`, `C07_attempt_counts_executions`, `C07_handout_attempt`, `C08_failures_bounded`, `C08_discarded_iff`, `C08_snoozes_free`, `C09_finished_not_rerun`, `C10_error_history`, `C10_append_only`, `C11_outcome_table`, `C11_one_call`, `C12_not_early`, `C13_rerun`, `C14_status_timestamps`, `C14_untouched`, `C16_max_age_partial`, `C16_exactly`, `C17_remaining`, `C18_in_insertion_order`, `C18_query_exact`, `C19_constructors`, `C19_query_jobs`, `C20_unique_enqueue`, `C20_at_most_one`, `C21_do_nothing`, `C22_replace`, `C23_one_at_a_time_partial`, `C24_undisturbed_partial`, `C25_postgres`, `C25_memory_exactly`, `C25_window_partial`, `C26_violated`, `C26_postgres_violated`, `C26_fixed_point_partial`, `C27_unlimited`, `C27_exactly`, `C28_at_most_one_partial`, `C29_crash`, `C30_no_missed_job`, `C30_prompt`, `C30_wakes`, `C31_paused`, `C31_paused_later`, `C32_absolute_jitter`, `C32_relative_jitter`, `C32_relative_range`, `C33_exponential`, `C33_monotone`, `C33_default`, `C34_strategy_exactly`, `C34_any_factor`, `C34_exponential_any_base`, `C34_additions_exactly`, `C34_no_panic_partial`, `C34_default_backoff`, `C36_received_partial`, `C36_omitted_metadata_undecodable`, `C36_exactly`, `C38_runner_lifecycle`, `C38_moves`, `C38_leaves_by_prune`, `C39_once`, `C39_someone_succeeds`, `C39_stable`, `C39_only_set_backends`, `C42_counts_partial`, `C42_at_least_one`, `C43_accepted`, `C43_disjunctive_partial`, `C43_exactly`, `C44_violated`, `C44_one_id_partial`, `C44_exactly`, `C45_choice`, `C45_effect`, `C46_no_double_handout`, `C47_max_length`, `C47_interleaved`, `C48_no_clash`, `C48_at_most_one`, `C48_different_statuses`, `C48_fx_one_status`, `C48_fx_values`, `C49_violated`, `C49_fx_violated`, `C49_fixed_point_partial`, `C50_agree`, `C50_handout_differs`, `C51_stays_cancelled_partial`, `C51_cancel_before_start`, `C52_typed`, `C53_read_back_partial`, `C53_violated`, `C53_unreadable_violated`, `C53_exactly`, `C54_exactly_once`, `C55_never_exceeded_partial`, `C55_edited_partial`, `C56_narrows_partial`, `C56_key_exactly`, `C58_exactly`, `C58_conjunctive_partial`, `C59_insert`, `C59_conflict`, `C60_bounded_sleep`, `C60_no_missed_job`, `C60_prompt`, `C60_wakes`, `C61_violated`, `C61_survives_partial`, `C61_exactly`, `C62_attempt_counts_executions`, `C62_handout_attempt`, `C63_error_history`, `C63_append_only`, `C64_status`, `C64_timestamps`, `C65_finished_not_handed_out`, `C66_ids_unique`, `C67_by_id`, `C70_not_early`, `C71_violated`, `C71_names_stored_job_partial`, `C72_violated`, `C72_status_partial`, `C68_failures_bounded`, `C68_discarded_iff`, `C68_snoozes_free`, `C69_violated`, `C69_stranded_for_good`, `C69_executing_has_executor_partial`, `C74_runner_lifecycle`, `C75_nothing_started_partial`, `C75_in_flight_go_on`, `C75_violated`, `C76_one_execution`, `C78_cancel_before_start`, `C78_violated`, `C78_stays_cancelled_partial`, `C79_crash`, `C79_process_ends`, `C79_report_lost`, `C80_violated_zero`, `C80_violated_lowered`, `C80_violated_rerun`, `C80_never_exceeded_partial`, `C80_edited_partial`, `C81_received_partial`, `C81_omitted_metadata_undecodable`, `C81_exactly`, `C81_violated`, `C82_write_back`, `C83_cron`, `C83_cron_at_once`, `C83_pruner_at_once`, `C83_pruner`, `C84_no_starvation`, `C84_executed`, `C85_executed`, `C85_overtaking`, `C85_handed_out`, `C86_goes_on_partial`, `C86_chokes_exactly`, `C86_exactly`, `C87_goes_on_partial`, `C87_exactly`, `C87_violated`, `C89_own_jobs`, `C89_own_jobs_postgres`, `C90_goes_on_partial`, `C90_exactly`, `C90_violated`, `C91_keeps_pruning_partial`, `C91_violated`, `C91_exactly`, `C92_postgres`, `C92_locked_differs`, `C93_handout`, `C93_unique`, `C93_overtakes`, `C94_builder`, `C94_where`, `C94_unique`, `C95_otherwise_same`, `C95_which`, `C95_violated`, `C95_stranded_for_good`, `C95_recorded_partial`, `C96_exactly`, `C97_only_enabled`, `C97_only_enabled_postgres`, `C97_one_runner_per_call`, `C98_violated`, `C98_reached`, `C98_reached_on_postgres`, `C99_violated`, `C99_waited_partial`, `C100_outlives_partial`, `C100_spins`, `C101_executing_has_executor_partial`, `C101_stranded_for_good`, `C102_last_in_memory`, `C102_last_on_postgres`, `C103_exactly`, `C103_which`, `C103_exactly_postgres`, `C103_violated_postgres`, `C104_in_memory`, `C104_on_postgres`, `C105_in_memory`, `C105_on_postgres`, `C106_in_memory_partial`, `C106_postgres_partial`, `C106_violated_postgres`, `C107_own_partial`, `C107_exactly`, `C107_violated_postgres`, `C108_in_memory_partial`, `C108_violated_postgres`, `C109_bounded_wait`, `C110_max_age_partial`, `C110_postgres_max_length`, `C111_postgres`, `C112_bounded_wait`, `C113_all_finish`, `C116_violated`, `C116_exactly`, `C116_calls`, `C116_unique`, `C116_executors`, `C116_storable`, `C117_violated`, `C117_violated_query`, `C117_calm_partial`, `C118_in_memory`, `C118_on_postgres`, `C119_on_postgres`, `C119_in_memory`, `C120_due_on_postgres`, `C120_on_postgres`, `C120_due_in_memory`, `C120_in_memory`, `C121_in_memory`, `C121_rate_in_memory`, `C121_taken`, `C121_on_postgres_partial`, `C121_rate_on_postgres_partial`, `C122_in_memory`, `C122_on_postgres`, `C123_spaced_on_postgres_partial`, `C123_begun_on_postgres_partial`, `C123_violated_on_postgres`, `C123_spaced_in_memory_partial`, `C123_begun_in_memory_partial`, `C124_in_memory`, `C124_on_postgres`, `C125_same`, `C125_limit`, `C125_own_jobs`, `C125_attempts`, `C125_on_postgres`, `C125_limit_on_postgres`, `C125_own_jobs_on_postgres`, `C125_attempts_on_postgres`, `C125_one_execution_on_postgres`, `C126_in_memory`, `C126_on_postgres`, `C127_in_memory`, `C127_on_postgres`, `C127_bound_attained`, `C128_pruner_runs`, `C128_deleted_on_postgres`, `C128_kept_on_postgres`, `C128_deleted_in_memory`, `C128_kept_in_memory`, `C129_in_memory`, `C129_over_in_memory`, `C129_on_postgres`, `C130_in_memory`, `C130_over_in_memory`, `C130_over_on_postgres`, `C131_again`, `C131_cut_short_partial`, `C132_exactly`, `C132_violated`, `C133_violated`, `C134_in_memory`, `C134_on_postgres`, `C135_in_memory`, `C135_on_postgres`, `C136_looks_partial`, `C136_looks_on_postgres_partial`, `C136_worked_off_partial`, `C136_worked_off_on_postgres_partial`, `C136_violated`, `C136_violated_on_postgres`, `C137_in_memory`, `C137_due`, `C137_once`, `C137_due_on_postgres`, `C137_once_on_postgres`, `C138_in_memory`, `C138_on_postgres`, `C139_runner_alone_on_postgres`, `C139_in_memory`, `C139_alone`, `C139_on_postgres`, `C139_alone_on_postgres`, `C139_runner_in_memory`, `C139_runner_alone`, `C139_runner_on_postgres`, `C140_at_once_in_memory`, `C140_at_once_on_postgres`, `C140_violated_on_postgres`, `C140_in_memory_partial`, `C140_on_postgres_partial`, `C141_agree_partial`, `C141_histories_partial`, `C141_violated`, `C142_query_partial`, `C142_update_partial`, `C142_prune_age_exactly`, `C142_prune_length_only_if`, `C142_prune_length_partial`, `C142_histories_partial`, `C142_violated`, `C143_in_memory`, `C143_violated_on_postgres`, `C143_on_postgres_partial`, `C144_on_postgres`, `C145_in_memory`, `C145_on_postgres`, `C145_runners_in_memory`, `C145_runners_on_postgres`, `C146_in_memory`, `C146_returned_in_memory`, `C146_on_postgres`, `C146_returned_on_postgres`
