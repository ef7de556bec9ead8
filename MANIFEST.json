{
 "claims": [
  {
   "property": "C01",
   "status": "proved",
   "theorems": [
    "Rexecutor.C01_ids_unique",
    "Rexecutor.C01_ids_signed",
    "Rexecutor.C01_ids_repeat",
    "Rexecutor.C01_many",
    "Rexecutor.C01_collision"
   ],
   "note": "In-memory backend: ids unique while at most 2^32 ids have been taken (i32 wrap-around); C01_ids_repeat / C01_collision show the bound is needed."
  },
  {
   "property": "C02",
   "status": "proved",
   "theorems": [
    "Rexecutor.C02_unknown_id"
   ],
   "note": "In-memory backend, every by-id call."
  },
  {
   "property": "C03",
   "status": "proved",
   "theorems": [
    "Rexecutor.C03_frame"
   ],
   "note": "In-memory backend, every by-id call on every store."
  },
  {
   "property": "C04",
   "status": "proved",
   "theorems": [
    "Rexecutor.C04_only_due_jobs"
   ],
   "note": "In-memory backend."
  },
  {
   "property": "C05",
   "status": "proved",
   "theorems": [
    "Rexecutor.C05_order",
    "Rexecutor.C05_positions_are_insertion_order"
   ],
   "note": "In-memory backend; positions in the store are shown to be insertion order."
  },
  {
   "property": "C06",
   "status": "proved",
   "theorems": [
    "Rexecutor.C06_no_double_handout"
   ],
   "note": "In-memory backend, every interleaving of lock sections."
  },
  {
   "property": "C07",
   "status": "proved",
   "theorems": [
    "Rexecutor.C07_attempt_counts_executions",
    "Rexecutor.C07_handout_attempt"
   ],
   "note": "In-memory backend."
  },
  {
   "property": "C08",
   "status": "proved",
   "theorems": [
    "Rexecutor.C08_failures_bounded",
    "Rexecutor.C08_discarded_iff",
    "Rexecutor.C08_snoozes_free"
   ],
   "note": "For every n >= 1, any number of runners, any outcomes and interleaving: at most n failing executions, discarded exactly when n failures are recorded, snoozes free. Jobs other clients touch (rerun, update, uniqueness conflict) are excluded, as in the statement."
  },
  {
   "property": "C09",
   "status": "proved",
   "theorems": [
    "Rexecutor.C09_finished_not_rerun"
   ],
   "note": "In-memory backend."
  },
  {
   "property": "C10",
   "status": "proved",
   "theorems": [
    "Rexecutor.C10_error_history",
    "Rexecutor.C10_append_only"
   ],
   "note": "In-memory backend; under no update_job and no uniqueness conflict write-back of that job."
  },
  {
   "property": "C11",
   "status": "proved",
   "theorems": [
    "Rexecutor.C11_outcome_table",
    "Rexecutor.C11_timeout_irrelevant",
    "Rexecutor.C11_one_call",
    "Rexecutor.C11_calls_prescribed"
   ],
   "note": "Every way an execution can end is mapped to exactly the documented backend call; each started execution makes at most one call, and it is the prescribed one. Task scheduling itself is nondeterministic in the model."
  },
  {
   "property": "C12",
   "status": "proved",
   "theorems": [
    "Rexecutor.C12_not_early"
   ],
   "note": "In-memory backend; not handed out while the clock is at or before 100 ms before the schedule time."
  },
  {
   "property": "C13",
   "status": "proved",
   "theorems": [
    "Rexecutor.C13_rerun",
    "Rexecutor.C13_rerun_at_limit"
   ],
   "note": "In-memory backend."
  },
  {
   "property": "C14",
   "status": "proved",
   "theorems": [
    "Rexecutor.C14_status_timestamps",
    "Rexecutor.C14_untouched"
   ],
   "note": "In-memory backend."
  },
  {
   "property": "C15",
   "status": "proved",
   "theorems": [
    "Rexecutor.C15_prune_frame"
   ],
   "note": "In-memory backend."
  },
  {
   "property": "C16",
   "status": "partial",
   "theorems": [
    "Rexecutor.C16_max_age_partial",
    "Rexecutor.C16_violated",
    "Rexecutor.C16_exactly"
   ],
   "note": "C16_exactly says what is removed whatever is stored; the claim itself holds when no selected job is scheduled `age` or more in the future and is false otherwise (C16_violated)."
  },
  {
   "property": "C17",
   "status": "partial",
   "theorems": [
    "Rexecutor.C17_max_length_partial",
    "Rexecutor.C17_remaining",
    "Rexecutor.C17_violated"
   ],
   "note": "The code removes the first n selected jobs instead of keeping n: proved what it does; the claim is false (C17_violated)."
  },
  {
   "property": "C18",
   "status": "proved",
   "theorems": [
    "Rexecutor.C18_in_insertion_order",
    "Rexecutor.C18_query_exact"
   ],
   "note": "In-memory backend."
  },
  {
   "property": "C19",
   "status": "proved",
   "theorems": [
    "Rexecutor.C19_and",
    "Rexecutor.C19_or",
    "Rexecutor.C19_not",
    "Rexecutor.C19_constructors",
    "Rexecutor.C19_query_jobs"
   ],
   "note": "Typed Where API over the in-memory backend; C19_constructors gives the meaning of every constructor."
  },
  {
   "property": "C20",
   "status": "proved",
   "theorems": [
    "Rexecutor.C20_unique_enqueue",
    "Rexecutor.C20_at_most_one",
    "Rexecutor.C20_snooze_makes_two"
   ],
   "note": "In-memory backend, calls not overlapping. The history part excludes snooze, rerun and update (C20_snooze_makes_two shows why)."
  },
  {
   "property": "C21",
   "status": "proved",
   "theorems": [
    "Rexecutor.C21_do_nothing"
   ],
   "note": "In-memory backend, calls not overlapping, distinct ids (C01)."
  },
  {
   "property": "C22",
   "status": "proved",
   "theorems": [
    "Rexecutor.C22_replace"
   ],
   "note": "In-memory backend, calls not overlapping, distinct ids (C01)."
  },
  {
   "property": "C23",
   "status": "partial",
   "theorems": [
    "Rexecutor.C23_violated",
    "Rexecutor.C23_one_at_a_time_partial"
   ],
   "note": "The claim is false: n concurrent calls can create n jobs (C23_violated). Proved when no two calls are between check and insert at the same time."
  },
  {
   "property": "C24",
   "status": "partial",
   "theorems": [
    "Rexecutor.C24_violated",
    "Rexecutor.C24_undisturbed_partial"
   ],
   "note": "The claim is false: a do-nothing conflict can make an executing job available again (C24_violated). Proved when nothing else touches the job between look-up and write-back."
  },
  {
   "property": "C25",
   "status": "partial",
   "theorems": [
    "Rexecutor.C25_postgres",
    "Rexecutor.C25_memory_exactly",
    "Rexecutor.C25_window_partial",
    "Rexecutor.C25_violated_memory"
   ],
   "note": "In memory: C25_memory_exactly, the window is around the moment of the call, so the claim holds for jobs scheduled for now (C25_window_partial) and is false otherwise (C25_violated_memory). Postgres: proved (C25_postgres)."
  },
  {
   "property": "C26",
   "status": "partial",
   "theorems": [
    "Rexecutor.C26_violated",
    "Rexecutor.C26_postgres_violated",
    "Rexecutor.C26_fixed_point_partial"
   ],
   "note": "Violated on both backends: C26_violated (memory: cron jobs are never recognised as duplicates) and C26_postgres_violated (Postgres: the key stored is not the key looked up). C26_fixed_point_partial: on Postgres it holds exactly if the two hashes coincide."
  },
  {
   "property": "C27",
   "status": "partial",
   "theorems": [
    "Rexecutor.C27_limit_partial",
    "Rexecutor.C27_unlimited",
    "Rexecutor.C27_exactly",
    "Rexecutor.C27_violated"
   ],
   "note": "Proved for every limit k >= 1 and for no limit. Violated for MAX_CONCURRENCY = Some(0), which the code treats as no limit (C27_violated). C27_exactly: with a decodable job due, a polling runner starts it if its executor has no limit, limit zero or a limit not reached, and otherwise takes nothing."
  },
  {
   "property": "C28",
   "status": "partial",
   "theorems": [
    "Rexecutor.C28_nothing_started_partial",
    "Rexecutor.C28_nothing_lost",
    "Rexecutor.C28_at_most_one_partial",
    "Rexecutor.C28_violated",
    "Rexecutor.C28_streams_nothing_lost"
   ],
   "note": "False on a runtime with several threads: take_until looks at the token when a poll begins, so a poll under way when the token is cancelled can still take a job, which is executed (C28_violated). At most one per runner, none if no poll was under way (C28_at_most_one_partial), none once the runners have noticed (C28_nothing_started_partial, on the coarser machine where a runner takes a job in one step). Every execution in flight still reports (C28_nothing_lost, C28_streams_nothing_lost). That graceful_shutdown itself returns before the executions are done is C99."
  },
  {
   "property": "C29",
   "status": "proved",
   "theorems": [
    "Rexecutor.C29_crash"
   ],
   "note": "In-memory backend: a hand-out that is never reported back stays Executing and is never handed out again."
  },
  {
   "property": "C30",
   "status": "proved",
   "theorems": [
    "Rexecutor.C30_no_missed_job",
    "Rexecutor.C30_prompt",
    "Rexecutor.C30_wakes"
   ],
   "note": "Streams, clients and enqueue calls interleaved freely; one clock for timers and the backend. The bound includes the time between reading the clock and going to sleep."
  },
  {
   "property": "C31",
   "status": "proved",
   "theorems": [
    "Rexecutor.C31_paused",
    "Rexecutor.C31_paused_later",
    "Rexecutor.C31_timer_still_runs"
   ],
   "note": "Counts wake-ups against notify_all calls over every schedule. C31_timer_still_runs records that the 30 s timer still wakes streams of a paused backend."
  },
  {
   "property": "C32",
   "status": "proved",
   "theorems": [
    "Rexecutor.C32_min",
    "Rexecutor.C32_max",
    "Rexecutor.C32_absolute_jitter",
    "Rexecutor.C32_relative_jitter",
    "Rexecutor.C32_relative_range",
    "Rexecutor.C32_not_a_number"
   ],
   "note": "Relative jitter is computed in f64, which is modelled (nearest, ties to even; NaN, infinities). C32_relative_jitter bounds the change by (1 + 2^-51) of the given fraction and half a millisecond; C32_relative_range shows that this is the range, up to rounding; a ratio that is not a number is a ratio of zero."
  },
  {
   "property": "C33",
   "status": "proved",
   "theorems": [
    "Rexecutor.C33_constant",
    "Rexecutor.C33_linear",
    "Rexecutor.C33_polynomial",
    "Rexecutor.C33_exponential",
    "Rexecutor.C33_monotone",
    "Rexecutor.C33_polynomial_release",
    "Rexecutor.C33_release_wraps",
    "Rexecutor.C33_offset",
    "Rexecutor.C33_default"
   ],
   "note": "Formulas and growth; C33_release_wraps shows that the 32-bit condition is needed in builds without overflow checks."
  },
  {
   "property": "C34",
   "status": "partial",
   "theorems": [
    "Rexecutor.C34_violated",
    "Rexecutor.C34_strategy_exactly",
    "Rexecutor.C34_any_factor",
    "Rexecutor.C34_exponential_any_base",
    "Rexecutor.C34_additions_exactly",
    "Rexecutor.C34_no_panic_partial",
    "Rexecutor.C34_default_backoff"
   ],
   "note": "The claim is false (C34_violated). Proved for moderate configurations and for the default backoff; C34_strategy_exactly says exactly when a strategy panics."
  },
  {
   "property": "C35",
   "status": "proved",
   "theorems": [
    "Rexecutor.C35_builder",
    "Rexecutor.C35_builder_tags",
    "Rexecutor.C35_builder_total"
   ],
   "note": ""
  },
  {
   "property": "C36",
   "status": "partial",
   "theorems": [
    "Rexecutor.C36_received_partial",
    "Rexecutor.C36_omitted_metadata_undecodable",
    "Rexecutor.C36_exactly",
    "Rexecutor.C36_violated"
   ],
   "note": "Proved when data and metadata are set, or left out and readable from null; false when metadata of another type is omitted (C36_violated). C36_exactly: at the first hand-out the executor receives the job if and only if data and metadata were each set or can be read from null; otherwise decoding fails with an error, never a panic."
  },
  {
   "property": "C37",
   "status": "proved",
   "theorems": [
    "Rexecutor.C37_write_back"
   ],
   "note": "In-memory backend."
  },
  {
   "property": "C38",
   "status": "proved",
   "theorems": [
    "Rexecutor.C38_runner_lifecycle",
    "Rexecutor.C38_moves",
    "Rexecutor.C38_leaves_by_prune"
   ],
   "note": "Status moves under a runner, all moves on the backend with the event making them, and leaving only by pruning, over every history."
  },
  {
   "property": "C39",
   "status": "proved",
   "theorems": [
    "Rexecutor.C39_once",
    "Rexecutor.C39_someone_succeeds",
    "Rexecutor.C39_stable",
    "Rexecutor.C39_only_set_backends",
    "Rexecutor.C39_first_set"
   ],
   "note": "All interleavings of any number of set and use calls; the cell is modelled after tokio's OnceCell::set (check, permit, publish)."
  },
  {
   "property": "C40",
   "status": "proved",
   "theorems": [
    "Rexecutor.C40_on_tick",
    "Rexecutor.C40_increasing",
    "Rexecutor.C40_no_skip",
    "Rexecutor.C40_job"
   ],
   "note": "Over every schedule whose next time is a tick strictly after the given time with no tick between (facts of the cron crate, which is not modelled), every sequence of delays."
  },
  {
   "property": "C41",
   "status": "proved",
   "theorems": [
    "Rexecutor.C41_builders",
    "Rexecutor.C41_config",
    "Rexecutor.C41_each_once",
    "Rexecutor.C41_can_finish",
    "Rexecutor.C41_memory",
    "Rexecutor.C41_timing"
   ],
   "note": "Builders, one call per pruner in order under every overlap and error pattern, effect on the in-memory store, and timing of the loop."
  },
  {
   "property": "C42",
   "status": "partial",
   "theorems": [
    "Rexecutor.C42_counts_partial",
    "Rexecutor.C42_at_least_one",
    "Rexecutor.C42_violated"
   ],
   "note": "Exact for n jobs (C42_counts_partial); C42_violated: \"1 job, to: backend\" passes with two matching jobs; C42_at_least_one says what those forms check."
  },
  {
   "property": "C43",
   "status": "partial",
   "theorems": [
    "Rexecutor.C43_accepted",
    "Rexecutor.C43_disjunctive_partial",
    "Rexecutor.C43_violated",
    "Rexecutor.C43_exactly"
   ],
   "note": "Violated: the SQL condition is written without parentheses (C43_violated gives three witnesses) and an empty and/or is invalid SQL (C43_accepted characterises exactly which queries are rejected). C43_exactly says for every other query exactly which rows are found. The claim itself is proved for every disjunction of conjunctions of possibly negated comparisons, any size."
  },
  {
   "property": "C44",
   "status": "partial",
   "theorems": [
    "Rexecutor.C44_violated",
    "Rexecutor.C44_empty_violated",
    "Rexecutor.C44_one_id_partial",
    "Rexecutor.C44_exactly"
   ],
   "note": "Violated: ids are compared with ALL of the list, so any list with two different ids finds nothing (C44_violated, all tables) and the empty list finds everything (C44_empty_violated). Proved for lists naming one id. C44_exactly: for every list, the jobs whose id is equal to every id in the list."
  },
  {
   "property": "C45",
   "status": "proved",
   "theorems": [
    "Rexecutor.C45_choice",
    "Rexecutor.C45_effect"
   ],
   "note": "Choice: for every state, locks, clock and database choice; effect: for every history."
  },
  {
   "property": "C46",
   "status": "proved",
   "theorems": [
    "Rexecutor.C46_no_double_handout"
   ],
   "note": "Every interleaving of any number of sessions, any choices of the database, any statements in between."
  },
  {
   "property": "C47",
   "status": "proved",
   "theorems": [
    "Rexecutor.C47_frame",
    "Rexecutor.C47_max_age",
    "Rexecutor.C47_max_length",
    "Rexecutor.C47_interleaved"
   ],
   "note": "Prune on Postgres: exactly the selected rows are deleted, also interleaved with other transactions."
  },
  {
   "property": "C48",
   "status": "proved",
   "theorems": [
    "Rexecutor.C48_no_clash",
    "Rexecutor.C48_at_most_one",
    "Rexecutor.C48_different_statuses",
    "Rexecutor.C48_fx_one_status",
    "Rexecutor.C48_fx_values"
   ],
   "note": "For criteria without a key and one criteria value per executor; C48_different_statuses shows the restriction is needed."
  },
  {
   "property": "C49",
   "status": "partial",
   "theorems": [
    "Rexecutor.C49_violated",
    "Rexecutor.C49_fx_violated",
    "Rexecutor.C49_fixed_point_partial"
   ],
   "note": "Violated: the row stores a hash of the key but the lookup uses the key itself (C49_violated for every hash with a non-fixed point, C49_fx_violated for the hash the code uses). C49_fixed_point_partial covers keys that are their own hash."
  },
  {
   "property": "C50",
   "status": "proved",
   "theorems": [
    "Rexecutor.C50_agree",
    "Rexecutor.C50_handout_differs"
   ],
   "note": "Simulation over histories of any length; C50_handout_differs shows where the backends differ when a hand-out has a choice."
  },
  {
   "property": "C51",
   "status": "partial",
   "theorems": [
    "Rexecutor.C51_violated",
    "Rexecutor.C51_stays_cancelled_partial",
    "Rexecutor.C51_cancel_before_start"
   ],
   "note": "First half proved. Second half violated: a runner's report overwrites a cancellation made during the execution (C51_violated); proved when no execution is in flight."
  },
  {
   "property": "C52",
   "status": "proved",
   "theorems": [
    "Rexecutor.C52_postgres",
    "Rexecutor.C52_typed",
    "Rexecutor.C52_update_memory"
   ],
   "note": "Both backends."
  },
  {
   "property": "C53",
   "status": "partial",
   "theorems": [
    "Rexecutor.C53_read_back_partial",
    "Rexecutor.C53_violated",
    "Rexecutor.C53_unreadable_violated",
    "Rexecutor.C53_exactly"
   ],
   "note": "Violated for error types named like a built-in one (C53_violated) and for attempts outside 16 bits (C53_unreadable_violated). Otherwise proved; C53_exactly gives the exact condition."
  },
  {
   "property": "C54",
   "status": "proved",
   "theorems": [
    "Rexecutor.C54_exactly_once"
   ],
   "note": "Exact multiset and order of notifications for every stream on every node; a connection that breaks loses what was unread (hypothesis Unbroken, as in the statement)."
  },
  {
   "property": "C55",
   "status": "partial",
   "theorems": [
    "Rexecutor.C55_violated_zero",
    "Rexecutor.C55_violated_lowered",
    "Rexecutor.C55_violated_rerun",
    "Rexecutor.C55_never_exceeded_partial",
    "Rexecutor.C55_edited_partial"
   ],
   "note": "Violated for max_attempts = 0, for lowered max_attempts and for a rerun during an execution (three witnesses). Proved for n >= 1 if other clients leave the job alone, and (C55_edited_partial) with arbitrary edits that keep max_attempts or set it above the attempts made and change the status only between executions."
  },
  {
   "property": "C56",
   "status": "partial",
   "theorems": [
    "Rexecutor.C56_narrows_partial",
    "Rexecutor.C56_violated",
    "Rexecutor.C56_key_exactly",
    "Rexecutor.C56_order_irrelevant"
   ],
   "note": "Holds for and_executor and and_within and for the order of calls; C56_violated shows and_key does not narrow in memory; C56_key_exactly says what it does instead."
  },
  {
   "property": "C57",
   "status": "partial",
   "theorems": [
    "Rexecutor.C57_violated",
    "Rexecutor.C57_exactly",
    "Rexecutor.C57_small_config_partial"
   ],
   "note": "Violated: C57_violated shows two calls in progress with a limit of one. C57_exactly: a limit holds if and only if it is no smaller than the number of pruners."
  },
  {
   "property": "C58",
   "status": "partial",
   "theorems": [
    "Rexecutor.C58_violated",
    "Rexecutor.C58_exactly",
    "Rexecutor.C58_conjunctive_partial"
   ],
   "note": "Violated: the executor condition is one conjunct of an unparenthesised condition, so a disjunction leaks other executors' jobs. C58_exactly says exactly which. Proved for conjunctions of possibly negated comparisons."
  },
  {
   "property": "C59",
   "status": "proved",
   "theorems": [
    "Rexecutor.C59_insert",
    "Rexecutor.C59_conflict"
   ],
   "note": "Sequential; criteria of any shape."
  },
  {
   "property": "C60",
   "status": "proved",
   "theorems": [
    "Rexecutor.C60_bounded_sleep",
    "Rexecutor.C60_no_missed_job",
    "Rexecutor.C60_prompt",
    "Rexecutor.C60_wakes"
   ],
   "note": "No missed job (hypotheses: listener running and connection unbroken since the subscription), bounded sleep without any hypothesis, and progress."
  },
  {
   "property": "C61",
   "status": "partial",
   "theorems": [
    "Rexecutor.C61_violated",
    "Rexecutor.C61_survives_partial",
    "Rexecutor.C61_exactly"
   ],
   "note": "False as stated: a job scheduled after the year 9999 ends the listener (C61_violated, for any time whose notification cannot be parsed). Proved for schedules where every waiting row's time can be parsed; C61_exactly says exactly which steps end a listener."
  },
  {
   "property": "C62",
   "status": "proved",
   "theorems": [
    "Rexecutor.C62_attempt_counts_executions",
    "Rexecutor.C62_handout_attempt"
   ],
   "note": "On PgConc (any number of nodes at READ COMMITTED). Unconditional: unlike in memory, update and replace do not touch the attempt."
  },
  {
   "property": "C63",
   "status": "proved",
   "theorems": [
    "Rexecutor.C63_error_history",
    "Rexecutor.C63_append_only"
   ],
   "note": "On PgConc. Errors as stored (attempt, type text, message, time in microseconds); reading them back is C53."
  },
  {
   "property": "C64",
   "status": "proved",
   "theorems": [
    "Rexecutor.C64_status",
    "Rexecutor.C64_timestamps",
    "Rexecutor.C64_attempt_time"
   ],
   "note": "On PgConc. StatusRecorded and TimesRecorded are stated from the event history only."
  },
  {
   "property": "C65",
   "status": "proved",
   "theorems": [
    "Rexecutor.C65_finished_not_handed_out"
   ],
   "note": "On PgConc. Revival only by retry, snooze or rerun."
  },
  {
   "property": "C66",
   "status": "proved",
   "theorems": [
    "Rexecutor.C66_ids_unique"
   ],
   "note": "On PgConc; INTEGER ids below 2^31, afterwards inserts fail (modelled)."
  },
  {
   "property": "C67",
   "status": "proved",
   "theorems": [
    "Rexecutor.C67_by_id"
   ],
   "note": "On PgConc."
  },
  {
   "property": "C70",
   "status": "proved",
   "theorems": [
    "Rexecutor.C70_not_early"
   ],
   "note": "On PgConc with a clock that does not run backwards; times rounded to microseconds as the table has them."
  },
  {
   "property": "C71",
   "status": "partial",
   "theorems": [
    "Rexecutor.C71_violated",
    "Rexecutor.C71_names_stored_job_partial"
   ],
   "note": "False of the code: the job found can be pruned before the enqueue returns (C71_violated). Proved: the id returned is one that was inserted, and the job is in the table if no prune was committed since the enqueue took its lock. Missing: nothing; the rest does not hold."
  },
  {
   "property": "C72",
   "status": "partial",
   "theorems": [
    "Rexecutor.C72_fields",
    "Rexecutor.C72_otherwise",
    "Rexecutor.C72_violated",
    "Rexecutor.C72_status_partial"
   ],
   "note": "C72_fields and C72_otherwise hold in every schedule. The part about the status is false of the code (C72_violated): it is that of the check, the job can be handed out before the update. Proved: it holds if nothing touched the job in between."
  },
  {
   "property": "C68",
   "status": "proved",
   "theorems": [
    "Rexecutor.C68_failures_bounded",
    "Rexecutor.C68_discarded_iff",
    "Rexecutor.C68_snoozes_free"
   ],
   "note": "Any number of runners on one database with other clients; hypothesis OthersLeave: statements of other clients do not touch this job (checked in the history). The number of executions that fail is at most max_attempts, Discarded iff that many failures are recorded, and executions minus snoozes bounds the counter. Crashes, lost reports and dropped connections included."
  },
  {
   "property": "C69",
   "status": "partial",
   "theorems": [
    "Rexecutor.C69_violated",
    "Rexecutor.C69_stranded_for_good",
    "Rexecutor.C69_executing_has_executor_partial"
   ],
   "note": "False of the code: graceful shutdown while the hand-out statement of the stream is under way strands the job as Executing (C69_violated), and no continuation ever executes it (C69_stranded_for_good). The partial theorem covers all histories without such a shutdown, process ends, connection failures, undecodable jobs and runner panics."
  },
  {
   "property": "C73",
   "status": "proved",
   "theorems": [
    "Rexecutor.C73_limit"
   ],
   "note": "For every k >= 1; counts executions in flight plus the hand-out statement under way. (k = 0 means no limit, see C27.)"
  },
  {
   "property": "C74",
   "status": "proved",
   "theorems": [
    "Rexecutor.C74_runner_lifecycle"
   ],
   "note": "Every step of every history; hypothesis OthersLeave (other clients do not touch this job)."
  },
  {
   "property": "C75",
   "status": "partial",
   "theorems": [
    "Rexecutor.C75_nothing_started_partial",
    "Rexecutor.C75_in_flight_go_on",
    "Rexecutor.C75_at_most_one_partial",
    "Rexecutor.C75_violated"
   ],
   "note": "False on a runtime with several threads: take_until looks at the token when a poll begins, so a poll under way when the runner is told to stop can still receive a job, which is executed (C75_violated). At most one per runner; unless a poll was under way its stream does not move at all any more (C75_at_most_one_partial, runners with their streams); nothing once the runner has noticed (C75_nothing_started_partial). Executions in flight: equality of events, database and executions in flight with and without the stop for every continuation in which the runner does not ask for work (C75_in_flight_go_on). A job that was being handed out when the runner notices is stranded (C69)."
  },
  {
   "property": "C76",
   "status": "proved",
   "theorems": [
    "Rexecutor.C76_one_execution"
   ],
   "note": "Every history; hypothesis OthersLeave (a client's rerun of an executing job can make a second execution)."
  },
  {
   "property": "C77",
   "status": "proved",
   "theorems": [
    "Rexecutor.C77_builder",
    "Rexecutor.C77_order",
    "Rexecutor.C77_linear"
   ],
   "note": "Any chain of calls on any constructor. That constant strategies have no with_max is enforced by the Rust types."
  },
  {
   "property": "C78",
   "status": "partial",
   "theorems": [
    "Rexecutor.C78_cancel_before_start",
    "Rexecutor.C78_violated",
    "Rexecutor.C78_stays_cancelled_partial"
   ],
   "note": "First half proved. Second half violated: the report of an execution in flight overwrites the cancellation (C78_violated); proved when no runner has the job."
  },
  {
   "property": "C79",
   "status": "proved",
   "theorems": [
    "Rexecutor.C79_crash",
    "Rexecutor.C79_process_ends",
    "Rexecutor.C79_report_lost"
   ],
   "note": ""
  },
  {
   "property": "C80",
   "status": "partial",
   "theorems": [
    "Rexecutor.C80_violated_zero",
    "Rexecutor.C80_violated_lowered",
    "Rexecutor.C80_violated_rerun",
    "Rexecutor.C80_never_exceeded_partial",
    "Rexecutor.C80_edited_partial"
   ],
   "note": "Violated for max_attempts = 0, for lowered max_attempts and for a rerun during an execution (three witnesses). Proved for n >= 1 if other clients leave the job alone, and (C80_edited_partial) with arbitrary edits that keep max_attempts or set it above the attempts made and change the status only between executions."
  },
  {
   "property": "C81",
   "status": "partial",
   "theorems": [
    "Rexecutor.C81_rounding",
    "Rexecutor.C81_received_partial",
    "Rexecutor.C81_omitted_metadata_undecodable",
    "Rexecutor.C81_exactly",
    "Rexecutor.C81_violated"
   ],
   "note": "Proved when data and metadata are set, or left out and readable from null, for any history between insertion and first hand-out that does not touch the job; false when metadata of another type is omitted (C81_violated). C81_exactly: the executor receives it if and only if both were set or can be read from null."
  },
  {
   "property": "C82",
   "status": "proved",
   "theorems": [
    "Rexecutor.C82_write_back"
   ],
   "note": ""
  },
  {
   "property": "C83",
   "status": "proved",
   "theorems": [
    "Rexecutor.C83_cron",
    "Rexecutor.C83_cron_at_once",
    "Rexecutor.C83_pruner_at_once",
    "Rexecutor.C83_slow",
    "Rexecutor.C83_pruner"
   ],
   "note": "C83_slow: the bound on the lags is needed; when every enqueue takes a second, a loop with a tick each second may go on for any number of turns after the cancellation. C83_cron_at_once, C83_pruner_at_once: whatever the lags, a loop that takes the token whenever it can does exactly what it would have done before the stop."
  },
  {
   "property": "C84",
   "status": "proved",
   "theorems": [
    "Rexecutor.C84_no_starvation",
    "Rexecutor.C84_executed"
   ],
   "note": "At the level of the backend and at the level of runners. The clock is read once per request. Streams are taken to ask; that they do ask in time is C30."
  },
  {
   "property": "C85",
   "status": "proved",
   "theorems": [
    "Rexecutor.C85_executed",
    "Rexecutor.C85_overtaking",
    "Rexecutor.C85_handed_out"
   ],
   "note": "`C85_overtaking`: the row gets locked by a hand-out. `C85_handed_out`: it is handed out if no transaction is given up. `C85_executed`: an execution is started if moreover processes and streams go on. Rerun, update and replace of jobs of the same executor are excluded while counting."
  },
  {
   "property": "C86",
   "status": "partial",
   "theorems": [
    "Rexecutor.C86_goes_on_partial",
    "Rexecutor.C86_chokes_exactly",
    "Rexecutor.C86_never_recovers",
    "Rexecutor.C86_exactly",
    "Rexecutor.C86_violated"
   ],
   "note": "False as stated: C86_violated and C86_never_recovers. C86_exactly says when a runner stops: exactly after a shutdown, a job for which its own code panics (C86_chokes_exactly), or an execution that asked for a moment beyond chrono's range. C86_goes_on_partial: otherwise it is handed a due job; shutdown is C28."
  },
  {
   "property": "C87",
   "status": "partial",
   "theorems": [
    "Rexecutor.C87_goes_on_partial",
    "Rexecutor.C87_answer_taken",
    "Rexecutor.C87_never_recovers",
    "Rexecutor.C87_exactly",
    "Rexecutor.C87_violated"
   ],
   "note": "False as stated, as C86 (C87_violated, C87_never_recovers). C87_exactly says when a runner on Postgres stops asking; C87_goes_on_partial and C87_answer_taken say what it does otherwise."
  },
  {
   "property": "C88",
   "status": "proved",
   "theorems": [
    "Rexecutor.C88_replace",
    "Rexecutor.C88_all_statuses",
    "Rexecutor.C88_criteria"
   ],
   "note": "All constructors and calls of UniquenessCriteria and Replace."
  },
  {
   "property": "C89",
   "status": "proved",
   "theorems": [
    "Rexecutor.C89_own_jobs",
    "Rexecutor.C89_own_jobs_postgres"
   ],
   "note": "Both backends, at the level of runners."
  },
  {
   "property": "C90",
   "status": "partial",
   "theorems": [
    "Rexecutor.C90_goes_on_partial",
    "Rexecutor.C90_exactly",
    "Rexecutor.C90_never_recovers",
    "Rexecutor.C90_violated"
   ],
   "note": "False as stated: an age pruner with a very long age poisons the lock (C90_violated) and the backend never recovers (C90_never_recovers). C90_goes_on_partial: nothing else does. C90_exactly: the lock is poisoned after a schedule if and only if it contains a pruning call with an age reaching out of the range of DateTime<Utc>."
  },
  {
   "property": "C91",
   "status": "partial",
   "theorems": [
    "Rexecutor.C91_keeps_pruning_partial",
    "Rexecutor.C91_violated",
    "Rexecutor.C91_exactly"
   ],
   "note": "False as stated: an age pruner with a very long age stops the pruner at its first turn, on both backends (C91_violated). It goes on, and carries out everything, exactly if the moments it computes are within the range of DateTime (C91_exactly): in memory both the age before and the age after the time, on Postgres only the one that is compared."
  },
  {
   "property": "C92",
   "status": "proved",
   "theorems": [
    "Rexecutor.C92_memory",
    "Rexecutor.C92_postgres",
    "Rexecutor.C92_locked_differs"
   ],
   "note": "`C92_memory` for every state of the concurrent model; `C92_postgres` for every reachable state with no lock held. `C92_locked_differs` shows the lock hypothesis is needed: behind a lock the call waits."
  },
  {
   "property": "C93",
   "status": "proved",
   "theorems": [
    "Rexecutor.C93_handout",
    "Rexecutor.C93_constant",
    "Rexecutor.C93_unique",
    "Rexecutor.C93_overtakes"
   ],
   "note": "C93_handout: due at the latest reading, nothing eligible at the earliest reading and ahead of it is passed over. C93_unique: the same for the search of a unique enqueue. C93_constant: with one reading the functions are the ones used everywhere else. C93_overtakes: a witness that readings in between can give out a job that sorts later, so the bounds are needed. The prune call reads the clock once, before it takes the lock."
  },
  {
   "property": "C94",
   "status": "proved",
   "theorems": [
    "Rexecutor.C94_builder",
    "Rexecutor.C94_where",
    "Rexecutor.C94_unique"
   ],
   "note": "C94_builder: schedule_in; C94_where: the two relative time queries; C94_unique: the duration of uniqueness criteria on Postgres. The panic unwinds in the caller; in memory no such window is computed."
  },
  {
   "property": "C95",
   "status": "partial",
   "theorems": [
    "Rexecutor.C95_otherwise_same",
    "Rexecutor.C95_which",
    "Rexecutor.C95_violated",
    "Rexecutor.C95_stranded_for_good",
    "Rexecutor.C95_recorded_partial",
    "Rexecutor.C95_memory"
   ],
   "note": "Fails on Postgres: a text with the character U+0000 is refused by the database (assumption about PostgreSQL), the runner only logs that, and the job stays Executing. C95_violated is a witness; C95_stranded_for_good: this happens in every such history and is for good; C95_which: which outcomes these are. C95_recorded_partial: without that character the report is recorded if the row is stored and not locked by a concurrent transaction. C95_otherwise_same: without refusals the model is the one of the other claims. C95_memory: the in-memory backend records every text."
  },
  {
   "property": "C96",
   "status": "partial",
   "theorems": [
    "Rexecutor.C96_exactly",
    "Rexecutor.C96_otherwise_same",
    "Rexecutor.C96_ends_partial",
    "Rexecutor.C96_not_before",
    "Rexecutor.C96_violated",
    "Rexecutor.C96_queued_violated",
    "Rexecutor.C96_covered"
   ],
   "note": "False as stated: C96_violated (bodies that compute without waiting are never interrupted) and C96_queued_violated (waiting for a thread counts). C96_exactly says exactly which executions are ended by their timeout, C96_otherwise_same and C96_not_before the rest; C96_ends_partial bounds how late they end. C96_covered: all of these are among the endings the theorems about runners quantify over."
  },
  {
   "property": "C97",
   "status": "proved",
   "theorems": [
    "Rexecutor.C97_only_enabled",
    "Rexecutor.C97_only_enabled_postgres",
    "Rexecutor.C97_one_runner_per_call",
    "Rexecutor.C97_loops"
   ],
   "note": "Both backends; on Postgres next to any runners of other nodes."
  },
  {
   "property": "C98",
   "status": "partial",
   "theorems": [
    "Rexecutor.C98_limit_partial",
    "Rexecutor.C98_limit_postgres_partial",
    "Rexecutor.C98_violated",
    "Rexecutor.C98_reached",
    "Rexecutor.C98_reached_on_postgres"
   ],
   "note": "False as stated: C98_violated, an executor with limit 1 enabled with with_executor and with_cron_executor. Proved: the limits of all calls enabling it together are never exceeded, so the limit holds if there is one such call (C98_limit_partial, C98_limit_postgres_partial). That sum is reached, for every sequence of set-up calls, in memory (C98_reached) and on Postgres while the id sequence lasts (C98_reached_on_postgres)."
  },
  {
   "property": "C99",
   "status": "partial",
   "theorems": [
    "Rexecutor.C99_violated",
    "Rexecutor.C99_waited_partial"
   ],
   "note": "False as stated (C99_violated): the process can end while executions are in flight, and their jobs stay Executing for good. C99_waited_partial: nothing is lost if it ends when nothing is in flight."
  },
  {
   "property": "C100",
   "status": "partial",
   "theorems": [
    "Rexecutor.C100_outlives_partial",
    "Rexecutor.C100_spins",
    "Rexecutor.C100_no_jobs",
    "Rexecutor.C100_violated"
   ],
   "note": "False as stated: a prune call with an extreme age poisons the lock, after which a stream between looking and loading ends its runner and every other stream yields errors without ever waiting (C100_violated, C100_spins), and no job is handed out any more (C100_no_jobs). C100_outlives_partial: with ages within the range of time nothing of this happens."
  },
  {
   "property": "C101",
   "status": "partial",
   "theorems": [
    "Rexecutor.C101_executing_has_executor_partial",
    "Rexecutor.C101_violated",
    "Rexecutor.C101_stranded_for_good"
   ],
   "note": "False as stated: C101_violated is a unique enqueue with do-nothing resolution that found the job while it was executing and writes its stale copy back after the job was completed; it is Executing again with nobody working on it, and C101_stranded_for_good shows that it stays so until a client changes or prunes it. C101_executing_has_executor_partial: true in every history in which no runner crashes or loses a job it cannot decode and no client writes the status Executing."
  },
  {
   "property": "C102",
   "status": "proved",
   "theorems": [
    "Rexecutor.C102_last_in_memory",
    "Rexecutor.C102_last_on_postgres"
   ],
   "note": "C102_last_in_memory and C102_last_on_postgres; on Postgres including lost reports, ended processes and shutdown. Clients must leave the job alone (no rerun, update, replacement; reports by id from clients)."
  },
  {
   "property": "C103",
   "status": "partial",
   "theorems": [
    "Rexecutor.C103_exactly",
    "Rexecutor.C103_which",
    "Rexecutor.C103_exactly_postgres",
    "Rexecutor.C103_violated",
    "Rexecutor.C103_violated_postgres"
   ],
   "note": "False as stated (C103_violated, C103_violated_postgres). C103_exactly and C103_exactly_postgres say exactly when a query gives a result: if and only if every job it finds can be decoded. C103_which says which failure the caller sees otherwise."
  },
  {
   "property": "C104",
   "status": "proved",
   "theorems": [
    "Rexecutor.C104_in_memory",
    "Rexecutor.C104_on_postgres"
   ],
   "note": "In memory for jobs never edited (update_job and a uniqueness write-back replace the whole job); on Postgres executor, inserted_at, uniqueness key and status hold even for edited jobs. Time stamps on Postgres are C64; attempt and errors are C07, C10, C62, C63."
  },
  {
   "property": "C105",
   "status": "proved",
   "theorems": [
    "Rexecutor.C105_in_memory",
    "Rexecutor.C105_open_criteria_interfere",
    "Rexecutor.C105_shared_prune_interferes",
    "Rexecutor.C105_on_postgres"
   ],
   "note": "Two runs of one backend, compared at every step. Both runs take ids at the same moments, since ids come from one counter. Without the conditions the claim is false: C105_open_criteria_interfere, C105_shared_prune_interferes. On Postgres the calls run one at a time: interleaved, a statement of another executor can make a call wait, and two criteria can share an advisory lock."
  },
  {
   "property": "C106",
   "status": "partial",
   "theorems": [
    "Rexecutor.C106_in_memory_partial",
    "Rexecutor.C106_violated_rerun",
    "Rexecutor.C106_violated_conflict",
    "Rexecutor.C106_postgres_partial",
    "Rexecutor.C106_violated_postgres"
   ],
   "note": "Two executions of one job at once only if, at some earlier point, a client made the job wait (rerun, retry, snooze, update or write-back of a waiting copy; on Postgres rerun, retry, snooze) while an execution of it was in flight. The full claim is false: rerunning an executing job, or in memory a uniqueness conflict whose copy was taken before the hand-out, gives two."
  },
  {
   "property": "C107",
   "status": "partial",
   "theorems": [
    "Rexecutor.C107_own_partial",
    "Rexecutor.C107_own_postgres_partial",
    "Rexecutor.C107_exactly",
    "Rexecutor.C107_violated",
    "Rexecutor.C107_violated_move",
    "Rexecutor.C107_violated_postgres"
   ],
   "note": "A call naming an own job leaves every other executor's jobs alone. The full claim is false: the calls act on any stored id, and in memory an update may even change the executor; C107_exactly says when they succeed."
  },
  {
   "property": "C108",
   "status": "partial",
   "theorems": [
    "Rexecutor.C108_in_memory_partial",
    "Rexecutor.C108_postgres_partial",
    "Rexecutor.C108_violated",
    "Rexecutor.C108_violated_executing",
    "Rexecutor.C108_violated_postgres"
   ],
   "note": "The first half is proved for every stored job on both backends, whatever its status; the second half is false, as the witnesses show."
  },
  {
   "property": "C109",
   "status": "proved",
   "theorems": [
    "Rexecutor.C109_bounded_wait"
   ],
   "note": "The bound counts steps of the one stream; other streams and clients may do anything in between. The wake-up of a sleeping stream comes from C30."
  },
  {
   "property": "C110",
   "status": "partial",
   "theorems": [
    "Rexecutor.C110_max_age_partial",
    "Rexecutor.C110_exactly",
    "Rexecutor.C110_violated",
    "Rexecutor.C110_postgres_max_age",
    "Rexecutor.C110_postgres_max_length"
   ],
   "note": "Postgres: proved for both kinds. In memory: proved by age, false by length (C110_violated: everything is removed in the end); C110_exactly says what n prunes remove."
  },
  {
   "property": "C111",
   "status": "proved",
   "theorems": [
    "Rexecutor.C111_in_memory",
    "Rexecutor.C111_postgres"
   ],
   "note": "Both backends, for every permutation."
  },
  {
   "property": "C112",
   "status": "proved",
   "theorems": [
    "Rexecutor.C112_bounded_wait"
   ],
   "note": "The bound counts polls of the one stream. A sleeping stream that was not notified is counted from 30 s after it fell asleep (C60: no sleep is longer). Built on C85."
  },
  {
   "property": "C113",
   "status": "proved",
   "theorems": [
    "Rexecutor.C113_never_stuck",
    "Rexecutor.C113_all_finish"
   ],
   "note": "The two locks are always taken in the same order, advisory before row, and a session that has locked a row never waits. Modelled granularity: a one-statement call, also a `DELETE` of several rows, takes its row locks at once. A unique enqueue could starve if further unique enqueues with the same hash kept coming and Postgres were unfair; hence the condition that no further calls are begun."
  },
  {
   "property": "C114",
   "status": "proved",
   "theorems": [
    "Rexecutor.C114_atomic",
    "Rexecutor.C114_exclusive"
   ],
   "note": "For the model of the locks: the guards are held as long as in the code (a job change holds the lock on the jobs while it takes that on the subscribers), the sends of one notification are one action and a call reads the clock once. The atomic schedule is the one all other theorems on the in-memory backend are about. In every reachable state a lock held for writing is held by nobody else (C114_exclusive)."
  },
  {
   "property": "C115",
   "status": "proved",
   "theorems": [
    "Rexecutor.C115_never_stuck",
    "Rexecutor.C115_all_finish"
   ],
   "note": "For locks that are given to some thread that can have them. A lock that prefers waiting writers makes a waiting reader wait longer only while somebody else holds or is about to take the lock, and no thread takes the same lock twice."
  },
  {
   "property": "C116",
   "status": "partial",
   "theorems": [
    "Rexecutor.C116_violated",
    "Rexecutor.C116_exactly",
    "Rexecutor.C116_calls",
    "Rexecutor.C116_unique",
    "Rexecutor.C116_executors",
    "Rexecutor.C116_storable"
   ],
   "note": "False of the code for a text with U+0000 (C116_violated: stored in memory, refused by Postgres), and a plain enqueue, a call of one statement, or the last statement of a unique enqueue is refused for exactly that reason (C116_exactly, C116_calls, C116_unique); likewise the hand-outs of an executor and the duplicate search of a unique enqueue, by the executor's name (C116_executors). As long as no client hands over such a text, nothing at all is refused, over whole histories (C116_storable)."
  },
  {
   "property": "C117",
   "status": "partial",
   "theorems": [
    "Rexecutor.C117_violated",
    "Rexecutor.C117_violated_query",
    "Rexecutor.C117_calm_partial"
   ],
   "note": "False of the code: C117_violated (two overlapping hand-outs and a plain enqueue) and C117_violated_query (two overlapping hand-outs and a query), for every order of the calls. C117_calm_partial proves the claim for any number of overlapping hand-outs next to reports of how executions ended, plain enqueues and retries that are not yet due, and pruning of finished jobs. Missing: jobs becoming due meanwhile, queries, update, rerun, unique enqueues, hand-outs that are given up."
  },
  {
   "property": "C118",
   "status": "proved",
   "theorems": [
    "Rexecutor.C118_in_memory",
    "Rexecutor.C118_on_postgres"
   ],
   "note": "C118_in_memory and C118_on_postgres, for one runner; that several runners do not share the work is C26. Which ticks are served is C40."
  },
  {
   "property": "C119",
   "status": "proved",
   "theorems": [
    "Rexecutor.C119_on_postgres",
    "Rexecutor.C119_in_memory"
   ],
   "note": "C119_in_memory: the conditions are those of the claim: the executor is asked again and again (hpoll, htime), new waiting jobs are not scheduled more than l before now (hnew), a job handed out is started (hstart: it decodes), every execution reports (hends), snoozes stop (hsnooze), other clients do not hand out, finish or put back the job (hleave), and at most 2^32 ids are taken (hids). C119_on_postgres: the same on the concurrent statement machine; the calls made are carried on (hgo), not aborted (habort), their results are taken by the runner (htake) and none fails (hsm); for each value of the row nothing is queued in front of it from some moment on (hbehind)."
  },
  {
   "property": "C120",
   "status": "proved",
   "theorems": [
    "Rexecutor.C120_due_on_postgres",
    "Rexecutor.C120_on_postgres",
    "Rexecutor.C120_due_in_memory",
    "Rexecutor.C120_in_memory"
   ],
   "note": "Real times are an arbitrary assignment to the positions of the schedule (non-decreasing on Postgres); readings within d of them. Bounds are given as literal nanoseconds; the in-memory example attains the bound. On Postgres nobody may edit the row in between (edits and manual reruns are excluded by hypothesis)."
  },
  {
   "property": "C121",
   "status": "partial",
   "theorems": [
    "Rexecutor.C121_in_memory",
    "Rexecutor.C121_rate_in_memory",
    "Rexecutor.C121_taken",
    "Rexecutor.C121_on_postgres_partial",
    "Rexecutor.C121_rate_on_postgres_partial",
    "Rexecutor.C121_violated_postgres"
   ],
   "note": "Proved for both backends in the words of the claim (C121_in_memory, C121_on_postgres_partial: between any two looks; C121_rate_…: at most one look per 15 ms while what is found is overdue; C121_taken: an early look only if nothing of the executor is due any more). On Postgres it is false when the statements of a stream fail: each failure is followed by the next attempt with no wait, and the runner only logs it (C121_violated_postgres). In memory this happens after a poisoned lock (C100_spins)."
  },
  {
   "property": "C122",
   "status": "proved",
   "theorems": [
    "Rexecutor.C122_in_memory",
    "Rexecutor.C122_on_postgres"
   ],
   "note": "both backends; the stream is subscribed anywhere in an arbitrary history and is prompt from then on; in memory the job is one whose enqueue call has returned; on Postgres the clocks of node and database are the same and the listener keeps running"
  },
  {
   "property": "C123",
   "status": "partial",
   "theorems": [
    "Rexecutor.C123_spaced_on_postgres_partial",
    "Rexecutor.C123_begun_on_postgres_partial",
    "Rexecutor.C123_violated_on_postgres",
    "Rexecutor.C123_spaced_in_memory_partial",
    "Rexecutor.C123_begun_in_memory_partial",
    "Rexecutor.C123_violated_in_memory",
    "Rexecutor.C123_violated_late",
    "Rexecutor.C123_violated_overlapping"
   ],
   "note": "False with the documented criteria on both backends (C123_violated_in_memory, C123_violated_on_postgres): by_executor() looks at Scheduled jobs only. Proved when all statuses are looked at: scheduled times at least d apart (in memory for calls that do not overlap, on Postgres for every interleaving), executions d apart less their lateness and 100 ms; C123_violated_late and C123_violated_overlapping show that lateness and overlap cannot be dropped. Retries, snoozes, reruns and updates, which move jobs in time, are excluded."
  },
  {
   "property": "C124",
   "status": "proved",
   "theorems": [
    "Rexecutor.C124_in_memory",
    "Rexecutor.C124_on_postgres"
   ],
   "note": "On the machines that have runners and their real streams together (Live in memory, PgLive on Postgres): for_each_concurrent polls the stream only while there is room, take_until looks at the token at the beginning of a poll. \"Begins\" is the step in which the stream returns the job and the runner starts it (or finds it undecodable). A shutdown is excluded by the assumption that the runner keeps moving. On Postgres the row is due when first looked at (take a later t₁ otherwise), the stream returns no errors meanwhile, and another session may get the row instead."
  },
  {
   "property": "C125",
   "status": "proved",
   "theorems": [
    "Rexecutor.C125_same",
    "Rexecutor.C125_limit",
    "Rexecutor.C125_own_jobs",
    "Rexecutor.C125_attempts",
    "Rexecutor.C125_on_postgres",
    "Rexecutor.C125_limit_on_postgres",
    "Rexecutor.C125_own_jobs_on_postgres",
    "Rexecutor.C125_attempts_on_postgres",
    "Rexecutor.C125_one_execution_on_postgres"
   ],
   "note": "A simulation of Live by Sys in memory and of PgLive by PgSys on Postgres, so whatever is proved about histories of Sys and PgSys holds for runners with their streams. C125_limit, C125_own_jobs and C125_attempts are three such consequences in memory; the theorems ending in on_postgres are their counterparts on Postgres, with nodes, notifications, failing statements and processes that end; there also at most one execution of a job at a time."
  },
  {
   "property": "C126",
   "status": "proved",
   "theorems": [
    "Rexecutor.C126_in_memory",
    "Rexecutor.C126_on_postgres"
   ],
   "note": "In memory and on Postgres, with runners and their streams (the machines Live and PgLive). Composes C124 with the one-execution-at-a-time bookkeeping of C125, attempt after attempt. Hypotheses: at least one attempt left (see C08: a job without attempts left is retried for ever) and, in memory, that no more than 2^32 ids are taken; on Postgres the 15.001 ms contain 1 µs for the rounding of the stored time."
  },
  {
   "property": "C127",
   "status": "proved",
   "theorems": [
    "Rexecutor.C127_in_memory",
    "Rexecutor.C127_on_postgres",
    "Rexecutor.C127_bound_attained"
   ],
   "note": "Discharges the assumption that INTEGER columns do not overflow, for every history that is not absurdly long. C127_bound_attained: one rerun more and max_attempts would be 2147483648. In memory update_job writes attempt as well (a u16 from the public job type), so attempt is at most 65535 + the number of hand-outs there."
  },
  {
   "property": "C128",
   "status": "proved",
   "theorems": [
    "Rexecutor.C128_pruner_runs",
    "Rexecutor.C128_deleted_on_postgres",
    "Rexecutor.C128_kept_on_postgres",
    "Rexecutor.C128_deleted_in_memory",
    "Rexecutor.C128_kept_in_memory"
   ],
   "note": "Both backends; deletion needs the prune calls of the runs in the interval to be carried out (C41_each_once, C91 say when they are); on Postgres up to a microsecond, which the table cuts off."
  },
  {
   "property": "C129",
   "status": "proved",
   "theorems": [
    "Rexecutor.C129_in_memory",
    "Rexecutor.C129_over_in_memory",
    "Rexecutor.C129_on_postgres"
   ],
   "note": "`C129_in_memory`: begun, whether the runner subscribed before or after the call; `C129_over_in_memory`, `C129_on_postgres`: over, for calls made after the runner subscribed. The hypotheses on the runner are those of C124 and C126."
  },
  {
   "property": "C130",
   "status": "proved",
   "theorems": [
    "Rexecutor.C130_enqueued",
    "Rexecutor.C130_every_tick",
    "Rexecutor.C130_in_memory",
    "Rexecutor.C130_over_in_memory",
    "Rexecutor.C130_over_on_postgres"
   ],
   "note": "`C130_enqueued` and `C130_every_tick` bound the cron runner alone; `C130_in_memory` (begun), `C130_over_in_memory` and `C130_over_on_postgres` (over) compose it with C40 and C129. That the call of the turn stores the job and returns when the turn says it does are hypotheses linking the two machines; C118 shows that every call stores exactly one job."
  },
  {
   "property": "C131",
   "status": "partial",
   "theorems": [
    "Rexecutor.C131_fresh",
    "Rexecutor.C131_again",
    "Rexecutor.C131_failed",
    "Rexecutor.C131_cut_short_partial",
    "Rexecutor.C131_violated",
    "Rexecutor.C131_down"
   ],
   "note": "The claim is false (C131_violated): the script has its own BEGIN and COMMIT, which ends the transaction of sqlx, so that a crash after it and before the migration is recorded makes every later run fail for good. For a crash anywhere else it is proved (C131_cut_short_partial), as are the first run, repeated runs and the undo script."
  },
  {
   "property": "C132",
   "status": "partial",
   "theorems": [
    "Rexecutor.C132_exactly",
    "Rexecutor.C132_violated"
   ],
   "note": "The claim is false in both orders (C132_violated): both migrators use the table _sqlx_migrations and sqlx refuses versions it does not know. C132_exactly says when a migrator refuses."
  },
  {
   "property": "C133",
   "status": "partial",
   "theorems": [
    "Rexecutor.C133_right_clock",
    "Rexecutor.C133_on_tick",
    "Rexecutor.C133_order",
    "Rexecutor.C133_once_partial",
    "Rexecutor.C133_no_skip",
    "Rexecutor.C133_exactly",
    "Rexecutor.C133_violated"
   ],
   "note": "Served twice: C133_violated (a clock set back by however little lets a runner enqueue a second job for the tick, which is stored, because uniqueness of cron jobs does not work, C26). C133_exactly: when a turn repeats or goes back. C133_once_partial: never if the clock loses no more time between two turns than the second sleep overshoots by. C133_on_tick, C133_order, C133_no_skip hold for all errors within d; C133_right_clock ties the loop to that of C40."
  },
  {
   "property": "C134",
   "status": "proved",
   "theorems": [
    "Rexecutor.C134_in_memory",
    "Rexecutor.C134_on_postgres"
   ],
   "note": "In memory by 30.015 s + 8ε after the job waits (or 15 ms + 6ε after it is due), on Postgres 30.015 s + 12ε (or 15 ms + 10ε). The stream's promptness is the only assumption about tasks; C122 has the short bound when notifications arrive."
  },
  {
   "property": "C135",
   "status": "proved",
   "theorems": [
    "Rexecutor.C135_in_memory",
    "Rexecutor.C135_right_clock",
    "Rexecutor.C135_on_postgres",
    "Rexecutor.C135_right_clock_postgres"
   ],
   "note": "In memory by 30 s + 6ε, on Postgres by 30 s + 10ε of real time after all readings are past the job's time. Model/StreamClock.lean separates the clock that is read from the timer; with readings that are right it is the machine of C122 (C135_right_clock, C135_right_clock_postgres). The in-memory example has a job wait 28 s although the clock is right again."
  },
  {
   "property": "C136",
   "status": "partial",
   "theorems": [
    "Rexecutor.C136_looks_partial",
    "Rexecutor.C136_looks_on_postgres_partial",
    "Rexecutor.C136_worked_off_partial",
    "Rexecutor.C136_worked_off_on_postgres_partial",
    "Rexecutor.C136_violated",
    "Rexecutor.C136_violated_on_postgres"
   ],
   "note": "The bound is false of the code: C136_violated and C136_violated_on_postgres give, for every n, a schedule after which n messages wait though no job waits (in memory) or one job due in an hour does (Postgres). Proved: from any state on a stream looks at most once more often than it returns a job or an error, takes a message or has its timer run out; and while nothing new comes in it takes at most the messages that were waiting."
  },
  {
   "property": "C137",
   "status": "proved",
   "theorems": [
    "Rexecutor.C137_in_memory",
    "Rexecutor.C137_due",
    "Rexecutor.C137_once",
    "Rexecutor.C137_on_postgres",
    "Rexecutor.C137_due_on_postgres",
    "Rexecutor.C137_once_on_postgres"
   ],
   "note": "C137_in_memory and C137_on_postgres: a schedule with arbitrary clock readings makes the calls of an ordinary schedule at the times shown, whose theorems need no clock that runs forward. C137_due and C137_due_on_postgres: never early. C137_once and C137_once_on_postgres: not twice."
  },
  {
   "property": "C138",
   "status": "proved",
   "theorems": [
    "Rexecutor.C138_in_memory",
    "Rexecutor.C138_on_postgres"
   ],
   "note": "C124 and C134 together, on the machines with runners and their streams (Live in memory, PgLive on Postgres). The backend may be paused; nothing at all is asked of listeners. The proofs are those of C124 with one more place the stream can be in: it has looked and found nothing in time, and will sleep for at most 30 s. On Postgres the row is due when first looked at (take a later t₁ otherwise), the stream returns no errors meanwhile, and another session may get the row instead."
  },
  {
   "property": "C139",
   "status": "proved",
   "theorems": [
    "Rexecutor.C139_runner_alone_on_postgres",
    "Rexecutor.C139_in_memory",
    "Rexecutor.C139_alone",
    "Rexecutor.C139_on_postgres",
    "Rexecutor.C139_alone_on_postgres",
    "Rexecutor.C139_runner_in_memory",
    "Rexecutor.C139_runner_alone",
    "Rexecutor.C139_runner_on_postgres"
   ],
   "note": "Streams and runners on both backends. From every state that a prompt schedule reaches there is a prompt continuation by the stream (runner) alone past any given time; each step of the stream in it does something. With C134: a stream left alone returns a waiting job in time; with C138 (`C139_runner_alone`, `C139_runner_alone_on_postgres`): a runner left alone begins with it. The runner theorems allow for a panic of the runner over a job its stream returns (C86); those on Postgres let a report fail only when its statement would have to wait for a row another session has locked, and the last assumes that the job is due and allows for an error of the stream (a row that does not decode)."
  },
  {
   "property": "C140",
   "status": "partial",
   "theorems": [
    "Rexecutor.C140_at_once_in_memory",
    "Rexecutor.C140_at_once_on_postgres",
    "Rexecutor.C140_violated_in_memory",
    "Rexecutor.C140_violated_on_postgres",
    "Rexecutor.C140_in_memory_partial",
    "Rexecutor.C140_on_postgres_partial"
   ],
   "note": "false of the code: `C140_violated_in_memory` and `C140_violated_on_postgres` have a job that finished a second ago deleted by a pruner of jobs an hour old. `C140_at_once_*`: a job that finished `age` or more after its scheduled time goes with the first prune. What holds (`C140_*_partial`): it is kept until `age` minus the lateness, minus twice the error of the clocks, after it finished. Missing: the lateness, which the code takes off."
  },
  {
   "property": "C141",
   "status": "partial",
   "theorems": [
    "Rexecutor.C141_agree_partial",
    "Rexecutor.C141_histories_partial",
    "Rexecutor.C141_violated"
   ],
   "note": "false of the code in five ways (`C141_violated`). `C141_agree_partial`: with criteria without a key and without the other four differences the results and the stores agree; `C141_histories_partial` extends C50 by such enqueues. Missing: exactly those five cases."
  },
  {
   "property": "C142",
   "status": "partial",
   "theorems": [
    "Rexecutor.C142_query_partial",
    "Rexecutor.C142_update_partial",
    "Rexecutor.C142_prune_age_exactly",
    "Rexecutor.C142_prune_length_only_if",
    "Rexecutor.C142_prune_length_partial",
    "Rexecutor.C142_histories_partial",
    "Rexecutor.C142_violated"
   ],
   "note": "false of the code in five ways (`C142_violated`). `C142_query_partial`: queries that are disjunctions of conjunctions find the same jobs (missing: the others, C43/C44, and the order). `C142_update_partial`: updates of the six fields. `C142_prune_age_exactly` says exactly when pruning by age agrees; `C142_prune_length_only_if` and `C142_prune_length_partial` when pruning by number does. `C142_histories_partial` puts them together with C50 and C141."
  },
  {
   "property": "C143",
   "status": "partial",
   "theorems": [
    "Rexecutor.C143_in_memory",
    "Rexecutor.C143_violated_on_postgres",
    "Rexecutor.C143_on_postgres_partial"
   ],
   "note": "True in memory (C143_in_memory). Violated on Postgres for every job that is not of the highest priority, over histories of any length (C143_violated_on_postgres). On Postgres it holds if the jobs enqueued meanwhile are less urgent, or as urgent and due later (C143_on_postgres_partial; for interleaved transactions see C85)."
  },
  {
   "property": "C144",
   "status": "partial",
   "theorems": [
    "Rexecutor.C144_on_postgres",
    "Rexecutor.C144_exactly_in_memory",
    "Rexecutor.C144_violated_in_memory"
   ],
   "note": "Postgres: proved (C144_on_postgres), for every interleaving. In memory false (C144_violated_in_memory); C144_exactly_in_memory gives the exact number after any number of rounds of enqueues and prunes."
  },
  {
   "property": "C145",
   "status": "proved",
   "theorems": [
    "Rexecutor.C145_in_memory",
    "Rexecutor.C145_on_postgres",
    "Rexecutor.C145_runners_in_memory",
    "Rexecutor.C145_runners_on_postgres"
   ],
   "note": "Both backends: C145_in_memory, from any state by id (an update may change the executor there), C145_on_postgres from any reachable state, with executor and time of insertion. The prune that removed the job is named, with the job as it was just before it. C145_runners_in_memory and C145_runners_on_postgres: the same with runners, and the prune is an action of a client."
  },
  {
   "property": "C146",
   "status": "proved",
   "theorems": [
    "Rexecutor.C146_in_memory",
    "Rexecutor.C146_returned_in_memory",
    "Rexecutor.C146_on_postgres",
    "Rexecutor.C146_returned_on_postgres"
   ],
   "note": "Both backends. C146_in_memory and C146_on_postgres count from the step that stores the job. C146_returned_in_memory and C146_returned_on_postgres are for the id an enqueue returned; the prune may come between the look at the store and the return (compare C71). A plain enqueue on Postgres returns at the step that stores the row."
  },
  {
   "property": "C147",
   "status": "proved",
   "theorems": [
    "Rexecutor.C147_in_memory",
    "Rexecutor.C147_on_postgres"
   ],
   "note": "C147_in_memory (in the model with the poisoned lock) and C147_on_postgres (unique enqueues). Outside the model and the claim: a connection that fails while the commit is under way, where the row may be stored though the call returns an error. A plain enqueue on Postgres is a single statement, for which there is nothing in between."
  }
 ]
}