import Verif.Model.Builder
import Verif.Model.Criteria

/-!
# The cron runner (rexecutor/src/cron_runner.rs)

The loop of one cron runner. How long the steps between two readings of the clock
take, and by how much a sleep overshoots, is not determined: the lengths are inputs.
-/

namespace Rexecutor

/-- `cron::Schedule` in a time zone, through its only use
`upcoming(timezone).next()` (cron_runner.rs:46-51): the first tick strictly after the
given time, `none` if there is none. The three facts are what the `cron` crate
documents; they are assumed of it, not proved. -/
structure Schedule where
  tick : Time → Prop
  next : Time → Option Time
  next_tick : ∀ {t n}, next t = some n → tick n
  next_after : ∀ {t n}, next t = some n → t < n
  next_first : ∀ {t n u}, next t = some n → t < u → u < n → ¬ tick u

/-- What the loop needs of the executor and of the data of the cron job. `keyHash` is
the hash of the data. -/
structure Cron (D M : Type) where
  schedule : Schedule
  consts : ExecutorConsts
  cd : Codec D
  cm : Codec M
  data : D
  keyHash : Int

/-- The undetermined lengths of one turn of the loop, in nanoseconds. -/
structure Lags where
  /-- between `upcoming` and `Utc::now()` (cron_runner.rs:46-53) -/
  reading : Nat
  /-- by which the first sleep overshoots (cron_runner.rs:58) -/
  oversleep : Nat
  /-- the enqueue, until the clock is read again (cron_runner.rs:59-60) -/
  enqueue : Nat
  /-- by which the second sleep overshoots, and until the loop looks at the schedule
  again (cron_runner.rs:61-63, 46) -/
  rest : Nat

/-- The uniqueness criteria of cron jobs (cron_runner.rs:77-80). -/
def cronCriteria (keyHash : Int) : Criteria :=
  (((Criteria.byExecutor).andWithin 0).andKey keyHash).andExecutor

/-- The job enqueued for a tick (cron_runner.rs:82-86); `none` if the data cannot be
serialised, which is logged (cron_runner.rs:88-90). `now` is when the builder is made. -/
def Cron.job (c : Cron D M) (now tick : Time) : Option EnqueuableJob :=
  JobBuilder.build c.consts c.cd c.cm
    ((JobBuilder.init now).applyAll
      [.scheduleAt tick, .withData c.data, .unique (cronCriteria c.keyHash)])

/-- One turn of the loop as seen from outside. -/
structure Turn where
  /-- when it looked at the schedule -/
  began : Time
  /-- the tick it is for -/
  tick : Time
  /-- when it called `enqueue` -/
  at' : Time
  /-- what it passed to the backend -/
  job : Option EnqueuableJob
  /-- when that call returned -/
  done : Time
  /-- when it will look at the schedule again -/
  again : Time

/-- One turn of the loop that looks at the schedule at time `t`, cron_runner.rs:45-65,
if it is not cancelled during the first sleep. `none` if there is no further tick: the
task panics (`expect`, line 50). -/
def Cron.turn (c : Cron D M) (t : Time) (l : Lags) : Option Turn :=
  match c.schedule.next t with
  | none => none
  | some next =>
    let read : Time := t + l.reading
    let delay : Delta := max 0 (next - read - 10 * ms)
    let wake : Time := read + delay + l.oversleep
    let done : Time := wake + l.enqueue
    let again : Time := (if next - done > 0 then next else done) + l.rest
    some { began := t, tick := next, at' := wake, job := c.job wake next, done := done, again := again }

/-- The turns of the loop started at time `t` (until it is cancelled or panics). -/
def Cron.loop (c : Cron D M) (t : Time) : List Lags → List Turn
  | [] => []
  | l :: ls =>
    match c.turn t l with
    | none => []
    | some turn => turn :: c.loop turn.again ls

/-! ## Shutdown -/

/-- Whether a turn that looks at the schedule at time `t` and sees the tick `next` ends in the
`cancelled()` branch of the `select!` (cron_runner.rs:57-71, pruner/runner.rs:37-51), when the
token is cancelled at time `stop`. If the token was cancelled before, that branch is ready at
the first poll, and the sleep is not unless its length is zero. Otherwise, if the token is
cancelled no later than the task is polled after the sleep, either may happen, which is an
input (`pick`): both branches may be ready when the task is polled, and `select!` then takes
any. Nothing else in the loop looks at the token. -/
def stopsTurn (stop t next : Time) (l : Lags) (pick : Bool) : Bool :=
  let read : Time := t + l.reading
  let delay : Delta := max 0 (next - read - 10 * ms)
  (decide (stop ≤ read) && decide (0 < delay)) || (decide (stop ≤ read + delay + l.oversleep) && pick)

/-- The turns of the loop started at time `t` when the token is cancelled at time `stop`,
until it is stopped or panics. -/
def Cron.loopUntil (c : Cron D M) (stop t : Time) : List (Lags × Bool) → List Turn
  | [] => []
  | (l, pick) :: ls =>
    match c.turn t l with
    | none => []
    | some turn => if stopsTurn stop t turn.tick l pick then [] else turn :: c.loopUntil stop turn.again ls

end Rexecutor
