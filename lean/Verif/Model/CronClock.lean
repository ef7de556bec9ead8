import Verif.Model.Cron

/-!
# The cron runner with a clock that is set (rexecutor/src/cron_runner.rs)

`Cron.turn` takes all times from one clock. The code takes them from two: it asks the clock of
the machine what time it is (`Utc::now()`), and it sleeps by the timer of tokio, which counts
elapsed time. The two part when the clock of the machine is set, or runs fast or slow.
-/

namespace Rexecutor

/-- By how much the clock of the machine is ahead of the elapsed time (negative: behind), at
each of the readings of one turn. -/
structure ClockErrs where
  /-- inside `upcoming` (cron_runner.rs:48-49) -/
  looking : Int
  /-- the `Utc::now()` of cron_runner.rs:53 -/
  sleeping : Int
  /-- when the builder of the job is made (cron_runner.rs:82) -/
  making : Int
  /-- the `Utc::now()` of cron_runner.rs:60 -/
  after : Int
  deriving DecidableEq, Repr

/-- One turn of the loop that looks at the schedule when the time is `t`, cron_runner.rs:45-65,
as `Cron.turn`. The times of the result are true times; the clock is off by `e`. -/
def Cron.turnErrs (c : Cron D M) (t : Time) (l : Lags) (e : ClockErrs) : Option Turn :=
  match c.schedule.next (t + e.looking) with
  | none => none
  | some next =>
    let read : Time := t + l.reading
    let delay : Delta := max 0 (next - (read + e.sleeping) - 10 * ms)
    let wake : Time := read + delay + l.oversleep
    let done : Time := wake + l.enqueue
    let left : Delta := next - (done + e.after)
    let again : Time := (if left > 0 then done + left else done) + l.rest
    some { began := t, tick := next, at' := wake, job := c.job (wake + e.making) next, done := done, again := again }

/-- The turns of the loop started at time `t` (until it is cancelled or panics), as `Cron.loop`. -/
def Cron.loopErrs (c : Cron D M) (t : Time) : List (Lags × ClockErrs) → List Turn
  | [] => []
  | (l, e) :: ls =>
    match c.turnErrs t l e with
    | none => []
    | some turn => turn :: c.loopErrs turn.again ls

end Rexecutor
