import Verif.Model.Builder
import Verif.Model.PgConc
import Verif.Model.Runner

/-!
# Arithmetic on times in the caller (builder.rs, query.rs, unique.rs)

`DateTime<Utc> + TimeDelta` and `-` panic when the result is outside the range of chrono.
The functions here are those of `Builder`, `Typed` and `Pg` with these panics: `none`.
-/

namespace Rexecutor

/-- `DateTime<Utc> - TimeDelta`, which panics outside chrono's range. -/
def subTime (t : Time) (d : Delta) : Option Time :=
  if minTime ≤ t - d ∧ t - d ≤ maxTime then some (t - d) else none

/-- One call on a builder, as `JobBuilder.apply`; `schedule_in` (builder.rs:262-267)
computes `Utc::now() + schedule_in`. -/
def JobBuilder.applyChecked (b : JobBuilder D M) : BuilderCall D M → Option (JobBuilder D M)
  | .scheduleIn now d => (addTime now d).map fun t => { b with scheduledAt := t }
  | call => some (b.apply call)

/-- A chain of calls on a builder; the first panic ends it. -/
def JobBuilder.applyAllChecked (b : JobBuilder D M) : List (BuilderCall D M) → Option (JobBuilder D M)
  | [] => some b
  | call :: calls => (b.applyChecked call).bind fun b' => b'.applyAllChecked calls

/-- `Where::scheduled_at_older_than`, query.rs:272-274. -/
def Where.scheduledAtOlderThanChecked (now : Time) (d : Delta) : Option (TQuery D M) :=
  (subTime now d).map .scheduledAtBefore

/-- `Where::scheduled_at_within_the_last`, query.rs:277-279. -/
def Where.scheduledAtWithinTheLastChecked (now : Time) (d : Delta) : Option (TQuery D M) :=
  (subTime now d).map .scheduledAtAfter

/-- The two cut-offs of `UniquenessCriteria::query`, rexecutor-sqlx/src/unique.rs:51-56. -/
def Criteria.windowChecked (uc : Criteria) (scheduledAt : Time) : Option Unit :=
  match uc.duration with
  | none => some ()
  | some d => (subTime scheduledAt d).bind fun _ => (addTime scheduledAt d).map fun _ => ()

/-- The steps of a unique `enqueue` on Postgres whose cut-offs cannot be computed
(rexecutor-sqlx/src/lib.rs:185-199): the transaction begins, takes the advisory lock, the
caller's future panics while building the query, and the dropped transaction is rolled
back. -/
def PgConc.enqueuePanics (hash : HashFn) (tie : Int → Nat) (now : Time) (e : EnqueuableJob) (uc : Criteria)
    (c : PgConc) : PgConc :=
  c.run hash [⟨now, tie, .unique e uc⟩, ⟨now, tie, .advance c.sessions.length⟩, ⟨now, tie, .abort c.sessions.length⟩]

end Rexecutor
