import Verif.Model.Memory

/-! Vocabulary for statements about single calls on the in-memory store. -/

namespace Rexecutor

/-- The job a call addresses by id, if it does so. -/
def Op.target : Op → Option Int
  | .complete id => some id
  | .retryable id _ _ => some id
  | .discarded id _ => some id
  | .cancelled id _ => some id
  | .snoozed id _ => some id
  | .rerun id => some id
  | .update job => some job.id
  | _ => none

/-- Job `j` may be handed out to executor `x` at time `now`: it is for `x`, is
waiting, and is due less than 100 ms after `now`. -/
structure Eligible (now : Time) (x : String) (j : Job) : Prop where
  executor : j.executor = x
  waiting : j.status = .scheduled ∨ j.status = .retryable
  due : j.scheduledAt < now + 100000000

instance (now : Time) (x : String) (j : Job) : Decidable (Eligible now x j) :=
  decidable_of_iff (j.executor = x ∧ (j.status = .scheduled ∨ j.status = .retryable)
      ∧ j.scheduledAt < now + 100000000)
    ⟨fun ⟨a, b, c⟩ => ⟨a, b, c⟩, fun ⟨a, b, c⟩ => ⟨a, b, c⟩⟩

/-- The job after being handed out at time `now`: one attempt more, executing. -/
def handedOut (now : Time) (j : Job) : Job :=
  { j with status := .executing, attempt := j.attempt + 1, attemptedAt := some now }

/-- `(scheduled time, priority, position)` of one job comes no later than that
of another. -/
def FirstInLine (a : Job) (i : Nat) (b : Job) (i' : Nat) : Prop :=
  a.scheduledAt < b.scheduledAt ∨
  (a.scheduledAt = b.scheduledAt ∧ (a.priority < b.priority ∨ (a.priority = b.priority ∧ i ≤ i')))

end Rexecutor
