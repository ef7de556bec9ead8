import Verif.Model.Stream

/-! # Vocabulary for statements about streams -/

namespace Rexecutor

/-- The job is waiting to be executed. -/
def Job.available (j : Job) : Prop := j.status = .scheduled ∨ j.status = .retryable

instance (j : Job) : Decidable j.available := by unfold Job.available; infer_instance

/-- The enqueue call that stored this job has not returned yet. -/
def Conc.enqueuing (c : Conc) (j : Job) : Prop :=
  ∃ e, Pending.pushed j.id e ∈ c.calls ∧ e.executor = j.executor

/-- The action is `notify_all`. -/
def StAct.isNotifyAll : StAct → Bool
  | .client (.op .notifyAll) => true
  | _ => false

end Rexecutor
