import Verif.Model.Memory

/-! What it means for a stored job to be a duplicate, and for one to be replaced. -/

namespace Rexecutor

/-- Stored job `k` is a duplicate of the new job `e` with respect to `e`'s
criteria, where the uniqueness window is around time `t`. -/
structure Duplicate (t : Time) (e : EnqueuableJob) (uc : Criteria) (k : KeyedJob) : Prop where
  key : k.key = uc.key
  executor : uc.executor = true → k.job.executor = e.executor
  status : k.job.status ∈ uc.statuses
  window : ∀ d, uc.duration = some d → t - d < k.job.scheduledAt ∧ k.job.scheduledAt < t + d

instance (t : Time) (e : EnqueuableJob) (uc : Criteria) (k : KeyedJob) : Decidable (Duplicate t e uc k) :=
  @decidable_of_iff _ (k.key = uc.key ∧ (uc.executor = true → k.job.executor = e.executor) ∧
      k.job.status ∈ uc.statuses ∧
      (match uc.duration with
        | none => True
        | some d => t - d < k.job.scheduledAt ∧ k.job.scheduledAt < t + d))
    (by
      constructor
      · rintro ⟨a, b, c, d⟩
        refine ⟨a, b, c, ?_⟩
        intro x hx; rw [hx] at d; exact d
      · rintro ⟨a, b, c, d⟩
        refine ⟨a, b, c, ?_⟩
        split
        · trivial
        · exact d _ ‹_›)
    (by cases uc.duration <;> infer_instance)

/-- Job `j'` is `j` with exactly the flagged fields taken from `e`. -/
def ReplacedBy (r : Replace) (e : EnqueuableJob) (j j' : Job) : Prop :=
  j'.scheduledAt = (if r.scheduledAt then e.scheduledAt else j.scheduledAt) ∧
  j'.data = (if r.data then e.data else j.data) ∧
  j'.metadata = (if r.metadata then e.metadata else j.metadata) ∧
  j'.priority = (if r.priority then (e.priority : Int) else j.priority) ∧
  j'.maxAttempts = (if r.maxAttempts then (e.maxAttempts : Int) else j.maxAttempts) ∧
  j'.id = j.id ∧ j'.status = j.status ∧ j'.executor = j.executor ∧ j'.attempt = j.attempt ∧
  j'.tags = j.tags ∧ j'.errors = j.errors ∧ j'.insertedAt = j.insertedAt ∧
  j'.attemptedAt = j.attemptedAt ∧ j'.completedAt = j.completedAt ∧
  j'.cancelledAt = j.cancelledAt ∧ j'.discardedAt = j.discardedAt

/-- `k` is the job `e` as stored under the id `id` at time `now`: waiting, never
attempted. -/
def StoredAs (now : Time) (e : EnqueuableJob) (id : Int) (k : KeyedJob) : Prop :=
  k.job.id = id ∧ k.job.status = .scheduled ∧ k.job.executor = e.executor ∧
  k.job.data = e.data ∧ k.job.metadata = e.metadata ∧ k.job.attempt = 0 ∧
  k.job.maxAttempts = e.maxAttempts ∧ k.job.priority = e.priority ∧ k.job.tags = e.tags ∧
  k.job.errors = [] ∧ k.job.insertedAt = now ∧ k.job.scheduledAt = e.scheduledAt ∧
  k.job.attemptedAt = none ∧ k.job.completedAt = none ∧ k.job.cancelledAt = none ∧
  k.job.discardedAt = none ∧
  k.key = match e.criteria with
    | some uc => uc.key
    | none => none

end Rexecutor
