import Verif.Model.Memory

/-! What a prune specification selects. -/

namespace Rexecutor

/-- The prune specification looks at job `j`: the status is the requested one and
the executor is one of the named ones, or none of the excluded ones. -/
def PruneSpec.Selects (s : PruneSpec) (j : Job) : Prop :=
  j.status = s.status ∧
    match s.executors with
    | .only es => j.executor ∈ es
    | .except es => j.executor ∉ es

instance (s : PruneSpec) (j : Job) : Decidable (s.Selects j) := by
  unfold PruneSpec.Selects
  cases s.executors <;> infer_instance

/-- The prune specification is about jobs of executor `x`. -/
def PruneSpec.IsAbout (s : PruneSpec) (x : String) : Prop :=
  match s.executors with
  | .only es => x ∈ es
  | .except es => x ∉ es

end Rexecutor
