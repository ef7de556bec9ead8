import Verif.Model.Typed

/-! What a query means, as a statement about a job. -/

namespace Rexecutor

/-- The meaning of a backend query. -/
def Query.Holds (j : Job) : Query → Prop
  | .not q => ¬ q.Holds j
  | .and qs => ∀ q, (_ : q ∈ qs) → q.Holds j
  | .or qs => ∃ q, ∃ (_ : q ∈ qs), q.Holds j
  | .executorEqual e => j.executor = e
  | .dataEquals d => j.data = d
  | .metadataEquals m => j.metadata = m
  | .idEquals id => j.id = id
  | .idIn ids => j.id ∈ ids
  | .statusEqual s => j.status = s
  | .tagsAllOf tags => ∀ t ∈ tags, t ∈ j.tags
  | .tagsOneOf tags => ∃ t ∈ tags, t ∈ j.tags
  | .scheduledAtBefore t => j.scheduledAt < t
  | .scheduledAtAfter t => t < j.scheduledAt
  | .scheduledAtEqual t => j.scheduledAt = t
termination_by q => sizeOf q
decreasing_by
  all_goals simp_wf
  · have := List.sizeOf_lt_of_mem ‹_›; omega
  · have := List.sizeOf_lt_of_mem ‹_›; omega

/-- The meaning of a `Where` query about a stored job; data and metadata are
compared with the serialised value. -/
def TQuery.Holds (cd : Codec D) (cm : Codec M) (j : Job) : TQuery D M → Prop
  | .not q => ¬ q.Holds cd cm j
  | .and qs => ∀ q, (_ : q ∈ qs) → q.Holds cd cm j
  | .or qs => ∃ q, ∃ (_ : q ∈ qs), q.Holds cd cm j
  | .dataEquals d => cd.enc d = some j.data
  | .metadataEquals m => cm.enc m = some j.metadata
  | .idEquals id => j.id = id
  | .idIn ids => j.id ∈ ids
  | .statusEqual s => j.status = s
  | .tagsAllOf tags => ∀ t ∈ tags, t ∈ j.tags
  | .tagsOneOf tags => ∃ t ∈ tags, t ∈ j.tags
  | .scheduledAtBefore t => j.scheduledAt < t
  | .scheduledAtAfter t => t < j.scheduledAt
  | .scheduledAtEqual t => j.scheduledAt = t
termination_by q => sizeOf q
decreasing_by
  all_goals simp_wf
  · have := List.sizeOf_lt_of_mem ‹_›; omega
  · have := List.sizeOf_lt_of_mem ‹_›; omega

end Rexecutor
