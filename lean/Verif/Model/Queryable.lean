import Verif.Model.Types

/-!
# Matching of stored jobs (rexecutor/src/backend/queryable.rs)
-/

namespace Rexecutor

mutual
/-- `Queryable for Query`, rexecutor/src/backend/queryable.rs:14-33. The
iterator calls `all`/`any` of lines 18-19 are the two helper functions, so that
the recursion is structural. -/
def Query.matches : Query → Job → Bool
  | .not inner, j => !inner.matches j
  | .and inner, j => Query.matchesAll inner j
  | .or inner, j => Query.matchesAny inner j
  | .executorEqual e, j => j.executor == e
  | .dataEquals d, j => j.data == d
  | .metadataEquals m, j => j.metadata == m
  | .idEquals id, j => j.id == id
  | .idIn ids, j => ids.contains j.id
  | .statusEqual s, j => j.status == s
  | .tagsAllOf tags, j => tags.all fun tag => j.tags.any fun t => t == tag
  | .tagsOneOf tags, j => tags.any fun tag => j.tags.any fun t => t == tag
  | .scheduledAtBefore t, j => j.scheduledAt < t
  | .scheduledAtAfter t, j => j.scheduledAt > t
  | .scheduledAtEqual t, j => j.scheduledAt == t
/-- `inner.iter().all(|query| query.matches(job))`, queryable.rs:18. -/
def Query.matchesAll : List Query → Job → Bool
  | [], _ => true
  | q :: qs, j => q.matches j && Query.matchesAll qs j
/-- `inner.iter().any(|query| query.matches(job))`, queryable.rs:19. -/
def Query.matchesAny : List Query → Job → Bool
  | [], _ => false
  | q :: qs, j => q.matches j || Query.matchesAny qs j
end

/-- `Queryable for Spec`, rexecutor/src/backend/queryable.rs:41-48. -/
def ExecSpec.matches : ExecSpec → Job → Bool
  | .except es, j => es.all fun e => e != j.executor
  | .only es, j => es.any fun e => e == j.executor

/-- `Queryable for PruneSpec`, rexecutor/src/backend/queryable.rs:35-39. -/
def PruneSpec.matches (s : PruneSpec) (j : Job) : Bool :=
  j.status == s.status && s.executors.matches j

/-- `Queryable for EnqueuableJob`, rexecutor/src/backend/queryable.rs:50-72.
`now` is the `Utc::now()` of line 68. -/
def EnqueuableJob.matches (now : Time) (self : EnqueuableJob) (k : KeyedJob) : Bool :=
  match self.criteria with
  | none => false
  | some uc =>
    match uc.duration with
    | none =>
      uc.key == k.key
        && (!uc.executor || self.executor == k.job.executor)
        && uc.statuses.contains k.job.status
    | some duration =>
      uc.key == k.key
        && (!uc.executor || self.executor == k.job.executor)
        && uc.statuses.contains k.job.status
        && decide (((k.job.scheduledAt - now).natAbs : Int) < duration)

end Rexecutor
