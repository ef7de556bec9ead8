import Verif.Model.Types

/-!
# Building uniqueness criteria (rexecutor/src/job/uniqueness_criteria.rs)

A key is given as a hashable value; only its hash `fxhash::hash64(value) as i64`
(lines 579, 682) is kept. The functions here take the hash.
-/

namespace Rexecutor

namespace Criteria

/-- `by_executor`, uniqueness_criteria.rs:495-503. -/
def byExecutor : Criteria :=
  { key := none, executor := true, duration := none, statuses := [.scheduled], onConflict := .doNothing }

/-- `within`, uniqueness_criteria.rs:524-532. -/
def within (d : Delta) : Criteria :=
  { key := none, executor := false, duration := some d, statuses := [.scheduled], onConflict := .doNothing }

/-- `by_statuses`, uniqueness_criteria.rs:550-558. -/
def byStatuses (ss : List JobStatus) : Criteria :=
  { key := none, executor := false, duration := none, statuses := ss, onConflict := .doNothing }

/-- `by_key`, uniqueness_criteria.rs:578-587. -/
def byKey (hash : Int) : Criteria :=
  { key := some hash, executor := false, duration := none, statuses := [.scheduled], onConflict := .doNothing }

/-- `and_executor`, uniqueness_criteria.rs:609-612. -/
def andExecutor (c : Criteria) : Criteria := { c with executor := true }

/-- `and_within`, uniqueness_criteria.rs:635-638. -/
def andWithin (c : Criteria) (d : Delta) : Criteria := { c with duration := some d }

/-- `and_statuses`, uniqueness_criteria.rs:660-663. -/
def andStatuses (c : Criteria) (ss : List JobStatus) : Criteria := { c with statuses := ss }

/-- `and_key`, uniqueness_criteria.rs:681-685. -/
def andKey (c : Criteria) (hash : Int) : Criteria := { c with key := some hash }

/-- `on_conflict`, uniqueness_criteria.rs:708-711. -/
def onConflictReplace (c : Criteria) (r : Replace) : Criteria := { c with onConflict := .replace r }

/-- `on_conflict_do_nothing`, uniqueness_criteria.rs:734-737. -/
def onConflictDoNothing (c : Criteria) : Criteria := { c with onConflict := .doNothing }

end Criteria

/-- A field a replacement can cover. -/
inductive ReplaceField where
  | scheduledAt
  | data
  | metadata
  | priority
  | maxAttempts
  deriving DecidableEq, Repr

namespace Replace

/-- The constructors `scheduled_at`, `data`, `metadata`, `priority` and `max_attempts`,
uniqueness_criteria.rs:227-236, 254-263, 281-290, 308-317, 335-344. -/
def only : ReplaceField → Replace
  | .scheduledAt => { scheduledAt := true, data := false, metadata := false, priority := false, maxAttempts := false, forStatuses := [.scheduled] }
  | .data => { scheduledAt := false, data := true, metadata := false, priority := false, maxAttempts := false, forStatuses := [.scheduled] }
  | .metadata => { scheduledAt := false, data := false, metadata := true, priority := false, maxAttempts := false, forStatuses := [.scheduled] }
  | .priority => { scheduledAt := false, data := false, metadata := false, priority := true, maxAttempts := false, forStatuses := [.scheduled] }
  | .maxAttempts => { scheduledAt := false, data := false, metadata := false, priority := false, maxAttempts := true, forStatuses := [.scheduled] }

/-- `and_scheduled_at`, `and_data`, `and_metadata`, `and_priority` and `and_max_attempts`,
uniqueness_criteria.rs:363-366, 383-386, 403-406, 423-426, 443-446. -/
def also (r : Replace) : ReplaceField → Replace
  | .scheduledAt => { r with scheduledAt := true }
  | .data => { r with data := true }
  | .metadata => { r with metadata := true }
  | .priority => { r with priority := true }
  | .maxAttempts => { r with maxAttempts := true }

/-- `for_statuses`, uniqueness_criteria.rs:470-473. -/
def setStatuses (r : Replace) (ss : List JobStatus) : Replace := { r with forStatuses := ss }

end Replace

/-- One call on a replacement. -/
inductive ReplaceCall where
  | also (f : ReplaceField)
  | forStatuses (ss : List JobStatus)
  deriving DecidableEq, Repr

/-- One call on a replacement: see `Replace.also` and `Replace.setStatuses`. -/
def Replace.apply (r : Replace) : ReplaceCall → Replace
  | .also f => r.also f
  | .forStatuses ss => r.setStatuses ss

/-- A constructor of replacements followed by a chain of calls. -/
def Replace.build (f : ReplaceField) (calls : List ReplaceCall) : Replace :=
  calls.foldl Replace.apply (Replace.only f)

/-- The constructors of criteria. -/
inductive CriteriaCtor where
  | byExecutor
  | within (d : Delta)
  | byStatuses (ss : List JobStatus)
  | byKey (hash : Int)
  deriving DecidableEq, Repr

/-- The criteria a constructor makes: see the definitions above. -/
def CriteriaCtor.criteria : CriteriaCtor → Criteria
  | .byExecutor => .byExecutor
  | .within d => .within d
  | .byStatuses ss => .byStatuses ss
  | .byKey h => .byKey h

/-- One call on criteria. -/
inductive CriteriaCall where
  | andExecutor
  | andWithin (d : Delta)
  | andStatuses (ss : List JobStatus)
  | andKey (hash : Int)
  | onConflict (r : Replace)
  | onConflictDoNothing
  deriving DecidableEq, Repr

/-- One call on criteria: see the definitions above. -/
def Criteria.apply (c : Criteria) : CriteriaCall → Criteria
  | .andExecutor => c.andExecutor
  | .andWithin d => c.andWithin d
  | .andStatuses ss => c.andStatuses ss
  | .andKey h => c.andKey h
  | .onConflict r => c.onConflictReplace r
  | .onConflictDoNothing => c.onConflictDoNothing

/-- A constructor of criteria followed by a chain of calls. -/
def CriteriaCtor.build (c : CriteriaCtor) (calls : List CriteriaCall) : Criteria :=
  calls.foldl Criteria.apply c.criteria

end Rexecutor
