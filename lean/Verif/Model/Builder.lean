import Verif.Model.Typed

/-!
# The job builder (rexecutor/src/job/builder.rs)
-/

namespace Rexecutor

/-- The constants of an executor used when enqueueing:
`NAME`, `MAX_ATTEMPTS`, `UNIQUENESS_CRITERIA` (executor.rs:265, 270, 292). -/
structure ExecutorConsts where
  name : String
  maxAttempts : Nat
  criteria : Option Criteria

/-- `JobBuilder`, rexecutor/src/job/builder.rs:153-165. -/
structure JobBuilder (D M : Type) where
  data : Option D
  metadata : Option M
  maxAttempts : Option Nat
  tags : List String
  scheduledAt : Time
  priority : Nat
  criteria : Option Criteria

/-- `JobBuilder::default`, builder.rs:188-204, called at time `now`
(`Executor::builder`, executor.rs:321-328). -/
def JobBuilder.init (now : Time) : JobBuilder D M where
  data := none
  metadata := none
  maxAttempts := none
  tags := []
  scheduledAt := now
  priority := 0
  criteria := none

/-- One call on a builder. -/
inductive BuilderCall (D M : Type) where
  | withData (d : D)
  | withMetadata (m : M)
  | withMaxAttempts (n : Nat)
  | scheduleAt (t : Time)
  | scheduleIn (now : Time) (d : Delta)
  | addTag (tag : String)
  | withTags (tags : List String)
  | unique (c : Criteria)
  | withPriority (p : Nat)

/-- `with_data` (builder.rs:215-226), `with_metadata` (229-234),
`with_max_attempts` (239-244), `schedule_at` (250-255), `schedule_in` (262-267),
`add_tag` (270-274), `with_tags` (279-282), `unique` (290-295), `with_priority`
(308-310). -/
def JobBuilder.apply (b : JobBuilder D M) : BuilderCall D M → JobBuilder D M
  | .withData d => { b with data := some d }
  | .withMetadata m => { b with metadata := some m }
  | .withMaxAttempts n => { b with maxAttempts := some n }
  | .scheduleAt t => { b with scheduledAt := t }
  | .scheduleIn now d => { b with scheduledAt := now + d }
  | .addTag tag => { b with tags := b.tags ++ [tag] }
  | .withTags tags => { b with tags := tags }
  | .unique c => { b with criteria := some c }
  | .withPriority p => { b with priority := p }

/-- A chain of calls on a builder. -/
def JobBuilder.applyAll (b : JobBuilder D M) (calls : List (BuilderCall D M)) : JobBuilder D M :=
  calls.foldl JobBuilder.apply b

/-- The job `_enqueue_to_backend` passes to the backend, builder.rs:320-341; `none`
if serialisation fails. -/
def JobBuilder.build (x : ExecutorConsts) (cd : Codec D) (cm : Codec M) (b : JobBuilder D M) :
    Option EnqueuableJob :=
  match cd.encOption b.data with
  | none => none
  | some data =>
    match cm.encOption b.metadata with
    | none => none
    | some metadata =>
      some {
        data := data
        metadata := metadata
        executor := x.name
        maxAttempts := b.maxAttempts.getD x.maxAttempts
        scheduledAt := b.scheduledAt
        tags := b.tags
        priority := b.priority
        criteria := b.criteria.or x.criteria }

end Rexecutor
