/-!
# Data types of the two crates

Every definition cites the lines of `/repo` it models.
-/

namespace Rexecutor

/-- A point in time (`chrono::DateTime<Utc>`), in nanoseconds since the epoch.
Simplification: unbounded. -/
abbrev Time := Int

/-- A duration (`chrono::TimeDelta`), in nanoseconds. Simplification: unbounded
(the bounded version used for backoff is in `Verif.Model.Backoff`). -/
abbrev Delta := Int

/-- Nanoseconds per millisecond. -/
abbrev ms : Int := 1000000
/-- Nanoseconds per second. -/
abbrev sec : Int := 1000000000

/-- `serde_json::Value`. Numbers are integers (floats are not modelled). Object
fields are a list in key order. -/
inductive Json where
  | null
  | bool (b : Bool)
  | num (n : Int)
  | str (s : String)
  | arr (xs : List Json)
  | obj (fields : List (String × Json))
  deriving Repr

mutual
/-- Structural equality of JSON values is decidable. -/
def Json.decEq : (a b : Json) → Decidable (a = b)
  | .null, .null => isTrue rfl
  | .bool a, .bool b => decidable_of_iff (a = b) (by simp)
  | .num a, .num b => decidable_of_iff (a = b) (by simp)
  | .str a, .str b => decidable_of_iff (a = b) (by simp)
  | .arr a, .arr b => @decidable_of_iff _ (a = b) (by simp) (Json.decEqList a b)
  | .obj a, .obj b => @decidable_of_iff _ (a = b) (by simp) (Json.decEqFields a b)
  | .null, .bool _ | .null, .num _ | .null, .str _ | .null, .arr _ | .null, .obj _
  | .bool _, .null | .bool _, .num _ | .bool _, .str _ | .bool _, .arr _ | .bool _, .obj _
  | .num _, .null | .num _, .bool _ | .num _, .str _ | .num _, .arr _ | .num _, .obj _
  | .str _, .null | .str _, .bool _ | .str _, .num _ | .str _, .arr _ | .str _, .obj _
  | .arr _, .null | .arr _, .bool _ | .arr _, .num _ | .arr _, .str _ | .arr _, .obj _
  | .obj _, .null | .obj _, .bool _ | .obj _, .num _ | .obj _, .str _ | .obj _, .arr _ =>
    isFalse (by simp)
/-- Helper of `Json.decEq` for arrays. -/
def Json.decEqList : (a b : List Json) → Decidable (a = b)
  | [], [] => isTrue rfl
  | [], _ :: _ | _ :: _, [] => isFalse (by simp)
  | x :: xs, y :: ys =>
    match Json.decEq x y, Json.decEqList xs ys with
    | isTrue h, isTrue h' => isTrue (by simp [h, h'])
    | isFalse h, _ => isFalse (by simp [h])
    | _, isFalse h => isFalse (by simp [h])
/-- Helper of `Json.decEq` for objects. -/
def Json.decEqFields : (a b : List (String × Json)) → Decidable (a = b)
  | [], [] => isTrue rfl
  | [], _ :: _ | _ :: _, [] => isFalse (by simp)
  | (k, x) :: xs, (l, y) :: ys =>
    match (inferInstance : Decidable (k = l)), Json.decEq x y, Json.decEqFields xs ys with
    | isTrue h, isTrue h', isTrue h'' => isTrue (by simp [h, h', h''])
    | isFalse h, _, _ => isFalse (by simp [h])
    | _, isFalse h, _ => isFalse (by simp [h])
    | _, _, isFalse h => isFalse (by simp [h])
end

instance : DecidableEq Json := Json.decEq

/-- `JobStatus`, rexecutor/src/job.rs:148-171. -/
inductive JobStatus where
  | complete | executing | scheduled | retryable | cancelled | discarded
  deriving DecidableEq, Repr

/-- `JobStatus::ALL`, rexecutor/src/job.rs:175-182. -/
def JobStatus.all : List JobStatus :=
  [.complete, .executing, .scheduled, .retryable, .cancelled, .discarded]

/-- `ErrorType`, rexecutor/src/job.rs:200-217. -/
inductive ErrorType where
  | panic | timeout | cancelled
  | other (name : String)
  deriving DecidableEq, Repr

/-- `JobError`, rexecutor/src/job.rs:187-196. `attempt` is a `u16`. -/
structure JobError where
  attempt : Nat
  errorType : ErrorType
  details : String
  recordedAt : Time
  deriving DecidableEq, Repr

/-- `backend::ExecutionError`, rexecutor/src/backend.rs:188-193. -/
structure ExecError where
  errorType : ErrorType
  message : String
  deriving DecidableEq, Repr

/-- `Replace`, rexecutor/src/job/uniqueness_criteria.rs:193-208. -/
structure Replace where
  scheduledAt : Bool := false
  data : Bool := false
  metadata : Bool := false
  priority : Bool := false
  maxAttempts : Bool := false
  forStatuses : List JobStatus := []
  deriving DecidableEq, Repr

/-- `Resolution`, rexecutor/src/job/uniqueness_criteria.rs:132-142. -/
inductive Resolution where
  | doNothing
  | replace (r : Replace)
  deriving DecidableEq, Repr

/-- `UniquenessCriteria`, rexecutor/src/job/uniqueness_criteria.rs:99-120.
`key` is an `i64` hash. -/
structure Criteria where
  key : Option Int := none
  executor : Bool := false
  duration : Option Delta := none
  statuses : List JobStatus := []
  onConflict : Resolution := .doNothing
  deriving DecidableEq, Repr

/-- `EnqueuableJob`, rexecutor/src/backend.rs:197-228. `max_attempts` and
`priority` are `u16` in the code; a `Nat` here (bounds are hypotheses where
they matter). -/
structure EnqueuableJob where
  executor : String
  data : Json := .null
  metadata : Json := .null
  maxAttempts : Nat
  scheduledAt : Time
  tags : List String := []
  priority : Nat := 0
  criteria : Option Criteria := none
  deriving DecidableEq, Repr

/-- `backend::Job`, rexecutor/src/backend.rs:232-275. The `i32` fields are
integers (no overflow, see C127). -/
structure Job where
  id : Int
  status : JobStatus
  executor : String
  data : Json
  metadata : Json
  attempt : Int
  maxAttempts : Int
  priority : Int
  tags : List String
  errors : List JobError
  insertedAt : Time
  scheduledAt : Time
  attemptedAt : Option Time
  completedAt : Option Time
  cancelledAt : Option Time
  discardedAt : Option Time
  deriving DecidableEq, Repr

/-- `KeyedJob`, rexecutor/src/backend/memory.rs:91-95. -/
structure KeyedJob where
  job : Job
  key : Option Int
  deriving DecidableEq, Repr

/-- `BackendError`, rexecutor/src/backend.rs:399-412. `Io` carries no detail. -/
inductive BackendError where
  | encodeDecode
  | badState
  | jobNotFound (id : Int)
  | io
  deriving DecidableEq, Repr

/-- `Query`, rexecutor/src/backend.rs:279-308. -/
inductive Query where
  | not (q : Query)
  | and (qs : List Query)
  | or (qs : List Query)
  | executorEqual (e : String)
  | dataEquals (d : Json)
  | metadataEquals (m : Json)
  | idEquals (id : Int)
  | idIn (ids : List Int)
  | statusEqual (s : JobStatus)
  | tagsAllOf (tags : List String)
  | tagsOneOf (tags : List String)
  | scheduledAtBefore (t : Time)
  | scheduledAtAfter (t : Time)
  | scheduledAtEqual (t : Time)
  deriving Repr

/-- `PruneBy`, rexecutor/src/pruner.rs:330-339. `MaxLength` is a `u32`. -/
inductive PruneBy where
  | maxAge (d : Delta)
  | maxLength (n : Nat)
  deriving DecidableEq, Repr

/-- `Spec`, rexecutor/src/pruner.rs:345-351. -/
inductive ExecSpec where
  | except (es : List String)
  | only (es : List String)
  deriving DecidableEq, Repr

/-- `PruneSpec`, rexecutor/src/pruner.rs:189-197. -/
structure PruneSpec where
  status : JobStatus
  pruneBy : PruneBy
  executors : ExecSpec
  deriving DecidableEq, Repr

end Rexecutor
