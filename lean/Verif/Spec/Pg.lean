import Verif.Model.PgConc

/-! Vocabulary for statements about the Postgres backend. -/

namespace Rexecutor

/-- The row may be handed out to executor `x` at time `t`: it is for `x`, is waiting
and is due less than 100 ms after `t`. -/
structure RowEligible (t : Time) (x : String) (r : Row) : Prop where
  executor : r.executor = x
  waiting : r.status = .scheduled ∨ r.status = .retryable
  due : r.scheduledAt < pgTime t + 100000000

/-- The prune specification looks at row `r`. -/
def PruneSpec.SelectsRow (s : PruneSpec) (r : Row) : Prop :=
  r.status = s.status ∧
    match s.executors with
    | .only es => r.executor ∈ es
    | .except es => r.executor ∉ es

instance (s : PruneSpec) (r : Row) : Decidable (s.SelectsRow r) := by
  unfold PruneSpec.SelectsRow
  cases s.executors <;> infer_instance

/-- Jobs in this status are done. -/
def JobStatus.Finished (s : JobStatus) : Prop := s = .complete ∨ s = .cancelled ∨ s = .discarded

instance (s : JobStatus) : Decidable s.Finished := by unfold JobStatus.Finished; infer_instance

/-- Row `r` is a duplicate of the new job `e` with respect to the criteria `uc`: the
window is around `e`'s scheduled time and its ends belong to it. -/
structure PgDuplicate (e : EnqueuableJob) (uc : Criteria) (r : Row) : Prop where
  status : r.status ∈ uc.statuses
  key : ∀ k, uc.key = some k → r.uniquenessKey = some k
  executor : uc.executor = true → r.executor = e.executor
  window : ∀ d, uc.duration = some d → e.scheduledAt - d ≤ r.scheduledAt ∧ r.scheduledAt ≤ e.scheduledAt + d

/-- The times the database has to compare are whole microseconds. -/
def WholeTimes (e : EnqueuableJob) (uc : Criteria) : Prop :=
  1000 ∣ e.scheduledAt ∧ ∀ d, uc.duration = some d → (1000 : Int) ∣ d

/-- Row `r` is the job `e` as inserted at time `now` with number `id`. -/
structure InsertedAs (now : Time) (e : EnqueuableJob) (id : Int) (r : Row) : Prop where
  id : r.id = id
  status : r.status = .scheduled
  executor : r.executor = e.executor
  data : r.data = e.data
  metadata : r.metadata = e.metadata
  tags : r.tags = e.tags
  priority : r.priority = e.priority
  maxAttempts : r.maxAttempts = e.maxAttempts
  attempt : r.attempt = 0
  errors : r.errors = []
  scheduledAt : r.scheduledAt = pgTime e.scheduledAt
  insertedAt : r.insertedAt = pgTime now
  times : r.attemptedAt = none ∧ r.completedAt = none ∧ r.cancelledAt = none ∧ r.discardedAt = none

/-- The criteria `uc'` have no key and differ from `uc` only in what to do on conflict. -/
structure SameCriteria (uc uc' : Criteria) : Prop where
  noKey : uc'.key = none
  executor : uc'.executor = uc.executor
  duration : uc'.duration = uc.duration
  statuses : uc'.statuses = uc.statuses

/-- Row `r` is one that `uc`, used for executor `x`, is about (at some time). -/
def Concerns (uc : Criteria) (x : String) (r : Row) : Prop :=
  r.status ∈ uc.statuses ∧ (uc.executor = true → r.executor = x)

instance (uc : Criteria) (x : String) (r : Row) : Decidable (Concerns uc x r) := by
  unfold Concerns; infer_instance

/-- With respect to `uc` used for executor `x`, one of the two rows is a duplicate of
the other. -/
def Clash (uc : Criteria) (x : String) (a b : Row) : Prop :=
  Concerns uc x a ∧ Concerns uc x b ∧
    ∀ d, uc.duration = some d → a.scheduledAt - d ≤ b.scheduledAt ∧ b.scheduledAt ≤ a.scheduledAt + d

/-- The session is in the middle of a unique enqueue. -/
def Session.enqueuing : Session → Bool
  | .unique .. | .holding .. | .missing .. | .found .. | .inserted .. | .replacing .. => true
  | _ => false

/-- Every unique enqueue of the schedule that is about executor `x` uses the criteria
`uc`, up to what to do on conflict, and whole-microsecond times. -/
def AllUse (uc : Criteria) (x : String) (as : List TPgAct) : Prop :=
  ∀ a ∈ as, ∀ e uc', a.act = .unique e uc' → (uc.executor = true → e.executor = x) →
    SameCriteria uc uc' ∧ (uc.duration ≠ none → 1000 ∣ e.scheduledAt)

/-- Apart from the inserts of unique enqueues, no step of the schedule makes a row one
that `uc` is about; nor, if there is a window, moves such a row in time. -/
def NoArrivals (hash : HashFn) (uc : Criteria) (x : String) (c : PgConc) : List TPgAct → Prop
  | [] => True
  | a :: as =>
    ((∃ row uc', (c.step hash a.tie a.now a.act).1 = .inserted row (some uc')) ∨
      ∀ r' ∈ (c.step hash a.tie a.now a.act).2.pg.rows, Concerns uc x r' →
        ∃ r ∈ c.pg.rows, r.id = r'.id ∧ Concerns uc x r ∧ (uc.duration ≠ none → r.scheduledAt = r'.scheduledAt)) ∧
    NoArrivals hash uc x (c.step hash a.tie a.now a.act).2 as

/-- The call that opened a session: a hand-out for an executor, or a unique enqueue. -/
inductive Opening where
  | handout (executor : String)
  | unique (e : EnqueuableJob) (uc : Criteria)

/-- The sessions opened by a schedule, in order. -/
def openings (as : List TPgAct) : List Opening :=
  as.filterMap fun a => match a.act with
    | .handout x => some (.handout x)
    | .unique e uc => some (.unique e uc)
    | _ => none

/-- The event is a hand-out of row `id`. -/
def PgEv.handsOut (id : Int) : PgEv → Bool
  | .handedOut row _ => row.id == id
  | _ => false

/-- The event is a successful retry, snooze or rerun of row `id`. -/
def PgEv.putsBack (id : Int) : PgEv → Bool
  | .stmt (.retryable i _ _) .unit => i == id
  | .stmt (.snoozed i _) .unit => i == id
  | .stmt (.rerun i) .unit => i == id
  | _ => false

/-- An action at time `t` where the database prefers small ids. -/
def pgAct (t : Time) (a : PgAct) : TPgAct := ⟨t, Int.toNat, a⟩

/-- A hash function to compute examples with. -/
def sampleHash : HashFn := fun key x ss =>
  key.getD 1 * 31 + (x.getD "").length + ss.length

end Rexecutor
