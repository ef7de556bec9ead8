import Verif.Model.Pg

/-! What it means for the two backends to agree. Ids of the in-memory backend start at
0, those of Postgres at 1. -/

namespace Rexecutor

/-- The job with its Postgres number. -/
def Job.numbered (j : Job) : Job := { j with id := j.id + 1 }

/-- The two stores hold the same jobs, in the same order, with ids in use once only,
and the same number of ids has been given out. -/
structure SameStore (m : Mem) (p : Pg) : Prop where
  jobs : p.rows.map Row.decode = m.jobs.map fun k => some k.job.numbered
  given : p.seq = m.allocated
  once : (m.jobs.map fun k => k.job.id).Nodup
  past : ∀ k ∈ m.jobs, k.job.id < (m.allocated : Int)

/-- The calls the two backends are compared on, with the ids of the second. -/
inductive SameCall : Api → Api → Prop where
  | enqueue (e : EnqueuableJob) (h : e.criteria = none) : SameCall (.enqueue e) (.enqueue e)
  | complete (i : Int) : SameCall (.op (.complete i)) (.op (.complete (i + 1)))
  | retryable (i : Int) (next : Time) (e : ExecError) :
      SameCall (.op (.retryable i next e)) (.op (.retryable (i + 1) next e))
  | discarded (i : Int) (e : ExecError) : SameCall (.op (.discarded i e)) (.op (.discarded (i + 1) e))
  | cancelled (i : Int) (e : ExecError) : SameCall (.op (.cancelled i e)) (.op (.cancelled (i + 1) e))
  | snoozed (i : Int) (next : Time) : SameCall (.op (.snoozed i next)) (.op (.snoozed (i + 1) next))
  | rerun (i : Int) : SameCall (.op (.rerun i)) (.op (.rerun (i + 1)))
  | load (x : String) : SameCall (.op (.load x)) (.op (.load x))

/-- The results mean the same. -/
inductive SameRes : Res → Res → Prop where
  | unit : SameRes .unit .unit
  | id (i : Int) : SameRes (.id i) (.id (i + 1))
  | notFound (i : Int) : SameRes (.err (.jobNotFound i)) (.err (.jobNotFound (i + 1)))
  | noJob : SameRes (.job none) (.job none)
  | job (j : Job) : SameRes (.job (some j)) (.job (some j.numbered))

/-- The name of an error type does not look like one of the built-in ones. -/
def ErrorType.Plain (t : ErrorType) : Prop :=
  t ≠ .other "panic" ∧ t ≠ .other "timeout" ∧ t ≠ .other "cancelled"

instance (t : ErrorType) : Decidable t.Plain := by unfold ErrorType.Plain; infer_instance

/-- Job `j` may be handed out to `x` at time `t`. -/
def Job.Due (t : Time) (x : String) (j : Job) : Prop :=
  j.executor = x ∧ (j.status = .scheduled ∨ j.status = .retryable) ∧ j.scheduledAt < t + 100000000

/-- Job `a` comes before `b` both by time and by priority. -/
def Job.Ahead (a b : Job) : Prop :=
  a.scheduledAt ≤ b.scheduledAt ∧ a.priority ≤ b.priority ∧ (a.scheduledAt < b.scheduledAt ∨ a.priority < b.priority)

/-- The call is one on which the backends agree by design: times are whole
microseconds, ids do not run out, errors have plain names and attempts fit in 16 bits,
and a hand-out has no choice: the due jobs, if any, have one that is ahead of all
others. -/
def Ordinary (t : Time) (m : Mem) : Api → Prop
  | .enqueue e => 1000 ∣ t ∧ 1000 ∣ e.scheduledAt ∧ m.allocated < 2147483647
  | .op (.retryable i next e) =>
    1000 ∣ t ∧ 1000 ∣ next ∧ e.errorType.Plain ∧ ∀ k ∈ m.jobs, k.job.id = i → 0 ≤ k.job.attempt ∧ k.job.attempt < 65536
  | .op (.discarded i e) =>
    1000 ∣ t ∧ e.errorType.Plain ∧ ∀ k ∈ m.jobs, k.job.id = i → 0 ≤ k.job.attempt ∧ k.job.attempt < 65536
  | .op (.cancelled i e) =>
    1000 ∣ t ∧ e.errorType.Plain ∧ ∀ k ∈ m.jobs, k.job.id = i → 0 ≤ k.job.attempt ∧ k.job.attempt < 65536
  | .op (.snoozed _ next) => 1000 ∣ next
  | .op (.load x) =>
    1000 ∣ t ∧ ((∀ k ∈ m.jobs, ¬ k.job.Due t x) ∨
      ∃ k ∈ m.jobs, k.job.Due t x ∧ ∀ k' ∈ m.jobs, k'.job.Due t x → k' ≠ k → k.job.Ahead k'.job)
  | _ => 1000 ∣ t

/-- Two sequences of calls that correspond, made at the same times, every one of them
ordinary when it is made on the in-memory backend. -/
inductive SameHistory : Mem → List TApi → List TApi → Prop where
  | nil (m : Mem) : SameHistory m [] []
  | cons (m : Mem) (t : Time) (c c' : Api) (cs cs' : List TApi) (h : SameCall c c') (ho : Ordinary t m c)
      (hs : SameHistory (m.api t c).2 cs cs') : SameHistory m (⟨t, c⟩ :: cs) (⟨t, c'⟩ :: cs')

/-- Results in the same order that mean the same. -/
inductive SameResults : List Res → List Res → Prop where
  | nil : SameResults [] []
  | cons (r r' : Res) (rs rs' : List Res) (h : SameRes r r') (hs : SameResults rs rs') :
      SameResults (r :: rs) (r' :: rs')

end Rexecutor
