import Verif.Model.Memory

/-!
# Calls that read the clock more than once (rexecutor/src/backend/memory.rs, queryable.rs)

The rest of the model gives each atomic step one clock reading. The functions here take
one reading for each time the code calls `Utc::now()`.
-/

namespace Rexecutor

/-- `load_job_mark_as_executing_for_executor`, memory.rs:159-181. `clock i` is the reading
of line 168 for the job at position `i` (lines 167-169 evaluate left to right, so it is
made for jobs of the executor only), `taken` the one of line 283. -/
def Mem.loadClocks (clock : Nat → Time) (taken : Time) (executor : String) (m : Mem) : Option Job × Mem :=
  let ready := m.jobs.zipIdx.filter fun (k, i) => readyFor (clock i) executor k.job
  match sortBy (fun a b => dueBefore a.1.job b.1.job) ready with
  | [] => (none, m)
  | (k, i) :: _ =>
    let j := k.job.markExecuting taken
    (some j, { m with jobs := m.jobs.set i { k with job := j } })

/-- `matching_jobs` of a job being enqueued, memory.rs:203-212. `clock i` is the reading of
queryable.rs:68 for the job at position `i`. -/
def EnqueuableJob.matchingClocks (clock : Nat → Time) (e : EnqueuableJob) (m : Mem) : List KeyedJob :=
  (m.jobs.zipIdx.filter fun (k, i) => e.matches (clock i) k).map Prod.fst

/-- `Job::mark_job_discarded`, memory.rs:308-312: `Utc::now()` in lines 309 and 276. -/
def Job.markDiscardedClocks (at₁ at₂ : Time) (e : ExecError) (j : Job) : Job :=
  { j with
    discardedAt := some at₁
    errors := j.errors ++ [e.intoJobError at₂ (asU16 j.attempt)]
    status := .discarded }

/-- `Job::mark_job_cancelled`, memory.rs:314-318: `Utc::now()` in lines 315 and 276. -/
def Job.markCancelledClocks (at₁ at₂ : Time) (e : ExecError) (j : Job) : Job :=
  { j with
    cancelledAt := some at₁
    errors := j.errors ++ [e.intoJobError at₂ (asU16 j.attempt)]
    status := .cancelled }

/-- `insert_unique_job`, memory.rs:229-241, without interleaving; `clock` as in
`matchingClocks`, `inserted` is the reading of line 260. -/
def Mem.insertUniqueClocks (clock : Nat → Time) (inserted : Time) (e : EnqueuableJob) (m : Mem) : Res × Mem :=
  match e.matchingClocks clock m with
  | [] => let (id, m') := m.insertNew inserted e; (.id id, m')
  | k :: _ =>
    match m.update (k.job.replace e) with
    | (.err err, m') => (.err err, m')
    | (_, m') => (.id (k.job.replace e).id, m')

end Rexecutor
