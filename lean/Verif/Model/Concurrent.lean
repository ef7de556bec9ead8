import Verif.Model.Memory

/-!
# The in-memory backend under concurrency

Any number of clients and streams share one backend (`InMemoryBackend` is
`Clone` with shared state, memory.rs:83-89). A schedule is a list of atomic
actions; each takes the lock at most once. `enqueue` is a sequence of actions of
one call, between which actions of other clients can happen.
-/

namespace Rexecutor

/-- Where an `enqueue` call (memory.rs:214-241, 383-388) currently is. -/
inductive Pending where
  /-- Just called. -/
  | start (e : EnqueuableJob)
  /-- The uniqueness check found no match (memory.rs:231-232). -/
  | noMatch (e : EnqueuableJob)
  /-- The id has been taken from the counter (memory.rs:217). -/
  | allocated (id : Int) (e : EnqueuableJob)
  /-- The job has been pushed (memory.rs:219-222). -/
  | pushed (id : Int) (e : EnqueuableJob)
  /-- The uniqueness check found a match; `job` is the private copy after
  `replace` (memory.rs:235-237). -/
  | matched (job : Job)
  /-- Returned. -/
  | done (r : Res)
  deriving DecidableEq, Repr

/-- The backend together with the `enqueue` calls made so far. -/
structure Conc where
  mem : Mem := {}
  calls : List Pending := []
  deriving DecidableEq, Repr

/-- An atomic action. -/
inductive Act where
  /-- A client calls `enqueue`. -/
  | start (e : EnqueuableJob)
  /-- The `i`-th `enqueue` call takes its next atomic step. -/
  | advance (i : Nat)
  /-- Some client or stream makes a call that is a single atomic step. -/
  | op (o : Op)
  deriving Repr

/-- What an action did, as seen from outside. -/
inductive Ev where
  /-- An enqueue call began. -/
  | began (e : EnqueuableJob)
  /-- An enqueue call looked for a job matching its criteria and found this id. -/
  | looked (found : Option Int)
  /-- An enqueue call took an id. -/
  | allocated (id : Int)
  /-- An enqueue call stored its new job. -/
  | inserted (id : Int) (e : EnqueuableJob)
  /-- An enqueue call notified the subscribers and returned. -/
  | woke (id : Int)
  /-- An enqueue call wrote the job it had found back and returned. -/
  | wrote (job : Job) (res : Res)
  /-- Another call, with its result. -/
  | op (o : Op) (res : Res)
  /-- Nothing happened (there is no such enqueue call or it had already returned). -/
  | nothing
  deriving Repr

/-- The next atomic step of an `enqueue` call.
* `start`, no criteria: `fetch_add` (memory.rs:385, 217);
* `start` with criteria: read the matching jobs (memory.rs:230, 235-236);
* `noMatch`: `fetch_add` (memory.rs:232, 217);
* `allocated`: push (memory.rs:219-222);
* `pushed`: notify (memory.rs:224-226);
* `matched`: `update_job` with the copy (memory.rs:238-239). -/
def Mem.advance (now : Time) (m : Mem) : Pending → Ev × Pending × Mem
  | .start e =>
    match e.criteria with
    | none =>
      let id := wrapI32 m.allocated
      (.allocated id, .allocated id e, { m with allocated := m.allocated + 1 })
    | some _ =>
      match m.jobs.filter fun k => e.matches now k with
      | [] => (.looked none, .noMatch e, m)
      | k :: _ => (.looked (some k.job.id), .matched (k.job.replace e), m)
  | .noMatch e =>
    let id := wrapI32 m.allocated
    (.allocated id, .allocated id e, { m with allocated := m.allocated + 1 })
  | .allocated id e =>
    (.inserted id e, .pushed id e, { m with jobs := m.jobs ++ [e.intoJob now id] })
  | .pushed id e => (.woke id, .done (.id id), m.notify e.executor e.scheduledAt)
  | .matched job =>
    match m.update job with
    | (.err err, m') => (.wrote job (.err err), .done (.err err), m')
    | (r, m') => (.wrote job r, .done (.id job.id), m')
  | .done r => (.nothing, .done r, m)

/-- One action. -/
def Conc.step (now : Time) (c : Conc) : Act → Ev × Conc
  | .start e => (.began e, { c with calls := c.calls ++ [.start e] })
  | .advance i =>
    match c.calls[i]? with
    | none => (.nothing, c)
    | some p =>
      let (ev, p', m') := c.mem.advance now p
      (ev, { mem := m', calls := c.calls.set i p' })
  | .op o =>
    let (r, m') := c.mem.step now o
    (.op o r, { c with mem := m' })

/-- A timed action. -/
structure TAct where
  now : Time
  act : Act
  deriving Repr

/-- A timed event. -/
structure TEv where
  now : Time
  ev : Ev
  deriving Repr

/-- The state after a schedule. -/
def Conc.run (c : Conc) : List TAct → Conc
  | [] => c
  | a :: as => Conc.run (c.step a.now a.act).2 as

/-- The events of a schedule. -/
def Conc.trace (c : Conc) : List TAct → List TEv
  | [] => []
  | a :: as => { now := a.now, ev := (c.step a.now a.act).1 } :: Conc.trace (c.step a.now a.act).2 as

end Rexecutor
