import Verif.Model.Concurrent

/-!
# The locks of the in-memory backend

`Verif.Model.Concurrent` takes a call, or a step of an `enqueue` call, as one atomic
action. Here such a step is what the code does: take a lock, work, perhaps take the lock
of the subscribers while holding that of the jobs, and release. Any number of threads do
this at the same time; a thread that cannot have a lock waits. C114 shows that it comes to
the same.

Simplifications: the sends of one notification (memory.rs:193-197, 136-140) are one action,
since what is sent is ignored by the receiver (memory.rs:67); a call reads the clock once;
`paused` is set before the backend is used; nothing panics (for that see
`Verif.Model.Poison`).
-/

namespace Rexecutor

/-- How an `RwLock` is taken. -/
inductive LockMode where
  | read
  | write
  deriving DecidableEq, Repr

/-- Where a call is, as far as it has got in atomic steps: a call that takes one step, one
that has returned, an `enqueue` call. -/
inductive Pos where
  | op (o : Op)
  | returned (o : Op) (r : Res)
  | enqueue (p : Pending)
  deriving Repr

/-- The next thing a call has to lock: the jobs, the subscribers, or nothing. -/
inductive Needs where
  | jobs (m : LockMode)
  | subs (m : LockMode)
  | nothing
  deriving DecidableEq, Repr

/-- Which lock the next step of a call begins with: the jobs for writing (memory.rs:163,
220, 390, 405, 420, 435, 448, 460, 486, 497), the jobs for reading (memory.rs:204-206), the
subscribers for reading (memory.rs:132-133, 189-191) or for writing (memory.rs:365-366). Taking
an id needs no lock (memory.rs:217), and a paused backend does not look at the subscribers
(memory.rs:188). -/
def Pos.needs (paused : Bool) : Pos → Needs
  | .op (.query _) => .jobs .read
  | .op (.subscribe _) => .subs .write
  | .op .notifyAll => .subs .read
  | .op _ => .jobs .write
  | .enqueue (.start e) => match e.criteria with
    | none => .nothing
    | some _ => .jobs .read
  | .enqueue (.allocated _ _) => .jobs .write
  | .enqueue (.matched _) => .jobs .write
  | .enqueue (.pushed _ _) => if paused then .nothing else .subs .read
  | _ => .nothing

/-- The calls that read the clock before they take the lock (memory.rs:131, 459). -/
def Pos.clockFirst : Pos → Bool
  | .op (.prune _) => true
  | .op .notifyAll => true
  | _ => false

/-- How far a thread is within the next step of its call. -/
inductive LockPhase where
  /-- It holds no lock. -/
  | out
  /-- It has read the clock and holds no lock. -/
  | ticked (t : Time)
  /-- It has taken the lock and done nothing yet; `t` is the clock if it was read before. -/
  | inside (t : Option Time)
  /-- At time `t` it has changed the jobs, which it has still locked, and is to notify the
  subscribers of an executor of a scheduled time; the call will be at `next`. -/
  | told (t : Time) (next : Pos) (executor : String) (scheduledAt : Time)
  /-- The same, having locked the subscribers too. -/
  | telling (t : Time) (next : Pos) (executor : String) (scheduledAt : Time)
  /-- It is about to release the lock. -/
  | leaving (next : Pos)
  deriving Repr

/-- A call and its thread. -/
structure Thread where
  pos : Pos
  phase : LockPhase := .out
  deriving Repr

/-- Which lock on the jobs a thread holds: the guards live until the end of the method. -/
def Thread.holdsJobs (paused : Bool) (c : Thread) : Option LockMode :=
  match c.phase, c.pos.needs paused with
  | .out, _ => none
  | .ticked _, _ => none
  | _, .jobs m => some m
  | _, _ => none

/-- Which lock on the subscribers a thread holds: the guard of a notification lives until the
end of the statement (memory.rs:189-198). -/
def Thread.holdsSubs (paused : Bool) (c : Thread) : Option LockMode :=
  match c.phase, c.pos.needs paused with
  | .telling _ _ _ _, _ => some .read
  | .inside _, .subs m => some m
  | .leaving _, .subs m => some m
  | _, _ => none

/-- The backend (memory.rs:83-89) and the threads that use it. -/
structure Fine where
  jobs : List KeyedJob := []
  allocated : Nat := 0
  subs : List Sub := []
  paused : Bool := false
  threads : List Thread := []
  deriving Repr

/-- The lock on the jobs can be had: for reading if nobody writes, for writing if nobody
holds it. -/
def Fine.jobsFree (s : Fine) : LockMode → Bool
  | .read => s.threads.all fun c => c.holdsJobs s.paused != some .write
  | .write => s.threads.all fun c => c.holdsJobs s.paused == none

/-- The same for the lock on the subscribers. -/
def Fine.subsFree (s : Fine) : LockMode → Bool
  | .read => s.threads.all fun c => c.holdsSubs s.paused != some .write
  | .write => s.threads.all fun c => c.holdsSubs s.paused == none

/-- The work of a by-id call on the jobs (memory.rs:389-457, 485-506), and whom it is going to
notify of what. -/
def byId (id : Int) (f : Job → Job) (wake : Bool) (jobs : List KeyedJob) : Res × List KeyedJob × Option (String × Time) :=
  match updateById id f jobs with
  | none => (.err (.jobNotFound id), jobs, none)
  | some (jobs', j) => (.unit, jobs', if wake then some (j.executor, j.scheduledAt) else none)

/-- What a call of one step does with the jobs once it has locked them: memory.rs:389-513,
159-181. -/
def Op.onJobs (now : Time) (jobs : List KeyedJob) : Op → Res × List KeyedJob × Option (String × Time)
  | .complete id => byId id (Job.markComplete now) false jobs
  | .retryable id next e => byId id (Job.markRetryable now next e) true jobs
  | .discarded id e => byId id (Job.markDiscarded now e) false jobs
  | .cancelled id e => byId id (Job.markCancelled now e) false jobs
  | .snoozed id next => byId id (Job.markSnoozed next) true jobs
  | .rerun id => byId id (Job.markRerunable now) true jobs
  | .update job => byId job.id (fun _ => job) true jobs
  | .prune spec => (.unit, (Mem.prune now spec { jobs := jobs }).jobs, none)
  | .query q => (.jobs ((jobs.filter fun k => q.matches k.job).map (·.job)), jobs, none)
  | .load x => (.job (Mem.load now x { jobs := jobs }).1, (Mem.load now x { jobs := jobs }).2.jobs, none)
  | .subscribe _ => (.unit, jobs, none)
  | .notifyAll => (.unit, jobs, none)

/-- What the next step of a call does with the jobs once it has locked them: the calls above;
the search of a unique enqueue (memory.rs:230-237), the push (memory.rs:219-222) and the update
(memory.rs:238-239, 496-506). -/
def Pos.onJobs (now : Time) (jobs : List KeyedJob) : Pos → Pos × List KeyedJob × Option (String × Time)
  | .op o => (.returned o (o.onJobs now jobs).1, (o.onJobs now jobs).2)
  | .enqueue (.start e) =>
    match jobs.filter fun k => e.matches now k with
    | [] => (.enqueue (.noMatch e), jobs, none)
    | k :: _ => (.enqueue (.matched (k.job.replace e)), jobs, none)
  | .enqueue (.allocated id e) => (.enqueue (.pushed id e), jobs ++ [e.intoJob now id], none)
  | .enqueue (.matched job) =>
    match byId job.id (fun _ => job) true jobs with
    | (.err err, x) => (.enqueue (.done (.err err)), x)
    | (_, x) => (.enqueue (.done (.id job.id)), x)
  | p => (p, jobs, none)

/-- Sending to the subscribers of an executor (memory.rs:189-198). -/
def tell (executor : String) (scheduledAt : Time) (subs : List Sub) : List Sub :=
  subs.map fun s => if s.executor = executor then { s with queue := s.queue ++ [scheduledAt] } else s

/-- What the next step of a call does with the subscribers once it has locked them: registering
(memory.rs:364-370), `notify_all` (memory.rs:132-141), the notification of an `enqueue` call
(memory.rs:224-226). -/
def Pos.onSubs (now : Time) (subs : List Sub) : Pos → Pos × List Sub
  | .op (.subscribe x) => (.returned (.subscribe x) .unit, subs ++ [{ executor := x }])
  | .op .notifyAll => (.returned .notifyAll .unit, subs.map fun s => { s with queue := s.queue ++ [now] })
  | .enqueue (.pushed id e) => (.enqueue (.done (.id id)), tell e.executor e.scheduledAt subs)
  | p => (p, subs)

/-- The steps of an `enqueue` call that need no lock: taking an id (memory.rs:217, 232), and
returning without notification when the backend is paused (memory.rs:188, 200, 226). -/
def Pos.onNothing (allocated : Nat) : Pos → Pos × Nat
  | .enqueue (.start e) => (.enqueue (.allocated (wrapI32 allocated) e), allocated + 1)
  | .enqueue (.noMatch e) => (.enqueue (.allocated (wrapI32 allocated) e), allocated + 1)
  | .enqueue (.pushed id _) => (.enqueue (.done (.id id)), allocated)
  | p => (p, allocated)

/-- The call has returned. -/
def Pos.isOver : Pos → Bool
  | .returned _ _ => true
  | .enqueue (.done _) => true
  | _ => false

/-- The thread tries to take the lock its next step needs; `none` if it has to wait. -/
def Fine.enter (s : Fine) (p : Pos) (t : Option Time) : Option LockPhase :=
  match p.needs s.paused with
  | .jobs m => if s.jobsFree m then some (.inside t) else none
  | .subs m => if s.subsFree m then some (.inside t) else none
  | .nothing => none

/-- Thread `i` is now `c`. -/
def Fine.setThread (s : Fine) (i : Nat) (c : Thread) : Fine := { s with threads := s.threads.set i c }

/-- The next action of thread `i`; `none` if it has to wait for a lock. -/
def Fine.advance (now : Time) (s : Fine) (i : Nat) (c : Thread) : Option Fine :=
  match c.phase with
  | .out =>
    if c.pos.isOver then some s
    else if c.pos.clockFirst then some (s.setThread i { c with phase := .ticked now })
    else
      match c.pos.needs s.paused with
      | .nothing =>
        let x := c.pos.onNothing s.allocated
        some ({ s with allocated := x.2 }.setThread i { pos := x.1 })
      | _ => (s.enter c.pos none).map fun ph => s.setThread i { c with phase := ph }
  | .ticked t => (s.enter c.pos (some t)).map fun ph => s.setThread i { c with phase := ph }
  | .inside t =>
    let clock := t.getD now
    match c.pos.needs s.paused with
    | .jobs _ =>
      match c.pos.onJobs clock s.jobs with
      | (next, jobs, none) => some ({ s with jobs := jobs }.setThread i { c with phase := .leaving next })
      | (next, jobs, some (x, at')) => some ({ s with jobs := jobs }.setThread i { c with phase := .told clock next x at' })
    | .subs _ =>
      let x := c.pos.onSubs clock s.subs
      some ({ s with subs := x.2 }.setThread i { c with phase := .leaving x.1 })
    | .nothing => some s
  | .told t next x at' =>
    if s.paused then some (s.setThread i { c with phase := .leaving next })
    else if s.subsFree .read then some (s.setThread i { c with phase := .telling t next x at' })
    else none
  | .telling _ next x at' => some ({ s with subs := tell x at' s.subs }.setThread i { c with phase := .leaving next })
  | .leaving next => some (s.setThread i { pos := next })

/-- An action: a call is begun, or a thread goes on. -/
inductive FineAct where
  | call (o : Op)
  | enqueue (e : EnqueuableJob)
  | advance (i : Nat)
  deriving Repr

/-- One action; whether the thread had to wait. -/
def Fine.step (now : Time) (s : Fine) : FineAct → Bool × Fine
  | .call o => (false, { s with threads := s.threads ++ [{ pos := .op o }] })
  | .enqueue e => (false, { s with threads := s.threads ++ [{ pos := .enqueue (.start e) }] })
  | .advance i =>
    match s.threads[i]? with
    | none => (false, s)
    | some c =>
      match s.advance now i c with
      | none => (true, s)
      | some s' => (false, s')

/-- A timed action. -/
structure TFineAct where
  now : Time
  act : FineAct
  deriving Repr

/-- The state after a schedule. -/
def Fine.run (s : Fine) : List TFineAct → Fine
  | [] => s
  | a :: as => Fine.run (s.step a.now a.act).2 as

end Rexecutor
