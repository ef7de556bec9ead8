import Verif.Model.Pg

/-!
# The Postgres backend under concurrency

Any number of nodes use one database at isolation level `READ COMMITTED`. A schedule
is a list of atomic actions. The hand-out statement and the transaction of a unique
enqueue are sequences of actions, between which other actions can happen; every other
call is one statement on rows it finds by id and is a single action.

Assumptions about Postgres: a statement sees what was committed before it began;
`FOR UPDATE SKIP LOCKED` passes over rows locked by others, and checks the condition
again on the newest version of a row it locks; the enclosing `UPDATE` then changes
exactly the row locked; an `UPDATE` or `DELETE` waits for rows locked by others;
`pg_advisory_xact_lock` waits while another transaction holds the same number, and is
released by commit and rollback; uncommitted rows are invisible to others;
`nextval` is not rolled back.
-/

namespace Rexecutor

/-- Where a hand-out (lib.rs:115-157) or a unique enqueue (lib.rs:185-273) is. -/
inductive Session where
  /-- The stream is about to run the statement. -/
  | handout (executor : String)
  /-- The statement has begun at time `t`, when the table was `snap`. -/
  | looking (executor : String) (t : Time) (snap : List Row)
  /-- The inner `SELECT` has locked row `id` (lib.rs:127-133). -/
  | locked (executor : String) (t : Time) (id : Int)
  /-- The transaction has begun at time `t` (lib.rs:189). -/
  | unique (e : EnqueuableJob) (uc : Criteria) (t : Time)
  /-- It holds the advisory lock (lib.rs:191-193). -/
  | holding (e : EnqueuableJob) (uc : Criteria) (t : Time)
  /-- The query found nothing (lib.rs:200). -/
  | missing (e : EnqueuableJob) (uc : Criteria) (t : Time)
  /-- The query found row `id` with this status (lib.rs:228-230). -/
  | found (e : EnqueuableJob) (uc : Criteria) (id : Int) (status : JobStatus)
  /-- The row is inserted but not committed (lib.rs:201-224). -/
  | inserted (e : EnqueuableJob) (uc : Criteria) (row : Row)
  /-- Row `id` is updated but not committed (lib.rs:239-263). -/
  | replacing (e : EnqueuableJob) (uc : Criteria) (rep : Replace) (id : Int)
  /-- Returned, or yielded. -/
  | done (r : Res)
  deriving DecidableEq, Repr

/-- The row this session has locked. -/
def Session.rowLock : Session → Option Int
  | .locked _ _ id => some id
  | .replacing _ _ _ id => some id
  | _ => none

/-- The transaction that holds an advisory lock: its criteria and executor. -/
def Session.holder : Session → Option (Criteria × String)
  | .holding e uc _ => some (uc, e.executor)
  | .missing e uc _ => some (uc, e.executor)
  | .found e uc _ _ => some (uc, e.executor)
  | .inserted e uc _ => some (uc, e.executor)
  | .replacing e uc _ _ => some (uc, e.executor)
  | _ => none

/-- The database with the sessions opened so far. -/
structure PgConc where
  pg : Pg := {}
  sessions : List Session := []
  deriving DecidableEq, Repr

/-- Some session has locked row `id`. -/
def PgConc.rowLocked (c : PgConc) (id : Int) : Bool :=
  c.sessions.any fun s => s.rowLock == some id

/-- Some session holds the advisory lock `a`. -/
def PgConc.advisoryLocked (hash : HashFn) (c : PgConc) (a : Int) : Bool :=
  c.sessions.any fun s =>
    match s.holder with
    | some (uc, x) => uc.identifier hash x == a
    | none => false

/-- An atomic action. -/
inductive PgAct where
  /-- A stream asks for a job of this executor (stream.rs:33-38). -/
  | handout (executor : String)
  /-- A client calls `enqueue` with uniqueness criteria. -/
  | unique (e : EnqueuableJob) (uc : Criteria)
  /-- Session `i` takes its next step. -/
  | advance (i : Nat)
  /-- Session `i` fails before it has committed (connection lost, client gone). -/
  | abort (i : Nat)
  /-- A client calls `enqueue` without uniqueness criteria. -/
  | plain (e : EnqueuableJob)
  /-- A client makes another call. -/
  | stmt (o : Op)
  deriving Repr

/-- What an action did. -/
inductive PgEv where
  /-- A hand-out was committed; the row after it, and what the stream yields. -/
  | handedOut (row : Row) (res : Res)
  /-- A hand-out statement found no row. -/
  | noJob
  /-- A unique enqueue looked for a conflicting row. -/
  | checked (found : Option Int)
  /-- A new row was committed (`uc` are the criteria, if any). -/
  | inserted (row : Row) (uc : Option Criteria)
  /-- A unique enqueue committed an update of row `id`. -/
  | replaced (id : Int)
  /-- Another call, with its result. -/
  | stmt (o : Op) (res : Res)
  /-- The action has to wait for a lock; nothing happened. -/
  | blocked
  /-- A step that nobody else can see. -/
  | internal
  deriving Repr

/-- The rows a single statement changes or removes, for which it must wait
(backend.rs:63-111). `query` takes no locks. Simplification: a `DELETE` of several
rows waits until none of them is locked, instead of locking one after the other. -/
def Op.needs (tie : Int → Nat) (now : Time) (rows : List Row) : Op → List Int
  | .complete id => [id]
  | .retryable id _ _ => [id]
  | .discarded id _ => [id]
  | .cancelled id _ => [id]
  | .snoozed id _ => [id]
  | .rerun id => [id]
  | .update job => [job.id]
  | .prune spec => spec.doomed now tie rows
  | _ => []

/-- The next step of a session: the event, the new session and the new database.
Each alternative cites what it stands for. -/
def PgConc.advance (hash : HashFn) (tie : Int → Nat) (now : Time)
    (c : PgConc) : Session → PgEv × Session × Pg
  -- the statement begins: `now()` is fixed, the snapshot is taken (lib.rs:119-155)
  | .handout x => (.internal, .looking x now c.pg.rows, c.pg)
  -- the inner select: in order, the first row not locked whose newest version is
  -- still ready (lib.rs:127-133)
  | .looking x t snap =>
    match (sortBy (Row.before tie) (snap.filter (Row.ready t x))).find? fun r =>
        !c.rowLocked r.id && c.pg.rows.any fun r' => r'.id == r.id && r'.ready t x with
    | none => (.noJob, .done (.job none), c.pg)
    | some r => (.internal, .locked x t r.id, c.pg)
  -- the update of the locked row, and its commit (lib.rs:121-126, 135-156)
  | .locked _ t id =>
    match c.pg.rows.find? fun r => r.id == id with
    | none => (.internal, .done (.job none), c.pg)
    | some r =>
      let r' := r.markExecuting t
      let res := match r'.decode with
        | none => Res.err .encodeDecode
        | some j => .job (some j)
      (.handedOut r' res, .done res, { c.pg with rows := (updateRows id (Row.markExecuting t) c.pg.rows).1 })
  -- `pg_advisory_xact_lock` (lib.rs:190-193)
  | .unique e uc t =>
    if c.advisoryLocked hash (uc.identifier hash e.executor) then (.blocked, .unique e uc t, c.pg)
    else (.internal, .holding e uc t, c.pg)
  -- the query for a conflicting row (lib.rs:194-199)
  | .holding e uc t =>
    match sortBy (fun a b => decide (tie a.id ≤ tie b.id))
        (c.pg.rows.filter fun r => uc.finds e.executor e.scheduledAt r) with
    | [] => (.checked none, .missing e uc t, c.pg)
    | r :: _ => (.checked (some r.id), .found e uc r.id r.status, c.pg)
  -- the insert (lib.rs:201-224); `inserted_at` is the beginning of the transaction
  | .missing e uc t =>
    if c.pg.seq ≥ 2147483647 then (.internal, .done (.err .badState), c.pg)
    else
      let id : Int := (c.pg.seq + 1 : Nat)
      (.internal, .inserted e uc (e.toRow t id (some (uc.identifier hash e.executor))),
        { c.pg with seq := c.pg.seq + 1 })
  -- commit (lib.rs:225-226)
  | .inserted _ uc row =>
    (.inserted row (some uc), .done (.id row.id), { c.pg with rows := c.pg.rows ++ [row] })
  -- the update (lib.rs:231-263), or rollback (lib.rs:266-268)
  | .found e uc id status =>
    match uc.onConflict with
    | .replace rep =>
      if rep.forStatuses.contains status then
        if rep.setsNothing then (.internal, .done (.err .badState), c.pg)
        else if c.rowLocked id then (.blocked, .found e uc id status, c.pg)
        else (.internal, .replacing e uc rep id, c.pg)
      else (.internal, .done (.id id), c.pg)
    | .doNothing => (.internal, .done (.id id), c.pg)
  -- commit (lib.rs:264)
  | .replacing e _ rep id =>
    (.replaced id, .done (.id id), { c.pg with rows := (updateRows id (Row.replace rep e) c.pg.rows).1 })
  | .done r => (.internal, .done r, c.pg)

/-- One action. A hand-out is not a single statement here (`PgAct.handout` is), so
`stmt (.load _)` does nothing. -/
def PgConc.step (hash : HashFn) (tie : Int → Nat) (now : Time)
    (c : PgConc) : PgAct → PgEv × PgConc
  | .handout x => (.internal, { c with sessions := c.sessions ++ [.handout x] })
  | .unique e uc => (.internal, { c with sessions := c.sessions ++ [.unique e uc now] })
  | .advance i =>
    match c.sessions[i]? with
    | none => (.internal, c)
    | some s =>
      let x := c.advance hash tie now s
      (x.1, { pg := x.2.2, sessions := c.sessions.set i x.2.1 })
  | .abort i =>
    match c.sessions[i]? with
    | none | some (.done _) => (.internal, c)
    | some _ => (.internal, { c with sessions := c.sessions.set i (.done (.err .io)) })
  | .plain e =>
    if c.pg.seq ≥ 2147483647 then (.internal, c)
    else
      let row := e.toRow now (c.pg.seq + 1 : Nat) none
      (.inserted row none, { c with pg := { rows := c.pg.rows ++ [row], seq := c.pg.seq + 1 } })
  | .stmt (.load _) => (.internal, c)
  | .stmt o =>
    if (o.needs tie now c.pg.rows).any c.rowLocked then (.blocked, c)
    else
      let x := c.pg.step tie now o
      (.stmt o x.1, { c with pg := x.2 })

/-- An action with its time and the choices the database makes during it. -/
structure TPgAct where
  now : Time
  tie : Int → Nat
  act : PgAct

/-- The state after a schedule. -/
def PgConc.run (hash : HashFn) (c : PgConc) : List TPgAct → PgConc
  | [] => c
  | a :: as => PgConc.run hash (c.step hash a.tie a.now a.act).2 as

/-- The events of a schedule. -/
def PgConc.trace (hash : HashFn) (c : PgConc) : List TPgAct → List PgEv
  | [] => []
  | a :: as => (c.step hash a.tie a.now a.act).1 :: PgConc.trace hash (c.step hash a.tie a.now a.act).2 as

end Rexecutor
