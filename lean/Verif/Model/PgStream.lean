import Verif.Model.PgConc
import Verif.Model.Stream

/-!
# Notifications and job streams of the Postgres backend

The trigger of the migration, the listener task of every node
(rexecutor-sqlx/src/lib.rs:67-104), `subscribe_ready_jobs` (backend.rs:31-54) and the
waiting loop of the streams (stream.rs:14-49).

A node is one `RexecutorPgBackend` with its clones. Assumptions about Postgres and
`sqlx`: a notification sent in a transaction reaches every connection that listens, once,
when the transaction commits, in the order of the commits; it is lost for a connection
that breaks before it was read (`PgListener` then connects again). A transaction here
writes one row, so that no two notifications of one transaction are merged.
-/

namespace Rexecutor

/-- The rows an action has inserted or updated and committed, as they are afterwards. -/
def PgEv.written (after : List Row) : PgEv → List Row
  | .handedOut row _ => [row]
  | .inserted row _ => [row]
  | .replaced id => after.filter fun r => r.id == id
  | .stmt (.complete id) _ => after.filter fun r => r.id == id
  | .stmt (.retryable id _ _) _ => after.filter fun r => r.id == id
  | .stmt (.discarded id _) _ => after.filter fun r => r.id == id
  | .stmt (.cancelled id _) _ => after.filter fun r => r.id == id
  | .stmt (.snoozed id _) _ => after.filter fun r => r.id == id
  | .stmt (.rerun id) _ => after.filter fun r => r.id == id
  | .stmt (.update job) _ => after.filter fun r => r.id == job.id
  | _ => []

/-- The condition of `rexecutor_new_job_notify`, up.sql:51. -/
def Row.notifies (r : Row) : Bool := r.status == .scheduled || r.status == .retryable

/-- The notifications sent by the triggers `rexecutor_insert` and `rexecutor_update`,
up.sql:42-71: executor and scheduled time of every row written. -/
def PgEv.notices (after : List Row) (ev : PgEv) : List (String × Time) :=
  ((ev.written after).filter Row.notifies).map fun r => (r.executor, r.scheduledAt)

/-- One node: whether its listener task is still running, and the notifications that
have been sent to its connection and not been handled (lib.rs:79-100). -/
structure PgNode where
  listening : Bool := true
  inbox : List (String × Time) := []
  deriving DecidableEq, Repr

/-- Where a stream is in `ReadyJobStream::next`, stream.rs:18-48. -/
inductive PgWait where
  /-- About to look for the earliest available job (stream.rs:20-24); also where a
  stream is that has returned and is not polled. -/
  | ready
  /-- The query returned this; the clock is about to be read (stream.rs:25-32). -/
  | looked (found : Option Time)
  /-- The delay has been computed with this clock reading (stream.rs:33). -/
  | decided (clock : Time) (delay : Delta)
  /-- The hand-out statement is running as session `k` (stream.rs:34-38). -/
  | loading (clock : Time) (delay : Delta) (k : Nat)
  /-- Waiting in `select!` since `since` (stream.rs:42-46). -/
  | asleep (clock since : Time) (delay : Delta)
  deriving DecidableEq, Repr

/-- `ReadyJobStream`, stream.rs:8-12, with the channel between `sender` and `receiver`
(backend.rs:35-41). -/
structure PgReader where
  node : Nat
  executor : String
  queue : List Time := []
  wait : PgWait := .ready
  deriving DecidableEq, Repr

/-- `next_available_job_scheduled_at_for_executor`, lib.rs:390-407. -/
def Pg.nextAvailable (executor : String) (p : Pg) : Option Time :=
  ((p.rows.filter fun r => (r.status == .scheduled || r.status == .retryable) && r.executor == executor).map
    (·.scheduledAt)).min?

/-- The database, the nodes and the streams. -/
structure PgNet where
  conc : PgConc := {}
  nodes : List PgNode := []
  readers : List PgReader := []
  deriving DecidableEq, Repr

/-- An action. -/
inductive NetAct where
  /-- A client of any node does something in the database. -/
  | db (a : PgAct)
  /-- A new node: `from_pool` (lib.rs:67-104). -/
  | connect
  /-- `subscribe_ready_jobs` on a node (backend.rs:31-54). -/
  | subscribe (node : Nat) (executor : String)
  /-- The listener of a node handles its next notification (lib.rs:79-99). -/
  | deliver (node : Nat)
  /-- The connection of a node's listener breaks and is made again: what was not read is
  lost. -/
  | reconnect (node : Nat)
  /-- `listener.recv()` fails: the task ends (lib.rs:79). -/
  | fail (node : Nat)
  /-- Stream `i` takes its next step. `timer` is the branch `select!` takes if a message
  has arrived and the timer has run out. -/
  | stream (i : Nat) (timer : Bool)
  /-- The statement stream `i` is running fails (stream.rs:24, 38). -/
  | streamFails (i : Nat)
  deriving Repr

/-- What an action did. -/
inductive NetEv where
  /-- Something happened in the database; the table after it. -/
  | db (ev : PgEv) (rows : List Row)
  /-- Stream `i` looked for the earliest available job. -/
  | looked (i : Nat) (found : Option Time)
  /-- Stream `i` computed its delay. -/
  | decided (i : Nat) (delay : Delta)
  /-- Stream `i` returned a job. -/
  | returned (i : Nat) (j : Job)
  /-- Stream `i` returned an error. -/
  | failed (i : Nat)
  /-- Stream `i` went to sleep. -/
  | slept (i : Nat)
  /-- Stream `i` was woken by this message. -/
  | received (i : Nat) (t : Time)
  /-- The timer of stream `i` ran out. -/
  | timedOut (i : Nat)
  /-- Something else, or nothing. -/
  | quiet
  deriving Repr

/-- Whether `serde_json` with `chrono` can read the text that Postgres makes of a
timestamp in `json_build_object` (lib.rs:80-81). It is a parameter. For the versions in
use, years after 9999 cannot be read: Postgres writes five digits and `chrono` takes four
unless there is a sign. -/
abbrev Parses := Time → Bool

namespace PgNet

/-- Replace the state of stream `i`. -/
def setWait (s : PgNet) (i : Nat) (w : PgWait) : PgNet :=
  { s with readers := s.readers.modify i fun r => { r with wait := w } }

/-- An action in the database, and the notifications it sends. -/
def dbStep (hash : HashFn) (tie : Int → Nat) (now : Time) (s : PgNet) (a : PgAct) : NetEv × PgNet :=
  let x := s.conc.step hash tie now a
  (.db x.1 x.2.pg.rows,
    { s with
      conc := x.2
      nodes := s.nodes.map fun n =>
        if n.listening then { n with inbox := n.inbox ++ x.1.notices x.2.pg.rows } else n })

/-- The body of the listener loop, lib.rs:80-98. The `unwrap` of line 81 ends the task. -/
def deliver (parses : Parses) (n : Nat) (s : PgNet) : PgNet :=
  match s.nodes[n]? with
  | none => s
  | some node =>
    match node.inbox with
    | [] => s
    | (x, t) :: rest =>
      if parses t then
        { s with
          nodes := s.nodes.set n { node with inbox := rest }
          readers := s.readers.map fun r =>
            if r.node = n ∧ r.executor = x then { r with queue := r.queue ++ [t] } else r }
      else { s with nodes := s.nodes.set n { listening := false, inbox := [] } }

/-- The next step of stream `i`, stream.rs:18-48. The clocks of the node, of its timers
and of the database are taken to be the same. -/
def streamStep (hash : HashFn) (tie : Int → Nat) (now : Time) (timer : Bool) (s : PgNet) (i : Nat)
    (r : PgReader) : NetEv × PgNet :=
  match r.wait with
  | .ready =>
    let f := s.conc.pg.nextAvailable r.executor
    (.looked i f, s.setWait i (.looked f))
  | .looked f => (.decided i (streamDelay now f), s.setWait i (.decided now (streamDelay now f)))
  | .decided clock delay =>
    if delay ≤ pollDelta then
      let x := s.dbStep hash tie now (.handout r.executor)
      (x.1, x.2.setWait i (.loading clock delay s.conc.sessions.length))
    else (.slept i, s.setWait i (.asleep clock now delay))
  | .loading clock delay k =>
    match s.conc.sessions[k]? with
    | some (.done (.job (some j))) => (.returned i j, s.setWait i .ready)
    | some (.done (.job none)) => (.slept i, s.setWait i (.asleep clock now delay))
    | some (.done _) => (.failed i, s.setWait i .ready)
    | _ => s.dbStep hash tie now (.advance k)
  | .asleep _ since delay =>
    let due : Bool := decide (since + delay ≤ now)
    match r.queue with
    | t :: rest =>
      if timer && due then (.timedOut i, s.setWait i .ready)
      else (.received i t, { s with readers := s.readers.modify i fun r => { r with queue := rest, wait := .ready } })
    | [] => if due then (.timedOut i, s.setWait i .ready) else (.quiet, s)

/-- One action. -/
def step (hash : HashFn) (parses : Parses) (tie : Int → Nat) (now : Time) (s : PgNet) : NetAct → NetEv × PgNet
  | .db a => s.dbStep hash tie now a
  | .connect => (.quiet, { s with nodes := s.nodes ++ [{}] })
  | .subscribe n x => (.quiet, { s with readers := s.readers ++ [{ node := n, executor := x }] })
  | .deliver n => (.quiet, s.deliver parses n)
  | .reconnect n => (.quiet, { s with nodes := s.nodes.modify n fun node => { node with inbox := [] } })
  | .fail n => (.quiet, { s with nodes := s.nodes.modify n fun _ => { listening := false, inbox := [] } })
  | .stream i timer =>
    match s.readers[i]? with
    | none => (.quiet, s)
    | some r => s.streamStep hash tie now timer i r
  | .streamFails i =>
    match s.readers[i]? with
    | some { wait := .ready, .. } => (.failed i, s)
    | some { wait := .loading .., .. } => (.failed i, s.setWait i .ready)
    | _ => (.quiet, s)

end PgNet

/-- An action with its time and the choices the database makes during it. -/
structure TNetAct where
  now : Time
  tie : Int → Nat
  act : NetAct

/-- The state after a schedule. -/
def PgNet.run (hash : HashFn) (parses : Parses) (s : PgNet) : List TNetAct → PgNet
  | [] => s
  | a :: as => PgNet.run hash parses (s.step hash parses a.tie a.now a.act).2 as

/-- The events of a schedule. -/
def PgNet.trace (hash : HashFn) (parses : Parses) (s : PgNet) : List TNetAct → List NetEv
  | [] => []
  | a :: as =>
    (s.step hash parses a.tie a.now a.act).1 :: PgNet.trace hash parses (s.step hash parses a.tie a.now a.act).2 as

end Rexecutor
