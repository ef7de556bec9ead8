import Verif.Model.PgStream
import Verif.Model.PgSys

/-!
# Runners together with their streams, on Postgres

In `PgSys.lean` a runner sends a hand-out statement at any time. Here it does what the code does: its
task subscribes on its node, and then drives the stream (stream.rs:18-48), which looks, reads the
clock, sends the statement, waits for the answer and sleeps in separate steps, and which notifications
wake.

Simplifications. The stream waits for the database at every turn, so its steps interleave with
everything else, also with the executions of the same runner. `take_until` (runner.rs:47) looks at the
cancellation token at the beginning of each poll, and only then; a poll goes on until the stream
returns something or has to wait.
-/

namespace Rexecutor

/-- A runner (runner.rs:42-70) on a node. `stream` is the position of its stream among the readers,
once its task has subscribed (runner.rs:45-46). `told` is the cancellation token. `inPoll` says that a
poll of the stream is under way. `polling` and `flights` are as in `PgRunner`; `polling` ends when
`take_until` ends the stream. -/
structure PgLiveRunner where
  node : Nat
  stream : Option Nat := none
  told : Bool := false
  inPoll : Bool := false
  polling : Bool := true
  flights : List (Option Flight) := []
  deriving Repr

/-- The database with the nodes and streams, and the runners. -/
structure PgLive where
  net : PgNet := {}
  runners : List PgLiveRunner := []
  deriving Repr

/-- An action. -/
inductive PLAct where
  /-- A client does something in the database, or a statement under way takes its next step. -/
  | db (a : PgAct)
  /-- As in `NetAct`. -/
  | connect
  /-- As in `NetAct`. -/
  | deliver (node : Nat)
  /-- As in `NetAct`. -/
  | reconnect (node : Nat)
  /-- As in `NetAct`. -/
  | fail (node : Nat)
  /-- The task of runner `r` begins: it subscribes. -/
  | begin (r : Nat)
  /-- `for_each_concurrent` of runner `r` polls the stream; `take_until` looks at the token. -/
  | poll (r : Nat)
  /-- The poll of runner `r` under way makes its next step. `timer` as in `NetAct.stream`. -/
  | step (r : Nat) (timer : Bool)
  /-- The poll of runner `r` is over: the stream has to wait. -/
  | pend (r : Nat)
  /-- The statement the stream of runner `r` waits for fails. -/
  | streamFails (r : Nat)
  /-- The body of execution `i` of runner `r` ends like this. -/
  | finish (r i : Nat) (b : Body)
  /-- Execution `i` of runner `r` makes its backend call. -/
  | report (r i : Nat)
  /-- The backend call of execution `i` of runner `r` fails. -/
  | lose (r i : Nat)
  /-- Runner `r` is told to stop: its cancellation token is cancelled
  (rexecutor/src/lib.rs:997-1000, 1055-1058). -/
  | tell (r : Nat)
  /-- The process of runner `r` ends. -/
  | kill (r : Nat)
  deriving Repr

/-- What an action did. -/
inductive PLEv where
  /-- Something happened in the database. -/
  | db (ev : PgEv)
  /-- Runner `r` has subscribed. -/
  | begun (r : Nat)
  /-- The stream of runner `r` was here, had this answer to its statement, and made this step; what
  the runner did with the job it returned. -/
  | moved (r : Nat) (was : PgWait) (answer : Option Res) (ev : NetEv) (started : Option Started)
  /-- The stream of runner `r` returned an error; whether it was waiting for a hand-out. -/
  | failed (r : Nat) (waiting : Bool)
  /-- As in `PSEv`. -/
  | ended (r : Nat) (t : Task) (j : Joined) (call : Option Op)
  /-- As in `PSEv`. -/
  | reported (r : Nat) (t : Task) (ev : PgEv)
  /-- As in `PSEv`. -/
  | lost (r : Nat) (t : Task)
  /-- Runner `r` noticed the token; it takes no more jobs. Whether its stream was waiting for a
  hand-out statement. -/
  | stopped (r : Nat) (waiting : Bool)
  /-- As in `PSEv`. -/
  | killed (r : Nat)
  /-- Runner `r` was told to stop. -/
  | told (r : Nat)
  /-- Something between nodes, or nothing. -/
  | quiet
  deriving Repr

/-- The answer to the hand-out statement a stream waits for, if it has come. -/
def PgNet.answer (s : PgNet) : PgWait → Option Res
  | .loading _ _ k =>
    match s.conc.sessions[k]? with
    | some (.done res) => some res
    | _ => none
  | _ => none

/-- The number of executions in flight. -/
def PgLiveRunner.inFlight (q : PgLiveRunner) : Nat := (q.flights.filterMap id).length

/-- As `PgRunner.crash`. -/
def PgLiveRunner.crash (q : PgLiveRunner) : PgLiveRunner := { q with inPoll := false, polling := false, flights := [] }

/-- What a runner does with a job from its stream (runner.rs:49-67), as in `PgSys.step`. -/
def PgLiveRunner.take (d : Runner) (j : Job) (q : PgLiveRunner) : PgLiveRunner :=
  match d.start j with
  | .running t => { q with inPoll := false, flights := q.flights ++ [some { task := t }] }
  | .undecodable => { q with inPoll := false }
  | .runnerPanics => q.crash

/-- Whether a stream waits for the answer to a hand-out statement. -/
def PgWait.isLoading : PgWait → Bool
  | .loading .. => true
  | _ => false

/-- One action. `defs` are the executors of the runners. -/
def PgLive.act (hash : HashFn) (parses : Parses) (defs : List Runner) (tie : Int → Nat) (now : Time) (s : PgLive) :
    PLAct → PLEv × PgLive
  | .db a => (.db (s.net.conc.step hash tie now a).1, { s with net := (s.net.step hash parses tie now (.db a)).2 })
  | .connect => (.quiet, { s with net := (s.net.step hash parses tie now .connect).2 })
  | .deliver n => (.quiet, { s with net := (s.net.step hash parses tie now (.deliver n)).2 })
  | .reconnect n => (.quiet, { s with net := (s.net.step hash parses tie now (.reconnect n)).2 })
  | .fail n => (.quiet, { s with net := (s.net.step hash parses tie now (.fail n)).2 })
  | .begin r =>
    match defs[r]?, s.runners[r]? with
    | some d, some q =>
      if q.stream.isNone then
        (.begun r,
          { net := (s.net.step hash parses tie now (.subscribe q.node d.name)).2
            runners := s.runners.set r { q with stream := some s.net.readers.length } })
      else (.quiet, s)
    | _, _ => (.quiet, s)
  | .poll r =>
    match defs[r]?, s.runners[r]? with
    | some d, some q =>
      match q.stream with
      | some n =>
        if !q.inPoll && q.polling && belowLimit d.maxConcurrency q.inFlight then
          if q.told then
            (.stopped r ((s.net.readers[n]?.map fun rd => rd.wait.isLoading) == some true),
              { s with runners := s.runners.set r { q with polling := false } })
          else (.quiet, { s with runners := s.runners.set r { q with inPoll := true } })
        else (.quiet, s)
      | none => (.quiet, s)
    | _, _ => (.quiet, s)
  | .pend r =>
    match s.runners[r]? with
    | some q => (.quiet, { s with runners := s.runners.set r { q with inPoll := false } })
    | none => (.quiet, s)
  | .step r timer =>
    match defs[r]?, s.runners[r]? with
    | some d, some q =>
      match q.stream with
      | some n =>
        match s.net.readers[n]? with
        | some rd =>
          if q.inPoll then
            let x := s.net.step hash parses tie now (.stream n timer)
            match x.1 with
            | .returned _ j =>
              (.moved r rd.wait (s.net.answer rd.wait) x.1 (some (d.start j)),
                { net := x.2, runners := s.runners.set r (q.take d j) })
            | .failed _ =>
              (.moved r rd.wait (s.net.answer rd.wait) x.1 none,
                { net := x.2, runners := s.runners.set r { q with inPoll := false } })
            | _ => (.moved r rd.wait (s.net.answer rd.wait) x.1 none, { s with net := x.2 })
          else (.quiet, s)
        | none => (.quiet, s)
      | none => (.quiet, s)
    | _, _ => (.quiet, s)
  | .streamFails r =>
    match s.runners[r]? with
    | some q =>
      match q.stream with
      | some n =>
        match s.net.readers[n]? with
        | some rd =>
          if q.inPoll then
            match (s.net.step hash parses tie now (.streamFails n)) with
            | (.failed _, net) =>
              (.failed r rd.wait.isLoading, { net := net, runners := s.runners.set r { q with inPoll := false } })
            | _ => (.quiet, s)
          else (.quiet, s)
        | none => (.quiet, s)
      | none => (.quiet, s)
    | none => (.quiet, s)
  | .finish r i b =>
    match defs[r]?, s.runners[r]? with
    | some d, some q =>
      match q.flights[i]? with
      | some (some { task := t, phase := .running }) =>
        match t.join b with
        | none => (.quiet, s)
        | some j =>
          match d.report now t j with
          | some o =>
            let q' := { q with flights := q.flights.set i (some { task := t, phase := .reporting o }) }
            (.ended r t j (some o), { s with runners := s.runners.set r q' })
          | none => (.ended r t j none, { s with runners := s.runners.set r q.crash })
      | _ => (.quiet, s)
    | _, _ => (.quiet, s)
  | .report r i =>
    match s.runners[r]? with
    | some q =>
      match q.flights[i]? with
      | some (some { task := t, phase := .reporting o }) =>
        match (s.net.conc.step hash tie now (.stmt o)).1 with
        | .blocked => (.quiet, s)
        | ev =>
          (.reported r t ev,
            { net := (s.net.step hash parses tie now (.db (.stmt o))).2
              runners := s.runners.set r { q with flights := q.flights.set i none } })
      | _ => (.quiet, s)
    | none => (.quiet, s)
  | .lose r i =>
    match s.runners[r]? with
    | some q =>
      match q.flights[i]? with
      | some (some { task := t, phase := .reporting _ }) =>
        (.lost r t, { s with runners := s.runners.set r { q with flights := q.flights.set i none } })
      | _ => (.quiet, s)
    | none => (.quiet, s)
  | .tell r =>
    match s.runners[r]? with
    | some q => (.told r, { s with runners := s.runners.set r { q with told := true } })
    | none => (.quiet, s)
  | .kill r =>
    match s.runners[r]? with
    | some q => (.killed r, { s with runners := s.runners.set r q.crash })
    | none => (.quiet, s)

/-- An action with its time and the choices the database makes during it. -/
structure TPLAct where
  now : Time
  tie : Int → Nat
  act : PLAct

/-- A timed event. -/
structure TPLEv where
  now : Time
  ev : PLEv
  deriving Repr

/-- The state after a schedule. -/
def PgLive.run (hash : HashFn) (parses : Parses) (defs : List Runner) (s : PgLive) : List TPLAct → PgLive
  | [] => s
  | a :: as => PgLive.run hash parses defs (s.act hash parses defs a.tie a.now a.act).2 as

/-- The events of a schedule. -/
def PgLive.trace (hash : HashFn) (parses : Parses) (defs : List Runner) (s : PgLive) : List TPLAct → List TPLEv
  | [] => []
  | a :: as =>
    { now := a.now, ev := (s.act hash parses defs a.tie a.now a.act).1 } ::
      PgLive.trace hash parses defs (s.act hash parses defs a.tie a.now a.act).2 as

/-- Runners for the given executors on the given nodes, spawned on an empty database, that have not
begun yet. -/
def PgLive.init (defs : List Runner) (on : List Nat) : PgLive where
  runners := defs.zipIdx.map fun x => { node := on.getD x.2 0 }

end Rexecutor
