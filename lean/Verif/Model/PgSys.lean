import Verif.Model.PgConc
import Verif.Model.System

/-!
# Runners working on one Postgres database

Any number of runners on any number of nodes (`Rexecutor::with_executor`,
rexecutor/src/lib.rs:810-827, spawns one each) share one database with any number of
other clients. The hand-out statement of a runner's stream is a session of the database
(`PgConc`), which goes on whether or not the runner waits for it.

Not modelled here: when a stream asks (`Verif.Model.PgStream` has the waiting loop); a
runner may ask at any time it polls its stream.
-/

namespace Rexecutor

/-- A runner at work. `polling` as in `RunnerState`. `loading` is the session of the
hand-out statement its stream waits for (stream.rs:33-38). The executions in flight
keep their places; `none` is one that is over. -/
structure PgRunner where
  polling : Bool := true
  loading : Option Nat := none
  flights : List (Option Flight) := []
  deriving Repr

/-- The database and the runners. -/
structure PgSys where
  conc : PgConc := {}
  runners : List PgRunner := []
  deriving Repr

/-- An action. -/
inductive PSAct where
  /-- A client does something, or a statement under way takes its next step. -/
  | db (a : PgAct)
  /-- Runner `r` polls its stream, and the stream sends a hand-out statement
  (runner.rs:43-48, stream.rs:33-38). -/
  | pull (r : Nat)
  /-- The stream of runner `r` receives the answer (stream.rs:38-41). -/
  | take (r : Nat)
  /-- The answer never reaches the stream of runner `r`: its connection fails. The stream
  yields an error and asks again (stream.rs:33-38, runner.rs:65). -/
  | drop (r : Nat)
  /-- The body of execution `i` of runner `r` ends like this. -/
  | finish (r i : Nat) (b : Body)
  /-- Execution `i` of runner `r` makes its backend call. -/
  | report (r i : Nat)
  /-- The backend call of execution `i` of runner `r` fails (runner.rs:163-268 log
  this and do nothing else). -/
  | lose (r i : Nat)
  /-- Runner `r` is told to stop (`graceful_shutdown` or a dropped guard,
  rexecutor/src/lib.rs:997-1000, 1055-1058). -/
  | stop (r : Nat)
  /-- The process of runner `r` ends. -/
  | kill (r : Nat)
  deriving Repr

/-- What an action did. -/
inductive PSEv where
  /-- Something happened in the database. -/
  | db (ev : PgEv)
  /-- Runner `r` sent a hand-out statement. -/
  | pulled (r : Nat)
  /-- Runner `r` received the answer; what it did with the job, if there was one. -/
  | took (r : Nat) (res : Res) (started : Option Started)
  /-- The stream of runner `r` gave up waiting; whether it was waiting. -/
  | dropped (r : Nat) (waiting : Bool)
  /-- An execution of runner `r` ended; the call it will make, or a panic in the
  runner (`none`). -/
  | ended (r : Nat) (t : Task) (j : Joined) (call : Option Op)
  /-- An execution of runner `r` made its backend call. -/
  | reported (r : Nat) (t : Task) (ev : PgEv)
  /-- The backend call of an execution failed. -/
  | lost (r : Nat) (t : Task)
  /-- Runner `r` was told to stop; whether its stream was waiting for a hand-out
  statement. -/
  | stopped (r : Nat) (waiting : Bool)
  /-- The process of runner `r` ended. -/
  | killed (r : Nat)
  /-- Nothing happened. -/
  | nothing
  deriving Repr

/-- The number of executions in flight. -/
def PgRunner.inFlight (rs : PgRunner) : Nat := (rs.flights.filterMap id).length

/-- The runner's future is gone, with its stream and its executions: after a panic in
it, or with its process. -/
def PgRunner.crash (_ : PgRunner) : PgRunner := { polling := false }

/-- One action. `defs` are the executors of the runners. `take_until` (runner.rs:47)
drops the stream when the runner is told to stop, and with it the future that waits for
the statement; the statement itself goes on in the database. -/
def PgSys.step (hash : HashFn) (defs : List Runner) (tie : Int → Nat) (now : Time)
    (s : PgSys) : PSAct → PSEv × PgSys
  | .db a =>
    let x := s.conc.step hash tie now a
    (.db x.1, { s with conc := x.2 })
  | .pull r =>
    match defs[r]?, s.runners[r]? with
    | some d, some rs =>
      if rs.polling && belowLimit d.maxConcurrency rs.inFlight && rs.loading.isNone then
        (.pulled r,
          { conc := (s.conc.step hash tie now (.handout d.name)).2
            runners := s.runners.set r { rs with loading := some s.conc.sessions.length } })
      else (.nothing, s)
    | _, _ => (.nothing, s)
  | .take r =>
    match defs[r]?, s.runners[r]? with
    | some d, some rs =>
      match rs.loading.bind fun k => s.conc.sessions[k]? with
      | some (.done (.job (some j))) =>
        let started := d.start j
        let rs' := match started with
          | .running t => { rs with loading := none, flights := rs.flights ++ [some { task := t }] }
          | .undecodable => { rs with loading := none }
          | .runnerPanics => rs.crash
        (.took r (.job (some j)) (some started), { s with runners := s.runners.set r rs' })
      | some (.done res) =>
        (.took r res none, { s with runners := s.runners.set r { rs with loading := none } })
      | _ => (.nothing, s)
    | _, _ => (.nothing, s)
  | .drop r =>
    match s.runners[r]? with
    | some rs => (.dropped r rs.loading.isSome, { s with runners := s.runners.set r { rs with loading := none } })
    | none => (.nothing, s)
  | .finish r i b =>
    match defs[r]?, s.runners[r]? with
    | some d, some rs =>
      match rs.flights[i]? with
      | some (some { task := t, phase := .running }) =>
        match t.join b with
        | none => (.nothing, s)
        | some j =>
          match d.report now t j with
          | some o =>
            let rs' := { rs with flights := rs.flights.set i (some { task := t, phase := .reporting o }) }
            (.ended r t j (some o), { s with runners := s.runners.set r rs' })
          | none => (.ended r t j none, { s with runners := s.runners.set r rs.crash })
      | _ => (.nothing, s)
    | _, _ => (.nothing, s)
  | .report r i =>
    match s.runners[r]? with
    | some rs =>
      match rs.flights[i]? with
      | some (some { task := t, phase := .reporting o }) =>
        match s.conc.step hash tie now (.stmt o) with
        | (.blocked, _) => (.nothing, s)
        | (ev, c) =>
          let rs' := { rs with flights := rs.flights.set i none }
          (.reported r t ev, { conc := c, runners := s.runners.set r rs' })
      | _ => (.nothing, s)
    | none => (.nothing, s)
  | .lose r i =>
    match s.runners[r]? with
    | some rs =>
      match rs.flights[i]? with
      | some (some { task := t, phase := .reporting _ }) =>
        (.lost r t, { s with runners := s.runners.set r { rs with flights := rs.flights.set i none } })
      | _ => (.nothing, s)
    | none => (.nothing, s)
  | .stop r =>
    match s.runners[r]? with
    | some rs => (.stopped r rs.loading.isSome, { s with runners := s.runners.set r { rs with polling := false, loading := none } })
    | none => (.nothing, s)
  | .kill r =>
    match s.runners[r]? with
    | some rs => (.killed r, { s with runners := s.runners.set r rs.crash })
    | none => (.nothing, s)

/-- An action with its time and the choices the database makes during it. -/
structure TPSAct where
  now : Time
  tie : Int → Nat
  act : PSAct

/-- A timed event. -/
structure TPSEv where
  now : Time
  ev : PSEv
  deriving Repr

/-- The state after a schedule. -/
def PgSys.run (hash : HashFn) (defs : List Runner) (s : PgSys) : List TPSAct → PgSys
  | [] => s
  | a :: as => PgSys.run hash defs (s.step hash defs a.tie a.now a.act).2 as

/-- The events of a schedule. -/
def PgSys.trace (hash : HashFn) (defs : List Runner) (s : PgSys) : List TPSAct → List TPSEv
  | [] => []
  | a :: as =>
    { now := a.now, ev := (s.step hash defs a.tie a.now a.act).1 } ::
      PgSys.trace hash defs (s.step hash defs a.tie a.now a.act).2 as

/-- Runners for the given executors, just started on an empty database. -/
def PgSys.init (defs : List Runner) : PgSys where
  runners := defs.map fun _ => {}

end Rexecutor
