import Verif.Model.Concurrent
import Verif.Model.Runner

/-!
# Runners working on one in-memory backend

Any number of runners (`Rexecutor::with_executor`, rexecutor/src/lib.rs:810-827,
spawns one each) and any number of other clients share one backend. A schedule is
a list of actions; between two actions of one party any actions of others can
happen.
-/

namespace Rexecutor

/-- Where an execution is. -/
inductive Phase where
  /-- The body is running (runner.rs:98-104, 139-145). -/
  | running
  /-- The body has ended and the backend call reporting it is about to be made
  (runner.rs:163-268). -/
  | reporting (o : Op)
  deriving Repr

/-- An execution in flight: an element of the set of futures of
`for_each_concurrent` (runner.rs:48). -/
structure Flight where
  task : Task
  phase : Phase := .running
  deriving Repr

/-- A runner at work. `polling` says whether it still takes jobs from its stream:
it does not after shutdown (`take_until`, runner.rs:47) or after a panic in the
runner. -/
structure RunnerState where
  polling : Bool := true
  flights : List Flight := []
  deriving Repr

/-- The backend and the runners. -/
structure Sys where
  conc : Conc := {}
  runners : List RunnerState := []
  deriving Repr

/-- An action. -/
inductive SAct where
  /-- Some other client of the backend does something. -/
  | client (a : Act)
  /-- Runner `r` polls its stream, and the stream looks for a job. -/
  | pull (r : Nat)
  /-- The body of the `i`-th execution in flight of runner `r` ends like this. -/
  | finish (r i : Nat) (b : Body)
  /-- The `i`-th execution in flight of runner `r` makes its backend call. -/
  | report (r i : Nat)
  /-- `graceful_shutdown` or a dropped guard: the cancellation token is cancelled
  (rexecutor/src/lib.rs:997-1000, 1055-1058). -/
  | shutdown
  deriving Repr

/-- What an action did. -/
inductive SEv where
  /-- Another client's action. -/
  | client (ev : Ev)
  /-- Runner `r` looked for a job; what it did with the one it got. -/
  | pulled (r : Nat) (ev : Ev) (started : Option Started)
  /-- An execution of runner `r` ended; the call it will make, or a panic in the
  runner (`none`). -/
  | ended (r : Nat) (t : Task) (j : Joined) (call : Option Op)
  /-- An execution of runner `r` made its backend call. -/
  | reported (r : Nat) (t : Task) (ev : Ev)
  /-- The runners were told to stop. -/
  | shutdown
  /-- Nothing happened. -/
  | nothing
  deriving Repr

/-- The limit of `for_each_concurrent` (runner.rs:48): `futures` reads `Some(0)` as
no limit; below the limit another element is taken from the stream. -/
def belowLimit (limit : Option Nat) (inFlight : Nat) : Bool :=
  match limit with
  | none => true
  | some k => k == 0 || decide (inFlight < k)

/-- A panic inside the runner's own future ends the runner: its stream and its set
of executions in flight are dropped (bodies already spawned go on, but nobody
reports them). -/
def RunnerState.crash (_ : RunnerState) : RunnerState := { polling := false, flights := [] }

/-- One action. `defs` are the executors of the runners. -/
def Sys.step (defs : List Runner) (now : Time) (s : Sys) : SAct → SEv × Sys
  | .client a =>
    let (ev, c) := s.conc.step now a
    (.client ev, { s with conc := c })
  | .pull r =>
    match defs[r]?, s.runners[r]? with
    | some d, some rs =>
      if rs.polling && belowLimit d.maxConcurrency rs.flights.length then
        let (ev, c) := s.conc.step now (.op (.load d.name))
        match ev with
        | .op _ (.job (some j)) =>
          let started := d.start j
          let rs' := match started with
            | .running t => { rs with flights := rs.flights ++ [{ task := t }] }
            | .undecodable => rs
            | .runnerPanics => rs.crash
          (.pulled r ev (some started), { conc := c, runners := s.runners.set r rs' })
        | _ => (.pulled r ev none, { s with conc := c })
      else (.nothing, s)
    | _, _ => (.nothing, s)
  | .finish r i b =>
    match defs[r]?, s.runners[r]? with
    | some d, some rs =>
      match rs.flights[i]? with
      | some { task := t, phase := .running } =>
        match t.join b with
        | none => (.nothing, s)
        | some j =>
          match d.report now t j with
          | some o =>
            let rs' := { rs with flights := rs.flights.set i { task := t, phase := .reporting o } }
            (.ended r t j (some o), { s with runners := s.runners.set r rs' })
          | none => (.ended r t j none, { s with runners := s.runners.set r rs.crash })
      | _ => (.nothing, s)
    | _, _ => (.nothing, s)
  | .report r i =>
    match s.runners[r]? with
    | some rs =>
      match rs.flights[i]? with
      | some { task := t, phase := .reporting o } =>
        let (ev, c) := s.conc.step now (.op o)
        let rs' := { rs with flights := rs.flights.eraseIdx i }
        (.reported r t ev, { conc := c, runners := s.runners.set r rs' })
      | _ => (.nothing, s)
    | none => (.nothing, s)
  | .shutdown =>
    (.shutdown, { s with runners := s.runners.map fun rs => { rs with polling := false } })

/-- A timed action. -/
structure TSAct where
  now : Time
  act : SAct
  deriving Repr

/-- A timed event. -/
structure TSEv where
  now : Time
  ev : SEv
  deriving Repr

/-- The state after a schedule. -/
def Sys.run (defs : List Runner) (s : Sys) : List TSAct → Sys
  | [] => s
  | a :: as => Sys.run defs (s.step defs a.now a.act).2 as

/-- The events of a schedule. -/
def Sys.trace (defs : List Runner) (s : Sys) : List TSAct → List TSEv
  | [] => []
  | a :: as =>
    { now := a.now, ev := (s.step defs a.now a.act).1 } :: Sys.trace defs (s.step defs a.now a.act).2 as

/-- Runners for the given executors, just started on a fresh backend. -/
def Sys.init (defs : List Runner) (paused : Bool := false) : Sys where
  conc := { mem := Mem.init paused }
  runners := defs.map fun _ => {}

end Rexecutor
