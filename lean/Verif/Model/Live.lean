import Verif.Model.Stream
import Verif.Model.System

/-!
# Runners together with their streams, in memory

In `System.lean` a runner takes a job in one step. Here it does what the code does: its task
subscribes, and then polls the stream (memory.rs:34-72), which looks, reads the clock, loads or
goes to sleep in separate steps. `take_until` (runner.rs:47) looks at the cancellation token at
the beginning of each poll, and only then.
-/

namespace Rexecutor

/-- A runner (runner.rs:42-70). `stream` is the position of its stream among the readers, once its
task has subscribed (runner.rs:45-46). `inPoll` says that a poll of the stream is under way. `state`
is as in `System.lean`; `polling` ends when `take_until` ends the stream. -/
structure LiveRunner where
  stream : Option Nat := none
  inPoll : Bool := false
  state : RunnerState := {}
  deriving Repr

/-- The backend with its streams, the runners, and the cancellation token
(rexecutor/src/lib.rs:997-1000). -/
structure Live where
  streams : Streams := {}
  runners : List LiveRunner := []
  cancelled : Bool := false
  deriving Repr

/-- An action. -/
inductive LvAct where
  /-- Some other client of the backend does something. -/
  | client (a : Act)
  /-- The task of runner `r` begins: it subscribes. -/
  | begin (r : Nat)
  /-- `for_each_concurrent` of runner `r` polls the stream; `take_until` looks at the token. -/
  | poll (r : Nat)
  /-- The poll of runner `r` under way makes its next step. `timer` as in `StAct.stream`. -/
  | step (r : Nat) (timer : Bool)
  /-- The body of the `i`-th execution in flight of runner `r` ends like this. -/
  | finish (r i : Nat) (b : Body)
  /-- The `i`-th execution in flight of runner `r` makes its backend call. -/
  | report (r i : Nat)
  /-- The cancellation token is cancelled. -/
  | shutdown
  deriving Repr

/-- What an action did. -/
inductive LvEv where
  /-- Another client's action. -/
  | client (ev : Ev)
  /-- Runner `r` has subscribed. -/
  | begun (r : Nat)
  /-- Runner `r` began to poll its stream. -/
  | polling (r : Nat)
  /-- Runner `r` noticed the token; it takes no more jobs. -/
  | stopped (r : Nat)
  /-- The stream of runner `r` made a step; what the runner did with the job it returned. -/
  | moved (r : Nat) (ev : StEv) (started : Option Started)
  /-- The stream of runner `r` has nothing to do; the poll is over. -/
  | pending (r : Nat)
  /-- An execution of runner `r` ended; the call it will make, or a panic in the runner. -/
  | ended (r : Nat) (t : Task) (j : Joined) (call : Option Op)
  /-- An execution of runner `r` made its backend call. -/
  | reported (r : Nat) (t : Task) (ev : Ev)
  /-- The token was cancelled. -/
  | shutdown
  /-- Nothing happened. -/
  | nothing
  deriving Repr

/-- What a runner does with a job from its stream (runner.rs:49-67), as in `Sys.step`. -/
def LiveRunner.take (d : Runner) (j : Job) (q : LiveRunner) : LiveRunner :=
  match d.start j with
  | .running t => { q with inPoll := false, state := { q.state with flights := q.state.flights ++ [{ task := t }] } }
  | .undecodable => { q with inPoll := false }
  | .runnerPanics => { q with inPoll := false, state := q.state.crash }

/-- One action. `defs` are the executors of the runners. A runner is one task (runner.rs:43): while
its stream is being polled its executions do not report. -/
def Live.act (defs : List Runner) (now : Time) (s : Live) : LvAct → LvEv × Live
  | .client a =>
    let (ev, c) := s.streams.conc.step now a
    (.client ev, { s with streams := { s.streams with conc := c } })
  | .begin r =>
    match defs[r]?, s.runners[r]? with
    | some d, some { stream := none, inPoll, state } =>
      let (_, st) := s.streams.step now (.subscribe d.name)
      (.begun r,
        { s with streams := st, runners := s.runners.set r { stream := some s.streams.readers.length, inPoll, state } })
    | _, _ => (.nothing, s)
  | .poll r =>
    match defs[r]?, s.runners[r]? with
    | some d, some { stream := some n, inPoll := false, state } =>
      if state.polling && belowLimit d.maxConcurrency state.flights.length then
        if s.cancelled then
          (.stopped r,
            { s with runners := s.runners.set r { stream := some n, inPoll := false, state := { state with polling := false } } })
        else (.polling r, { s with runners := s.runners.set r { stream := some n, inPoll := true, state } })
      else (.nothing, s)
    | _, _ => (.nothing, s)
  | .step r timer =>
    match defs[r]?, s.runners[r]? with
    | some d, some { stream := some n, inPoll := true, state } =>
      let q : LiveRunner := { stream := some n, inPoll := true, state }
      match s.streams.step now (.stream n timer) with
      | (.returned k j, st) =>
        (.moved r (.returned k j) (some (d.start j)), { s with streams := st, runners := s.runners.set r (q.take d j) })
      | (.nothing, _) => (.pending r, { s with runners := s.runners.set r { q with inPoll := false } })
      | (ev, st) => (.moved r ev none, { s with streams := st })
    | _, _ => (.nothing, s)
  | .finish r i b =>
    match defs[r]?, s.runners[r]? with
    | some d, some { stream, inPoll := false, state } =>
      match state.flights[i]? with
      | some { task := t, phase := .running } =>
        match t.join b with
        | none => (.nothing, s)
        | some j =>
          match d.report now t j with
          | some o =>
            let state' := { state with flights := state.flights.set i { task := t, phase := .reporting o } }
            (.ended r t j (some o), { s with runners := s.runners.set r { stream, inPoll := false, state := state' } })
          | none => (.ended r t j none, { s with runners := s.runners.set r { stream, inPoll := false, state := state.crash } })
      | _ => (.nothing, s)
    | _, _ => (.nothing, s)
  | .report r i =>
    match s.runners[r]? with
    | some { stream, inPoll := false, state } =>
      match state.flights[i]? with
      | some { task := t, phase := .reporting o } =>
        let (ev, c) := s.streams.conc.step now (.op o)
        let state' := { state with flights := state.flights.eraseIdx i }
        (.reported r t ev,
          { s with streams := { s.streams with conc := c }, runners := s.runners.set r { stream, inPoll := false, state := state' } })
      | _ => (.nothing, s)
    | _ => (.nothing, s)
  | .shutdown => (.shutdown, { s with cancelled := true })

/-- A timed action. -/
structure TLvAct where
  now : Time
  act : LvAct
  deriving Repr

/-- A timed event. -/
structure TLvEv where
  now : Time
  ev : LvEv
  deriving Repr

/-- The state after a schedule. -/
def Live.run (defs : List Runner) (s : Live) : List TLvAct → Live
  | [] => s
  | a :: as => Live.run defs (s.act defs a.now a.act).2 as

/-- The events of a schedule. -/
def Live.trace (defs : List Runner) (s : Live) : List TLvAct → List TLvEv
  | [] => []
  | a :: as => { now := a.now, ev := (s.act defs a.now a.act).1 } :: Live.trace defs (s.act defs a.now a.act).2 as

/-- Runners for the given executors, spawned on a fresh backend, that have not begun yet. -/
def Live.init (defs : List Runner) (paused : Bool := false) : Live where
  streams := Streams.init paused
  runners := defs.map fun _ => {}

end Rexecutor
