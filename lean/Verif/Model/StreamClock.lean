import Verif.Model.PgStream

/-!
# The job streams with clocks that are set (memory.rs:34-72, rexecutor-sqlx/src/stream.rs)

`Streams.step` and `PgNet.step` take all times from one clock. The code takes them from two: it
asks a clock what time it is (`Utc::now()`), and it sleeps by the timer of tokio, which counts
elapsed time. The two part when the clock is set, or runs fast or slow. Here every action takes
place at a real time, and what is read off a clock during it may be any time whatsoever.
-/

namespace Rexecutor

/-- The next step of the `i`-th stream at the real time `real`, when its clock shows `now`,
memory.rs:44-72, as `Streams.streamStep`. Only the timer counts real time. -/
def Streams.streamStepAt (real now : Time) (timer : Bool) (s : Streams) (i : Nat) (r : Reader) : StEv × Streams :=
  match r.wait with
  | .ready =>
    let f := s.conc.mem.nextAvailable r.executor
    (.looked i f, s.setWait i (.looked f))
  | .looked f => (.decided i (streamDelay now f), s.setWait i (.decided now (streamDelay now f)))
  | .decided clock delay =>
    if delay ≤ pollDelta then
      match s.conc.mem.load now r.executor with
      | (some j, m) => (.returned i j, (s.setMem m).setWait i .ready)
      | (none, _) => (.slept i, s.setWait i (.asleep clock real delay))
    else (.slept i, s.setWait i (.asleep clock real delay))
  | .asleep _ since delay =>
    let due : Bool := decide (since + delay ≤ real)
    if s.conc.mem.hasMessage r.sub && !(timer && due) then
      (.received i, (s.setMem (s.conc.mem.receive r.sub)).setWait i .ready)
    else if due then (.timedOut i, s.setWait i .ready)
    else (.nothing, s)

/-- One action at the real time `real`, when the clock shows `now`, as `Streams.step`. -/
def Streams.stepAt (real now : Time) (s : Streams) : StAct → StEv × Streams
  | .stream i timer =>
    match s.readers[i]? with
    | none => (.nothing, s)
    | some r => s.streamStepAt real now timer i r
  | a => s.step now a

/-- An action, when it takes place, and what the clock shows then. -/
structure ClockedAct where
  real : Time
  now : Time
  act : StAct
  deriving Repr

/-- The state after a schedule. -/
def Streams.runAt (s : Streams) : List ClockedAct → Streams
  | [] => s
  | a :: as => Streams.runAt (s.stepAt a.real a.now a.act).2 as

/-- The events of a schedule. -/
def Streams.traceAt (s : Streams) : List ClockedAct → List StEv
  | [] => []
  | a :: as => (s.stepAt a.real a.now a.act).1 :: Streams.traceAt (s.stepAt a.real a.now a.act).2 as

namespace PgNet

/-- The next step of stream `i` at the real time `real`, stream.rs:18-48, as `PgNet.streamStep`.
Only the timer counts real time. The clock that is read during the step (that of the node in
stream.rs:27, that of the database in lib.rs:124-128) shows `now`. -/
def streamStepAt (hash : HashFn) (tie : Int → Nat) (real now : Time) (timer : Bool) (s : PgNet) (i : Nat)
    (r : PgReader) : NetEv × PgNet :=
  match r.wait with
  | .ready =>
    let f := s.conc.pg.nextAvailable r.executor
    (.looked i f, s.setWait i (.looked f))
  | .looked f => (.decided i (streamDelay now f), s.setWait i (.decided now (streamDelay now f)))
  | .decided clock delay =>
    if delay ≤ pollDelta then
      let x := s.dbStep hash tie now (.handout r.executor)
      (x.1, x.2.setWait i (.loading clock delay s.conc.sessions.length))
    else (.slept i, s.setWait i (.asleep clock real delay))
  | .loading clock delay k =>
    match s.conc.sessions[k]? with
    | some (.done (.job (some j))) => (.returned i j, s.setWait i .ready)
    | some (.done (.job none)) => (.slept i, s.setWait i (.asleep clock real delay))
    | some (.done _) => (.failed i, s.setWait i .ready)
    | _ => s.dbStep hash tie now (.advance k)
  | .asleep _ since delay =>
    let due : Bool := decide (since + delay ≤ real)
    match r.queue with
    | t :: rest =>
      if timer && due then (.timedOut i, s.setWait i .ready)
      else (.received i t, { s with readers := s.readers.modify i fun r => { r with queue := rest, wait := .ready } })
    | [] => if due then (.timedOut i, s.setWait i .ready) else (.quiet, s)

/-- One action at the real time `real`, during which the clock that is read shows `now`, as
`PgNet.step`. Different actions may read different clocks. -/
def stepAt (hash : HashFn) (parses : Parses) (tie : Int → Nat) (real now : Time) (s : PgNet) : NetAct → NetEv × PgNet
  | .stream i timer =>
    match s.readers[i]? with
    | none => (.quiet, s)
    | some r => s.streamStepAt hash tie real now timer i r
  | a => s.step hash parses tie now a

end PgNet

/-- An action, when it takes place, what the clock shows then, and the choices the database makes
during it. -/
structure ClockedNet where
  real : Time
  now : Time
  tie : Int → Nat
  act : NetAct

/-- The state after a schedule. -/
def PgNet.runAt (hash : HashFn) (parses : Parses) (s : PgNet) : List ClockedNet → PgNet
  | [] => s
  | a :: as => PgNet.runAt hash parses (s.stepAt hash parses a.tie a.real a.now a.act).2 as

/-- The events of a schedule. -/
def PgNet.traceAt (hash : HashFn) (parses : Parses) (s : PgNet) : List ClockedNet → List NetEv
  | [] => []
  | a :: as =>
    (s.stepAt hash parses a.tie a.real a.now a.act).1 ::
      PgNet.traceAt hash parses (s.stepAt hash parses a.tie a.real a.now a.act).2 as

end Rexecutor
