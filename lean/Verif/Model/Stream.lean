import Verif.Model.Concurrent

/-!
# The waiting loop of the in-memory job streams (memory.rs:34-72, 360-381)

Each stream runs `ReadyJobStream::next` in a loop. Looking for the earliest
available job, reading the clock, loading a job and going to sleep are separate
steps: any action of other clients or streams can happen in between.
-/

namespace Rexecutor

/-- `DEFAULT_DELAY`, memory.rs:41. -/
def defaultDelay : Delta := 30 * sec

/-- `DELTA`, memory.rs:42. -/
def pollDelta : Delta := 15 * ms

/-- Where a stream is in `ReadyJobStream::next`. -/
inductive Wait where
  /-- About to look for the earliest available job (memory.rs:46-50); also where a
  stream is that has returned a job and is not polled. -/
  | ready
  /-- `next_available_job_scheduled_at_for_executor` returned this; the clock is
  about to be read (memory.rs:51-57). -/
  | looked (found : Option Time)
  /-- The delay has been computed with this clock reading (memory.rs:58). -/
  | decided (clock : Time) (delay : Delta)
  /-- Waiting in `select!` since `since` (memory.rs:66-70). -/
  | asleep (clock since : Time) (delay : Delta)
  deriving DecidableEq, Repr

/-- `ReadyJobStream`, memory.rs:34-38. `sub` is the position of its channel in the
list of subscribers. -/
structure Reader where
  sub : Nat
  executor : String
  wait : Wait := .ready
  deriving DecidableEq, Repr

/-- The delay computed in memory.rs:45-57: `to_std` fails on negative durations. -/
def streamDelay (now : Time) : Option Time → Delta
  | none => defaultDelay
  | some t => min (if t - now < 0 then pollDelta else t - now) defaultDelay

/-- The backend with its streams. -/
structure Streams where
  conc : Conc := {}
  readers : List Reader := []
  deriving DecidableEq, Repr

/-- An action. -/
inductive StAct where
  /-- Some other client does something. -/
  | client (a : Act)
  /-- `subscribe_ready_jobs` (memory.rs:360-381). -/
  | subscribe (executor : String)
  /-- The `i`-th stream takes its next step. `timer` is the branch `select!` takes
  if a message has arrived and the timer has run out. -/
  | stream (i : Nat) (timer : Bool)
  deriving Repr

/-- What an action did. -/
inductive StEv where
  | client (ev : Ev)
  | subscribed
  /-- Stream `i` looked for the earliest available job. -/
  | looked (i : Nat) (found : Option Time)
  /-- Stream `i` computed its delay. -/
  | decided (i : Nat) (delay : Delta)
  /-- Stream `i` returned a job. -/
  | returned (i : Nat) (j : Job)
  /-- Stream `i` went to sleep. -/
  | slept (i : Nat)
  /-- Stream `i` was woken by a message. -/
  | received (i : Nat)
  /-- The timer of stream `i` ran out. -/
  | timedOut (i : Nat)
  /-- Nothing happened. -/
  | nothing
  deriving Repr

/-- `receiver.recv()` on the channel of subscriber `s`, memory.rs:67. -/
def Mem.receive (s : Nat) (m : Mem) : Mem :=
  { m with subs := m.subs.modify s fun sb => { sb with queue := sb.queue.tail } }

/-- Is there a message in the channel of subscriber `s`? -/
def Mem.hasMessage (s : Nat) (m : Mem) : Bool :=
  match m.subs[s]? with
  | some sb => !sb.queue.isEmpty
  | none => false

/-- Replace the state of the `i`-th stream. -/
def Streams.setWait (s : Streams) (i : Nat) (w : Wait) : Streams :=
  { s with readers := s.readers.modify i fun r => { r with wait := w } }

/-- Replace the backend state. -/
def Streams.setMem (s : Streams) (m : Mem) : Streams :=
  { s with conc := { s.conc with mem := m } }

/-- The next step of the `i`-th stream, memory.rs:44-72. The clock of the timer
(tokio's) and the clock of the backend (`Utc::now`) are taken to be the same. A
stream sleeping for `delay` since `since` may be woken by its timer at any time from
`since + delay` on. -/
def Streams.streamStep (now : Time) (timer : Bool) (s : Streams) (i : Nat) (r : Reader) : StEv × Streams :=
  match r.wait with
  | .ready =>
    let f := s.conc.mem.nextAvailable r.executor
    (.looked i f, s.setWait i (.looked f))
  | .looked f => (.decided i (streamDelay now f), s.setWait i (.decided now (streamDelay now f)))
  | .decided clock delay =>
    if delay ≤ pollDelta then
      match s.conc.mem.load now r.executor with
      | (some j, m) => (.returned i j, (s.setMem m).setWait i .ready)
      | (none, _) => (.slept i, s.setWait i (.asleep clock now delay))
    else (.slept i, s.setWait i (.asleep clock now delay))
  | .asleep _ since delay =>
    let due : Bool := decide (since + delay ≤ now)
    if s.conc.mem.hasMessage r.sub && !(timer && due) then
      (.received i, (s.setMem (s.conc.mem.receive r.sub)).setWait i .ready)
    else if due then (.timedOut i, s.setWait i .ready)
    else (.nothing, s)

/-- One action. -/
def Streams.step (now : Time) (s : Streams) : StAct → StEv × Streams
  | .client a =>
    let (ev, c) := s.conc.step now a
    (.client ev, { s with conc := c })
  | .subscribe ex =>
    (.subscribed,
      { conc := { s.conc with mem := s.conc.mem.subscribe ex },
        readers := s.readers ++ [{ sub := s.conc.mem.subs.length, executor := ex }] })
  | .stream i timer =>
    match s.readers[i]? with
    | none => (.nothing, s)
    | some r => s.streamStep now timer i r

/-- A timed action. -/
structure TStAct where
  now : Time
  act : StAct
  deriving Repr

/-- The state after a schedule. -/
def Streams.run (s : Streams) : List TStAct → Streams
  | [] => s
  | a :: as => Streams.run (s.step a.now a.act).2 as

/-- The events of a schedule. -/
def Streams.trace (s : Streams) : List TStAct → List StEv
  | [] => []
  | a :: as => (s.step a.now a.act).1 :: Streams.trace (s.step a.now a.act).2 as

/-- A backend nobody has used yet, paused or not. -/
def Streams.init (paused : Bool := false) : Streams := { conc := { mem := Mem.init paused } }

end Rexecutor
