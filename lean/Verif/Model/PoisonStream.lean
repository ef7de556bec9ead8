import Verif.Model.Poison
import Verif.Model.Stream

/-!
# Job streams and their runners on a backend whose lock may be poisoned

`Verif.Model.Stream` has the loop of the streams on a healthy backend. A stream uses the
lock of the jobs twice: looking for the earliest available job takes it for reading and passes
the error on (memory.rs:46-50, 152-160, 202-207), loading a job unwraps it (memory.rs:163).
The runner logs an error and polls the stream again (runner.rs:43-66); `next` is then
called anew (memory.rs:376-380). A panic unwinds the runner's task (runner.rs:40-70).
-/

namespace Rexecutor

/-- The backend, the state of its lock, its streams and which of them are gone with their
runner. -/
structure LStreams where
  st : Streams := {}
  poisoned : Bool := false
  dead : List Nat := []
  deriving DecidableEq, Repr

/-- What an action did. -/
inductive LStEv where
  /-- What it does on a healthy backend. -/
  | ok (ev : StEv)
  /-- A call of a client on a poisoned backend, or one that poisons it. -/
  | client (ev : LockEv)
  /-- Stream `i` yielded `Err(BadState)`; its runner logs that and polls again. -/
  | errored (i : Nat)
  /-- Stream `i` panicked and its runner's task is gone. -/
  | died (i : Nat)
  deriving Repr

/-- The next step of the `i`-th stream on a poisoned backend. Only the two places that use the
lock of the jobs differ from `Streams.streamStep`. -/
def LStreams.poisonedStep (now : Time) (timer : Bool) (s : LStreams) (i : Nat) (r : Reader) : LStEv × LStreams :=
  match r.wait with
  | .ready => (.errored i, s)
  | .decided _ delay =>
    if delay ≤ pollDelta then (.died i, { s with dead := i :: s.dead })
    else let (ev, st) := s.st.streamStep now timer i r; (.ok ev, { s with st := st })
  | _ => let (ev, st) := s.st.streamStep now timer i r; (.ok ev, { s with st := st })

/-- One action. -/
def LStreams.step (now : Time) (s : LStreams) : StAct → LStEv × LStreams
  | .client a =>
    match Locked.step now { conc := s.st.conc, poisoned := s.poisoned } a with
    | (.ok ev, l) => (.ok (.client ev), { s with st := { s.st with conc := l.conc }, poisoned := l.poisoned })
    | (ev, l) => (.client ev, { s with st := { s.st with conc := l.conc }, poisoned := l.poisoned })
  | .subscribe ex => let (ev, st) := s.st.step now (.subscribe ex); (.ok ev, { s with st := st })
  | .stream i timer =>
    match s.st.readers[i]? with
    | none => (.ok .nothing, s)
    | some r =>
      if s.dead.contains i then (.ok .nothing, s)
      else if s.poisoned then s.poisonedStep now timer i r
      else let (ev, st) := s.st.streamStep now timer i r; (.ok ev, { s with st := st })

/-- The state after a schedule. -/
def LStreams.run (s : LStreams) : List TStAct → LStreams
  | [] => s
  | a :: as => LStreams.run (s.step a.now a.act).2 as

/-- The events of a schedule. -/
def LStreams.trace (s : LStreams) : List TStAct → List LStEv
  | [] => []
  | a :: as => (s.step a.now a.act).1 :: LStreams.trace (s.step a.now a.act).2 as

end Rexecutor
