import Verif.Model.Concurrent

/-!
# The in-memory backend used by one caller at a time

A history in which no two calls overlap. `Lemmas/Api.lean` shows that an `enqueue`
here is exactly the run of the atomic steps of `Verif.Model.Concurrent` with
nothing in between.
-/

namespace Rexecutor

/-- One call of the `Backend` trait (rexecutor/src/backend.rs:35-108), or one
hand-out by a stream. -/
inductive Api where
  | enqueue (e : EnqueuableJob)
  | op (o : Op)
  deriving Repr

/-- A call, start to end (memory.rs:358-514). -/
def Mem.api (now : Time) (m : Mem) : Api → Res × Mem
  | .enqueue e => m.enqueue now e
  | .op o => m.step now o

/-- A call with the time it is made. -/
structure TApi where
  now : Time
  call : Api
  deriving Repr

/-- The store after a sequence of calls. -/
def Mem.runApi (m : Mem) : List TApi → Mem
  | [] => m
  | c :: cs => Mem.runApi (m.api c.now c.call).2 cs

/-- The results of a sequence of calls. -/
def Mem.results (m : Mem) : List TApi → List Res
  | [] => []
  | c :: cs => (m.api c.now c.call).1 :: Mem.results (m.api c.now c.call).2 cs

end Rexecutor
