import Verif.Model.Concurrent

/-! Concrete jobs and schedules used in the examples beside the theorems. -/

namespace Rexecutor

/-- A plain job for the executor `mail`, due at time 0. -/
def sampleEnq : EnqueuableJob where
  executor := "mail"
  data := .str "hello"
  metadata := .null
  maxAttempts := 2
  scheduledAt := 0
  tags := ["a"]
  priority := 0
  criteria := none

/-- The same with a by-executor do-nothing uniqueness criterion. -/
def sampleUnique : EnqueuableJob :=
  { sampleEnq with
    criteria := some { key := none, executor := true, duration := none,
                       statuses := [.scheduled], onConflict := .doNothing } }

/-- All atomic steps of the `i`-th enqueue call, at time `t`. -/
def enqSteps (t : Time) (i : Nat) (e : EnqueuableJob) : List TAct :=
  [⟨t, .start e⟩, ⟨t, .advance i⟩, ⟨t, .advance i⟩, ⟨t, .advance i⟩]

/-- Shorthand for a timed backend call. -/
def call (t : Time) (o : Op) : TAct := ⟨t, .op o⟩

/-- An error as an executor would report it. -/
def sampleErr : ExecError := { errorType := .other "oops", message := "it broke" }

/-- A stored job of the executor `mail`, waiting. -/
def sampleJob (id : Int) : Job where
  id := id
  status := .scheduled
  executor := "mail"
  data := .str "hello"
  metadata := .null
  attempt := 0
  maxAttempts := 2
  priority := 0
  tags := ["a"]
  errors := []
  insertedAt := 0
  scheduledAt := 0
  attemptedAt := none
  completedAt := none
  cancelledAt := none
  discardedAt := none

/-- A store with the given jobs, without uniqueness keys. -/
def storeOf (js : List Job) : Mem := { jobs := js.map fun j => { job := j, key := none } }

end Rexecutor
