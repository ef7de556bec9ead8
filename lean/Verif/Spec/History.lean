import Verif.Model.Concurrent

/-!
# Vocabulary for statements about histories of the in-memory backend

Everything here looks only at events, i.e. at what callers and streams observe.
-/

namespace Rexecutor

/-- The event is a hand-out of job `id` to some stream. -/
def Ev.handsOut (id : Int) : Ev → Bool
  | .op (.load _) (.job (some j)) => j.id == id
  | _ => false

/-- The event is a successful snooze of job `id`. -/
def Ev.snoozes (id : Int) : Ev → Bool
  | .op (.snoozed i _) .unit => i == id
  | _ => false

/-- The event is a successful retry of job `id`. -/
def Ev.retries (id : Int) : Ev → Bool
  | .op (.retryable i _ _) .unit => i == id
  | _ => false

/-- The event is a successful rerun of job `id`. -/
def Ev.reruns (id : Int) : Ev → Bool
  | .op (.rerun i) .unit => i == id
  | _ => false

/-- The event is a successful `update_job` of job `id`. -/
def Ev.updates (id : Int) : Ev → Bool
  | .op (.update j) .unit => j.id == id
  | _ => false

/-- The event is the write-back of job `id` by an enqueue whose uniqueness
criteria matched it. -/
def Ev.conflicts (id : Int) : Ev → Bool
  | .wrote j .unit => j.id == id
  | _ => false

/-- The event replaces the whole job `id`: `update_job` or a uniqueness conflict. -/
def Ev.edits (id : Int) (e : Ev) : Bool := e.updates id || e.conflicts id

/-- The event puts job `id` back in the queue: a retry, a snooze, a rerun, an
update or a uniqueness conflict. -/
def Ev.putsBack (id : Int) (e : Ev) : Bool :=
  e.retries id || e.snoozes id || e.reruns id || e.updates id || e.conflicts id

/-- The event is a successful complete / discard / cancel of job `id`. -/
def Ev.finishes (id : Int) : Ev → Bool
  | .op (.complete i) .unit => i == id
  | .op (.discarded i _) .unit => i == id
  | .op (.cancelled i _) .unit => i == id
  | _ => false

/-- The failure the event reports for job `id`, if it is a successful retry,
discard or cancel of it. -/
def Ev.failureOf (id : Int) : Ev → Option ExecError
  | .op (.retryable i _ e) .unit => if i = id then some e else none
  | .op (.discarded i e) .unit => if i = id then some e else none
  | .op (.cancelled i e) .unit => if i = id then some e else none
  | _ => none

/-- Number of hand-outs of job `id` in a history. -/
def handouts (id : Int) (h : List TEv) : Nat := h.countP fun e => e.ev.handsOut id

/-- Number of snoozes of job `id` in a history. -/
def snoozes (id : Int) (h : List TEv) : Nat := h.countP fun e => e.ev.snoozes id

/-- Number of ids taken from the counter in a history. -/
def idsTaken (h : List TEv) : Nat :=
  h.countP fun e => match e.ev with
    | .allocated _ => true
    | _ => false

/-- The ids given to new jobs in a history, in order of insertion. -/
def insertedIds (h : List TEv) : List Int :=
  h.filterMap fun e => match e.ev with
    | .inserted id _ => some id
    | _ => none

/-- A backend nobody has used yet, paused or not. -/
def fresh (paused : Bool := false) : Conc := { mem := Mem.init paused }

end Rexecutor
