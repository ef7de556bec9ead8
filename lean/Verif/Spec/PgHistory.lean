import Verif.Spec.Pg

/-!
# Vocabulary for statements about histories of the Postgres backend

Everything here looks only at events, i.e. at what was committed and what callers and
streams observe.
-/

namespace Rexecutor

/-- A timed event. -/
structure TPgEv where
  now : Time
  ev : PgEv
  deriving Repr

/-- The events of a schedule with their times. -/
def PgConc.history (hash : HashFn) (c : PgConc) : List TPgAct → List TPgEv
  | [] => []
  | a :: as =>
    ⟨a.now, (c.step hash a.tie a.now a.act).1⟩ :: PgConc.history hash (c.step hash a.tie a.now a.act).2 as

/-- The event commits the new row `id`. -/
def PgEv.inserts (id : Int) : PgEv → Bool
  | .inserted row _ => row.id == id
  | _ => false

/-- The event is a successful retry of row `id`. -/
def PgEv.retries (id : Int) : PgEv → Bool
  | .stmt (.retryable i _ _) .unit => i == id
  | _ => false

/-- The event is a successful snooze of row `id`. -/
def PgEv.snoozes (id : Int) : PgEv → Bool
  | .stmt (.snoozed i _) .unit => i == id
  | _ => false

/-- The event is a successful rerun of row `id`. -/
def PgEv.reruns (id : Int) : PgEv → Bool
  | .stmt (.rerun i) .unit => i == id
  | _ => false

/-- The event is a successful update of row `id`, or the change of it by a unique
enqueue with a replace resolution. -/
def PgEv.edits (id : Int) : PgEv → Bool
  | .stmt (.update j) .unit => j.id == id
  | .replaced i => i == id
  | _ => false

/-- The event is a successful complete / discard / cancel of row `id`. -/
def PgEv.finishes (id : Int) : PgEv → Bool
  | .stmt (.complete i) .unit => i == id
  | .stmt (.discarded i _) .unit => i == id
  | .stmt (.cancelled i _) .unit => i == id
  | _ => false

/-- The event changes row `id`. -/
def PgEv.touches (id : Int) (e : PgEv) : Bool :=
  e.handsOut id || e.retries id || e.snoozes id || e.reruns id || e.edits id || e.finishes id

/-- The failure the event reports for row `id`, if it is a successful retry, discard or
cancel of it. -/
def PgEv.failureOf (id : Int) : PgEv → Option ExecError
  | .stmt (.retryable i _ e) .unit => if i = id then some e else none
  | .stmt (.discarded i e) .unit => if i = id then some e else none
  | .stmt (.cancelled i e) .unit => if i = id then some e else none
  | _ => none

/-- Number of hand-outs of row `id` in a history. -/
def pgHandouts (id : Int) (h : List TPgEv) : Nat := h.countP fun e => e.ev.handsOut id

/-- Number of snoozes of row `id` in a history. -/
def pgSnoozes (id : Int) (h : List TPgEv) : Nat := h.countP fun e => e.ev.snoozes id

/-- The ids of the rows inserted in a history, in order. -/
def pgInserted (h : List TPgEv) : List Int :=
  h.filterMap fun e => match e.ev with
    | .inserted row _ => some row.id
    | _ => none

/-- How an error type is written in the table. -/
def errorName : ErrorType → String
  | .panic => "panic"
  | .timeout => "timeout"
  | .cancelled => "cancelled"
  | .other name => name

/-- The errors a history reports for row `id`, oldest first: each retry, discard and
cancel with its type, message and time, and the number of hand-outs minus the number
of snoozes of the row before it. `seen` is the part of the history already looked
at. -/
def pgErrorLog (id : Int) (seen : List TPgEv) : List TPgEv → List RawError
  | [] => []
  | e :: rest =>
    (match e.ev.failureOf id with
      | some f => [{ attempt := (pgHandouts id seen : Int) - pgSnoozes id seen
                     errorType := errorName f.errorType, details := f.message, recordedAt := pgTime e.now }]
      | none => [])
    ++ pgErrorLog id (seen ++ [e]) rest

/-- The last event of a history of which `f` has something to say, and what it says. -/
def lastSays (f : TPgEv → Option α) (h : List TPgEv) : Option α := h.reverse.findSome? f

/-- A successful complete of row `id`. -/
def PgEv.completes (id : Int) : PgEv → Bool
  | .stmt (.complete i) .unit => i == id
  | _ => false

/-- A successful discard of row `id`. -/
def PgEv.discards (id : Int) : PgEv → Bool
  | .stmt (.discarded i _) .unit => i == id
  | _ => false

/-- A successful cancel of row `id`. -/
def PgEv.cancels (id : Int) : PgEv → Bool
  | .stmt (.cancelled i _) .unit => i == id
  | _ => false

/-- The time stamp that the last event of kind `sets` left on row `id`, unless the row
was rerun since. -/
def stamp (id : Int) (sets : PgEv → Bool) (h : List TPgEv) : Option Time :=
  (lastSays (fun e => if sets e.ev then some (some (pgTime e.now)) else if e.ev.reruns id then some none else none) h).join

/-- What last happened to row `id` that has a bearing on its status. -/
def lastFate (id : Int) (h : List TPgEv) : Option PgEv :=
  lastSays (fun e =>
    if e.ev.handsOut id || e.ev.retries id || e.ev.snoozes id || e.ev.reruns id || e.ev.finishes id then some e.ev else none) h

end Rexecutor
