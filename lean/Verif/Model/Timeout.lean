import Verif.Model.Runner

/-!
# How a body is polled under its timeout (rexecutor/src/job/runner.rs:83-104, 127-145)

`Task.join` (Model/Runner) is told how long a body took and whether it was suspended
when its timeout passed. Here both are derived: a body computes for a while, waits for
something at an `await`, computes again, and so on.
-/

namespace Rexecutor

/-- Computing for `busy` nanoseconds without an `await` that has to wait, then waiting for
something that is there after `wait` nanoseconds (`none`: for ever). -/
structure Stretch where
  busy : Nat
  wait : Option Nat
  deriving DecidableEq, Repr

/-- What a body does. `queued` is the time between the creation of the future, when the
timeout starts to count (`tokio::time::timeout`, runner.rs:97), and its first poll: on
`spawn_blocking` (runner.rs:98-101) it waits for a thread, on `spawn` (runner.rs:102-104)
for a worker. After the stretches it computes for `last` and ends with a result or a panic
(`Sum.inr`, with the payload if it is a text). -/
structure Script where
  queued : Nat := 0
  stretches : List Stretch := []
  last : Nat := 0
  ending : ExecResult ⊕ Option String
  joinMessage : String := ""
  deriving DecidableEq, Repr

/-- How the body ends by itself. -/
def Script.joined (s : Script) : Joined :=
  match s.ending with
  | .inl r => .result r
  | .inr payload => .joinError payload s.joinMessage

/-- Polling without timeout (runner.rs:138-145), from time `t` (since the creation of the
future) on: when the execution ends and how, `none` if it waits for ever. -/
def Script.untimed (s : Script) (t : Nat) : List Stretch → Option (Nat × Joined)
  | [] => some (t + s.last, s.joined)
  | x :: xs =>
    match x.wait with
    | none => none
    | some w => s.untimed (t + x.busy + w) xs

/-- Polling with a timeout (`tokio::time::Timeout::poll`, runner.rs:97): each poll runs the
body first; only if the body has to wait is the timer looked at. `fires` is when the timer
has fired; tokio does not let it fire before the timeout, but may do so later. If the body
and the timer are there at the same time the body goes on. The body is dropped when the
timeout is found to have passed. -/
def Script.timed (s : Script) (limit fires : Nat) (t : Nat) : List Stretch → Nat × Joined
  | [] => (t + s.last, s.joined)
  | x :: xs =>
    let pending := t + x.busy
    if fires ≤ pending then (pending, .elapsed limit)
    else
      match x.wait with
      | none => (fires, .elapsed limit)
      | some w => if pending + w ≤ fires then s.timed limit fires (pending + w) xs else (fires, .elapsed limit)

/-- `execute_job_with_timeout` or `execute_job_without_timeout` up to `result.await`
(runner.rs:76-81, 97-106, 138-147). -/
def Script.execute (s : Script) (timeout : Option Nat) (fires : Nat) : Option (Nat × Joined) :=
  match timeout with
  | none => s.untimed s.queued s.stretches
  | some limit => some (s.timed limit fires s.queued s.stretches)

end Rexecutor
