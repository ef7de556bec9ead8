import Verif.Model.Memory

/-!
# `assert_enqueued!` (rexecutor/src/testing.rs:132-246)
-/

namespace Rexecutor

/-- A condition of the macro. -/
inductive AssertCond where
  /-- `with_data:` (testing.rs:185-191); the value after `serde_json::to_value`. -/
  | withData (d : Json)
  /-- `with_metadata:` (testing.rs:192-198). -/
  | withMetadata (m : Json)
  /-- `tagged_with:` (testing.rs:199-205). -/
  | taggedWith (tags : List String)
  /-- `scheduled_at:` (testing.rs:206-212). -/
  | scheduledAt (t : Time)
  /-- `scheduled_after:` (testing.rs:213-219). -/
  | scheduledAfter (t : Time)
  /-- `scheduled_before:` (testing.rs:220-226). -/
  | scheduledBefore (t : Time)
  /-- `for_executor:` (testing.rs:227-242). -/
  | forExecutor (name : String)
  deriving Repr

/-- The query pushed for a condition, testing.rs:185-242. -/
def AssertCond.query : AssertCond → Query
  | .withData d => .dataEquals d
  | .withMetadata m => .metadataEquals m
  | .taggedWith tags => .tagsAllOf tags
  | .scheduledAt t => .scheduledAtEqual t
  | .scheduledAfter t => .scheduledAtAfter t
  | .scheduledBefore t => .scheduledAtBefore t
  | .forExecutor name => .executorEqual name

/-- How the macro is called. -/
inductive AssertForm where
  /-- `1 job, to: backend, ...` (testing.rs:133-135). -/
  | oneJobTo
  /-- `n jobs, to: backend, ...` (testing.rs:136-138). -/
  | jobsTo (n : Nat)
  /-- `to: backend, ...` (testing.rs:145-147). -/
  | to
  /-- `1 job, ...` on the global backend (testing.rs:139-141). -/
  | oneJob
  /-- `n jobs, ...` on the global backend (testing.rs:142-144). -/
  | jobs (n : Nat)
  /-- `...` on the global backend (testing.rs:243-245). -/
  | plain
  deriving DecidableEq, Repr

/-- Which of the two `@internal` rules is reached: the one for the token `1`
(testing.rs:152-164), which asserts that the result is not empty, or the one for a
literal (testing.rs:165-184), which compares the length. A number that has been matched
as `$n:literal` is opaque to later rules (The Rust Reference, macros by example,
"Forwarding a matched fragment"), so `n jobs` and everything that goes through `@global`
(testing.rs:148-151) reaches the second rule. -/
def AssertForm.exactly : AssertForm → Option Nat
  | .oneJobTo => none
  | .to => none
  | .jobsTo n => some n
  | .oneJob => some 1
  | .jobs n => some n
  | .plain => some 1

/-- Does the assertion pass, on the in-memory backend? -/
def assertEnqueued (m : Mem) (form : AssertForm) (conds : List AssertCond) : Bool :=
  let jobs := m.query (.and (conds.map (·.query)))
  match form.exactly with
  | none => !jobs.isEmpty
  | some n => jobs.length == n

end Rexecutor
