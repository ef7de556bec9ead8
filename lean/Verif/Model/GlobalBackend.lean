/-!
# The global backend (rexecutor/src/global_backend.rs)

Any number of threads set and use it concurrently.
-/

namespace Rexecutor

/-- `tokio::sync::OnceCell` as used in global_backend.rs:24: the published value, and
whether the permit that guards initialisation has been taken. Backends are named by
numbers. -/
structure OnceCell where
  value : Option Nat := none
  permitTaken : Bool := false
  deriving DecidableEq, Repr

/-- Where a call of `GlobalBackend::set` (global_backend.rs:33-39) is. -/
inductive SetCall where
  /-- Just called; `OnceCell::set` first checks whether the cell is initialised. -/
  | start (b : Nat)
  /-- It was not; about to try to take the permit. -/
  | checked (b : Nat)
  /-- Holds the permit; about to publish the value. -/
  | holding (b : Nat)
  /-- Returned: `true` for `Ok`, `false` for `RexecutorError::GlobalBackend`. -/
  | done (b : Nat) (ok : Bool)
  deriving DecidableEq, Repr

/-- The cell and the `set` calls made so far. -/
structure Global where
  cell : OnceCell := {}
  calls : List SetCall := []
  deriving DecidableEq, Repr

/-- An atomic action. -/
inductive GAct where
  /-- Some thread calls `set`. -/
  | set (b : Nat)
  /-- The `i`-th `set` call takes its next step. -/
  | advance (i : Nat)
  /-- Some thread calls `as_ref` (global_backend.rs:56-61). -/
  | use
  deriving Repr

/-- What an action did. -/
inductive GEv where
  /-- `set` was called. -/
  | called (b : Nat)
  /-- The `set` of this backend returned. -/
  | returned (b : Nat) (ok : Bool)
  /-- `as_ref` returned this backend, or the error `GlobalBackend` (`none`). -/
  | used (b : Option Nat)
  /-- Nothing visible. -/
  | silent
  deriving DecidableEq, Repr

/-- The next step of a `set` call: `OnceCell::set` of tokio checks for a value, then tries
to take the permit, then publishes the value. The error of the cell is mapped to
`RexecutorError::GlobalBackend` (global_backend.rs:34-37). -/
def OnceCell.advance (c : OnceCell) : SetCall → GEv × SetCall × OnceCell
  | .start b =>
    match c.value with
    | some _ => (.returned b false, .done b false, c)
    | none => (.silent, .checked b, c)
  | .checked b =>
    if c.permitTaken then (.returned b false, .done b false, c)
    else (.silent, .holding b, { c with permitTaken := true })
  | .holding b => (.returned b true, .done b true, { c with value := some b })
  | .done b ok => (.silent, .done b ok, c)

/-- One action. -/
def Global.step (g : Global) : GAct → GEv × Global
  | .set b => (.called b, { g with calls := g.calls ++ [.start b] })
  | .advance i =>
    match g.calls[i]? with
    | none => (.silent, g)
    | some p =>
      let (ev, p', c) := g.cell.advance p
      (ev, { cell := c, calls := g.calls.set i p' })
  | .use => (.used g.cell.value, g)

/-- The state after a schedule. -/
def Global.run (g : Global) : List GAct → Global
  | [] => g
  | a :: as => Global.run (g.step a).2 as

/-- The events of a schedule. -/
def Global.trace (g : Global) : List GAct → List GEv
  | [] => []
  | a :: as => (g.step a).1 :: Global.trace (g.step a).2 as

end Rexecutor
