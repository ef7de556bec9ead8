import Verif.Model.PgSys

/-!
# Text that Postgres cannot store

A Rust string may contain the character U+0000. PostgreSQL has no such character in `TEXT`,
`VARCHAR` and `JSONB` values: a statement with such a parameter fails (errors 22021 and
22P05), which `map_err` (rexecutor-sqlx/src/lib.rs:44-54) turns into `BadState`. The other
files about Postgres assume strings without it; here are the statements with this check.
-/

namespace Rexecutor

/-- The string contains U+0000. -/
def nul (s : String) : Bool := s.toList.any fun c => c.val == 0

mutual
/-- Some string or field name in the JSON value contains U+0000. -/
def Json.hasNul : Json → Bool
  | .null | .bool _ | .num _ => false
  | .str s => nul s
  | .arr xs => Json.hasNulList xs
  | .obj fields => Json.hasNulFields fields
/-- Helper of `Json.hasNul` for arrays. -/
def Json.hasNulList : List Json → Bool
  | [] => false
  | x :: xs => x.hasNul || Json.hasNulList xs
/-- Helper of `Json.hasNul` for objects. -/
def Json.hasNulFields : List (String × Json) → Bool
  | [] => false
  | (k, x) :: xs => nul k || x.hasNul || Json.hasNulFields xs
end

/-- The parameters `$2` and `$3` of rexecutor-sqlx/src/lib.rs:311-312, 357-358, 382-383. -/
def ExecError.hasNul (e : ExecError) : Bool := nul e.errorType.toText || nul e.message

/-- The text parameters of `INSERT INTO rexecutor_jobs`, rexecutor-sqlx/src/lib.rs:172-178,
214-221. -/
def EnqueuableJob.hasNul (e : EnqueuableJob) : Bool :=
  nul e.executor || e.data.hasNul || e.metadata.hasNul || e.tags.any nul

mutual
/-- The text parameters of a query, rexecutor-sqlx/src/query.rs:90-158. -/
def Query.hasNul : Query → Bool
  | .not q => q.hasNul
  | .and qs | .or qs => Query.hasNulList qs
  | .executorEqual e => nul e
  | .dataEquals d => d.hasNul
  | .metadataEquals m => m.hasNul
  | .tagsAllOf tags | .tagsOneOf tags => tags.any nul
  | .idEquals _ | .idIn _ | .statusEqual _ | .scheduledAtBefore _ | .scheduledAtAfter _ | .scheduledAtEqual _ => false
/-- Helper of `Query.hasNul`. -/
def Query.hasNulList : List Query → Bool
  | [] => false
  | q :: qs => q.hasNul || Query.hasNulList qs
end

/-- The text parameters of a statement, rexecutor-sqlx/src/lib.rs:115-157, 274-461 and
query.rs:12-59. -/
def Op.hasNul : Op → Bool
  | .retryable _ _ e | .discarded _ e | .cancelled _ e => e.hasNul
  | .update j => j.data.hasNul || j.metadata.hasNul || j.tags.any nul
  | .prune spec => match spec.executors with
    | .except es | .only es => es.any nul
  | .query q => q.hasNul
  | .load x => nul x
  | .complete _ | .snoozed _ _ | .rerun _ | .subscribe _ | .notifyAll => false

/-- The database refuses the statement this action sends. -/
def PgConc.refusesText (c : PgConc) : PgAct → Bool
  | .plain e => e.hasNul
  | .stmt o => o.hasNul
  | .advance i =>
    match c.sessions[i]? with
    | some (.handout x) => nul x
    | some (.holding e uc _) => uc.executor && nul e.executor
    | some (.missing e _ _) => e.hasNul
    | some (.found e uc _ status) =>
      match uc.onConflict with
      | .replace rep => rep.forStatuses.contains status &&
          ((rep.data && e.data.hasNul) || (rep.metadata && e.metadata.hasNul))
      | .doNothing => false
    | _ => false
  | _ => false

/-- One action of runners on a database, as `PgSys.step`, with statements refused. A session
whose statement is refused stays where it is until its client gives up (`PgAct.abort`).
A runner whose report is refused logs that and does nothing else (runner.rs:163-268). -/
def PgSys.stepText (hash : HashFn) (defs : List Runner) (tie : Int → Nat) (now : Time)
    (s : PgSys) : PSAct → PSEv × PgSys
  | .db a => if s.conc.refusesText a then (.nothing, s) else s.step hash defs tie now (.db a)
  | .report r i =>
    match s.runners[r]? with
    | some rs =>
      match rs.flights[i]? with
      | some (some { task := t, phase := .reporting o }) =>
        if o.hasNul then
          (.lost r t, { s with runners := s.runners.set r { rs with flights := rs.flights.set i none } })
        else s.step hash defs tie now (.report r i)
      | _ => (.nothing, s)
    | none => (.nothing, s)
  | a => s.step hash defs tie now a

/-- The state after a schedule. -/
def PgSys.runText (hash : HashFn) (defs : List Runner) (s : PgSys) : List TPSAct → PgSys
  | [] => s
  | a :: as => PgSys.runText hash defs (s.stepText hash defs a.tie a.now a.act).2 as

/-- The events of a schedule. -/
def PgSys.traceText (hash : HashFn) (defs : List Runner) (s : PgSys) : List TPSAct → List TPSEv
  | [] => []
  | a :: as =>
    { now := a.now, ev := (s.stepText hash defs a.tie a.now a.act).1 } ::
      PgSys.traceText hash defs (s.stepText hash defs a.tie a.now a.act).2 as

end Rexecutor
