import Verif.Model.PgTypes

/-!
# SQL conditions (rexecutor-sqlx/src/query.rs)

The condition of a query is a string without parentheses, so its meaning depends on
the precedence of the SQL operators. It is modelled as a list of tokens, where a
comparison such as ` tags @> $1::varchar[]` is one token: the operators in it bind
tighter than `NOT`, `AND` and `OR`.
-/

namespace Rexecutor

/-- One comparison, with the value bound to it (query.rs:113-163). -/
inductive Atom where
  | data (v : Json)
  | metadata (v : Json)
  | executor (v : String)
  | id (v : Int)
  | idAll (vs : List Int)
  | status (v : JobStatus)
  | tagsContain (vs : List String)
  | tagsOverlap (vs : List String)
  | before (t : Time)
  | after (t : Time)
  | at' (t : Time)
  deriving Repr

/-- A token of the `WHERE` condition. -/
inductive Tok where
  | not | and | or
  | atom (a : Atom)
  deriving Repr

mutual
/-- `handle_query`, rexecutor-sqlx/src/query.rs:89-165. -/
def Query.render : Query → List Tok
  | .not inner => .not :: inner.render
  | .and qs => Query.renderSep .and qs
  | .or qs => Query.renderSep .or qs
  | .executorEqual e => [.atom (.executor e)]
  | .dataEquals d => [.atom (.data d)]
  | .metadataEquals m => [.atom (.metadata m)]
  | .idEquals id => [.atom (.id id)]
  | .idIn ids => [.atom (.idAll ids)]
  | .statusEqual s => [.atom (.status s)]
  | .tagsAllOf tags => [.atom (.tagsContain tags)]
  | .tagsOneOf tags => [.atom (.tagsOverlap tags)]
  | .scheduledAtBefore t => [.atom (.before t)]
  | .scheduledAtAfter t => [.atom (.after t)]
  | .scheduledAtEqual t => [.atom (.at' t)]
/-- The loops of query.rs:95-112: the elements with the operator between them, and
nothing at all for an empty list. -/
def Query.renderSep (sep : Tok) : List Query → List Tok
  | [] => []
  | [q] => q.render
  | q :: q' :: qs => q.render ++ sep :: Query.renderSep sep (q' :: qs)
end

/-- The value of a comparison for a row. `id = All(ids)` holds when the id equals
every element (in particular for an empty array). `@>` and `&&` are containment and
overlap of arrays. Times are bound as `pgTime`. -/
def Atom.eval (r : Row) : Atom → Bool
  | .data v => r.data == v
  | .metadata v => r.metadata == v
  | .executor v => r.executor == v
  | .id v => r.id == v
  | .idAll vs => vs.all fun v => r.id == v
  | .status v => r.status == v
  | .tagsContain vs => vs.all fun v => r.tags.contains v
  | .tagsOverlap vs => vs.any fun v => r.tags.contains v
  | .before t => decide (r.scheduledAt < pgTime t)
  | .after t => decide (r.scheduledAt > pgTime t)
  | .at' t => r.scheduledAt == pgTime t

mutual
/-- Reading a condition where an operand is expected, when the comparisons have the
values `val`. `ors` is the disjunction of the finished conjunctions, `ands` the
conjunction of the operands of the current one, and `pos` says whether an even
number of `NOT`s was read. `none` is a syntax error. Assumption about Postgres:
`NOT` binds tighter than `AND`, and `AND` tighter than `OR`. -/
def sqlOperand (val : Atom → Bool) (ors ands pos : Bool) : List Tok → Option Bool
  | .not :: ts => sqlOperand val ors ands (!pos) ts
  | .atom a :: ts => sqlOperator val ors (ands && (val a == pos)) ts
  | _ => none
/-- Reading a condition where an operator, or its end, is expected. -/
def sqlOperator (val : Atom → Bool) (ors ands : Bool) : List Tok → Option Bool
  | [] => some (ors || ands)
  | .and :: ts => sqlOperand val ors ands true ts
  | .or :: ts => sqlOperand val (ors || ands) true true ts
  | _ => none
end

/-- The value of a `WHERE` condition. -/
def sqlEval (val : Atom → Bool) (ts : List Tok) : Option Bool := sqlOperand val false true true ts

/-- Sort by `inserted_at` descending (query.rs:84). Rows inserted at the same time
come in any order the database likes, given by `tie`. -/
def newestFirst (tie : Int → Nat) (a b : Row) : Bool :=
  decide (b.insertedAt < a.insertedAt) || (a.insertedAt == b.insertedAt && decide (tie a.id ≤ tie b.id))

/-- The conversion of every row of a result (backend.rs:112-119). -/
def decodeRows : List Row → Option (List Job)
  | [] => some []
  | r :: rs =>
    match r.decode, decodeRows rs with
    | some j, some js => some (j :: js)
    | _, _ => none

/-- `query`, rexecutor-sqlx/src/backend.rs:112-119, with `run_query`,
rexecutor-sqlx/src/lib.rs:463-469, and `ToQuery for Query`, query.rs:61-87. A syntax
error is an `sqlx::Error::Database`, hence `BadState` (lib.rs:45-55). -/
def pgQuery (tie : Int → Nat) (rows : List Row) (q : Query) : Res :=
  match sqlEval (fun _ => false) q.render with
  | none => .err .badState
  | some _ =>
    match decodeRows (sortBy (newestFirst tie)
        (rows.filter fun r => sqlEval (Atom.eval r) q.render == some true)) with
    | none => .err .encodeDecode
    | some js => .jobs js

/-- `Executor::query_jobs_on_backend` on Postgres, rexecutor/src/executor.rs:468-483. -/
def pgQueryJobs (cd : Codec D) (cm : Codec M) (tie : Int → Nat) (executor : String) (q : TQuery D M)
    (rows : List Row) : Outcome (List (TJob D M)) :=
  match q.toQuery cd cm with
  | none => .err
  | some bq =>
    match pgQuery tie rows (bq.forExecutor executor) with
    | .jobs js => decodeAll cd cm js
    | _ => .err

end Rexecutor
