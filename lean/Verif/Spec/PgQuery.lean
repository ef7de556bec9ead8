import Verif.Spec.Query
import Verif.Model.PgQuery

/-! Queries that need no parentheses. -/

namespace Rexecutor

/-- A comparison, possibly negated, possibly wrapped in an `and` or `or` of one
element. Times are whole microseconds and id lists have one element. -/
inductive Literal : Query → Prop where
  | executorEqual (e : String) : Literal (.executorEqual e)
  | dataEquals (d : Json) : Literal (.dataEquals d)
  | metadataEquals (m : Json) : Literal (.metadataEquals m)
  | idEquals (i : Int) : Literal (.idEquals i)
  | idIn (i : Int) : Literal (.idIn [i])
  | statusEqual (s : JobStatus) : Literal (.statusEqual s)
  | tagsAllOf (ts : List String) : Literal (.tagsAllOf ts)
  | tagsOneOf (ts : List String) : Literal (.tagsOneOf ts)
  | before (t : Time) (h : 1000 ∣ t) : Literal (.scheduledAtBefore t)
  | after (t : Time) (h : 1000 ∣ t) : Literal (.scheduledAtAfter t)
  | at' (t : Time) (h : 1000 ∣ t) : Literal (.scheduledAtEqual t)
  | not (q : Query) (h : Literal q) : Literal (.not q)
  | and (q : Query) (h : Literal q) : Literal (.and [q])
  | or (q : Query) (h : Literal q) : Literal (.or [q])

/-- Literals combined with `and`. -/
inductive Conjunctive : Query → Prop where
  | literal (q : Query) (h : Literal q) : Conjunctive q
  | and (q : Query) (qs : List Query) (h : ∀ x ∈ q :: qs, Conjunctive x) : Conjunctive (.and (q :: qs))
  | or (q : Query) (h : Conjunctive q) : Conjunctive (.or [q])

/-- Conjunctions combined with `or`. -/
inductive Disjunctive : Query → Prop where
  | conj (q : Query) (h : Conjunctive q) : Disjunctive q
  | or (q : Query) (qs : List Query) (h : ∀ x ∈ q :: qs, Disjunctive x) : Disjunctive (.or (q :: qs))
  | and (q : Query) (h : Disjunctive q) : Disjunctive (.and [q])

/-- The query contains an `and` or `or` of no queries at all. -/
inductive HasEmpty : Query → Prop where
  | and : HasEmpty (.and [])
  | or : HasEmpty (.or [])
  | inNot (q : Query) (h : HasEmpty q) : HasEmpty (.not q)
  | inAnd (qs : List Query) (q : Query) (m : q ∈ qs) (h : HasEmpty q) : HasEmpty (.and qs)
  | inOr (qs : List Query) (q : Query) (m : q ∈ qs) (h : HasEmpty q) : HasEmpty (.or qs)

/-- `a OR .. OR b` followed by `AND c OR .. OR d`: the last alternative on the left and the
first on the right are one conjunction. -/
def glue : List (List Query) → List (List Query) → List (List Query)
  | [], ds => ds
  | [c], d :: ds => (c ++ d) :: ds
  | [c], [] => [c]
  | c :: c' :: cs, ds => c :: glue (c' :: cs) ds

/-- `NOT` in front of a condition negates its first comparison only. -/
def negateFirst : List (List Query) → List (List Query)
  | (l :: c) :: ds => (.not l :: c) :: ds
  | ds => ds

mutual
/-- What is left of a query when it is written without parentheses: a list of alternatives,
each a list of possibly negated comparisons. -/
def Query.alternatives : Query → List (List Query)
  | .not q => negateFirst q.alternatives
  | .and qs => Query.glueAll qs
  | .or qs => Query.joinAll qs
  | q => [[q]]
/-- The same for the queries of an `and`. -/
def Query.glueAll : List Query → List (List Query)
  | [] => []
  | q :: qs => glue q.alternatives (Query.glueAll qs)
/-- The same for the queries of an `or`. -/
def Query.joinAll : List Query → List (List Query)
  | [] => []
  | q :: qs => q.alternatives ++ Query.joinAll qs
end

/-- A possibly negated comparison holds for a row as Postgres evaluates it: times are cut to
microseconds, and an id is compared with all of the ids. -/
def Query.HoldsRow (r : Row) : Query → Prop
  | .not q => ¬ q.HoldsRow r
  | .and _ | .or _ => False
  | .executorEqual e => r.executor = e
  | .dataEquals d => r.data = d
  | .metadataEquals m => r.metadata = m
  | .idEquals id => r.id = id
  | .idIn ids => ∀ id ∈ ids, r.id = id
  | .statusEqual s => r.status = s
  | .tagsAllOf tags => ∀ t ∈ tags, t ∈ r.tags
  | .tagsOneOf tags => ∃ t ∈ tags, t ∈ r.tags
  | .scheduledAtBefore t => r.scheduledAt < pgTime t
  | .scheduledAtAfter t => pgTime t < r.scheduledAt
  | .scheduledAtEqual t => r.scheduledAt = pgTime t

/-- Some alternative of the flattened query holds for the row. -/
def Query.Finds (q : Query) (r : Row) : Prop := ∃ c ∈ q.alternatives, ∀ l ∈ c, l.HoldsRow r

/-- The alternatives of a flattened query that the condition on the executor does not reach:
it is appended to an `and` and put in front of any other query (`Query.forExecutor`). -/
def Query.unguarded : Query → List (List Query)
  | .and qs => (Query.and qs).alternatives.dropLast
  | q => q.alternatives.tail

/-- A row as inserted for the executor `mail` (rexecutor-sqlx/src/lib.rs:159-183). -/
def sampleRow (id : Int) : Row where
  id := id
  status := .scheduled
  executor := "mail"
  data := .str "hello"
  errors := []
  attempt := 0
  maxAttempts := 2
  tags := ["a"]
  metadata := .null
  priority := 0
  uniquenessKey := none
  insertedAt := 0
  scheduledAt := 0
  attemptedAt := none
  completedAt := none
  cancelledAt := none
  discardedAt := none

end Rexecutor
