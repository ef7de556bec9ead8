import Verif.Spec.PgQuery
import Verif.Lemmas.Pg
import Verif.Props.Query

/-! # C43, C44, C58: queries on Postgres -/

namespace Rexecutor

/-! ## The effect of a rendered query on the reader of the condition -/

mutual
private def fx (val : Atom → Bool) : Query → Bool → Bool → Bool → Bool × Bool
  | .not q, o, a, p => fx val q o a (!p)
  | .and qs, o, a, p => fxAnd val qs o a p
  | .or qs, o, a, p => fxOr val qs o a p
  | .executorEqual e, o, a, p => (o, a && (val (.executor e) == p))
  | .dataEquals d, o, a, p => (o, a && (val (.data d) == p))
  | .metadataEquals m, o, a, p => (o, a && (val (.metadata m) == p))
  | .idEquals i, o, a, p => (o, a && (val (.id i) == p))
  | .idIn is, o, a, p => (o, a && (val (.idAll is) == p))
  | .statusEqual s, o, a, p => (o, a && (val (.status s) == p))
  | .tagsAllOf ts, o, a, p => (o, a && (val (.tagsContain ts) == p))
  | .tagsOneOf ts, o, a, p => (o, a && (val (.tagsOverlap ts) == p))
  | .scheduledAtBefore t, o, a, p => (o, a && (val (.before t) == p))
  | .scheduledAtAfter t, o, a, p => (o, a && (val (.after t) == p))
  | .scheduledAtEqual t, o, a, p => (o, a && (val (.at' t) == p))
private def fxAnd (val : Atom → Bool) : List Query → Bool → Bool → Bool → Bool × Bool
  | [], o, a, _ => (o, a)
  | [q], o, a, p => fx val q o a p
  | q :: q' :: qs, o, a, p =>
    let x := fx val q o a p
    fxAnd val (q' :: qs) x.1 x.2 true
private def fxOr (val : Atom → Bool) : List Query → Bool → Bool → Bool → Bool × Bool
  | [], o, a, _ => (o, a)
  | [q], o, a, p => fx val q o a p
  | q :: q' :: qs, o, a, p =>
    let x := fx val q o a p
    fxOr val (q' :: qs) (x.1 || x.2) true true
end

/-- What follows a rendered query: the end, or an operator. -/
private def Next (ts : List Tok) : Prop := ts = [] ∨ (∃ r, ts = .and :: r) ∨ ∃ r, ts = .or :: r

mutual
private theorem read_ok (val : Atom → Bool) : (q : Query) → ¬ HasEmpty q → ∀ o a p rest,
    sqlOperand val o a p (q.render ++ rest) =
      sqlOperator val (fx val q o a p).1 (fx val q o a p).2 rest
  | .not q, h, o, a, p, rest => by
    simp only [Query.render, List.cons_append, sqlOperand, fx]
    exact read_ok val q (fun e => h (.inNot q e)) o a (!p) rest
  | .and qs, h, o, a, p, rest => by
    simp only [Query.render, fx]
    exact read_and val qs (fun e => h (e ▸ .and)) (fun q m e => h (.inAnd qs q m e)) o a p rest
  | .or qs, h, o, a, p, rest => by
    simp only [Query.render, fx]
    exact read_or val qs (fun e => h (e ▸ .or)) (fun q m e => h (.inOr qs q m e)) o a p rest
  | .executorEqual _, _, _, _, _, _ => by simp [Query.render, sqlOperand, fx]
  | .dataEquals _, _, _, _, _, _ => by simp [Query.render, sqlOperand, fx]
  | .metadataEquals _, _, _, _, _, _ => by simp [Query.render, sqlOperand, fx]
  | .idEquals _, _, _, _, _, _ => by simp [Query.render, sqlOperand, fx]
  | .idIn _, _, _, _, _, _ => by simp [Query.render, sqlOperand, fx]
  | .statusEqual _, _, _, _, _, _ => by simp [Query.render, sqlOperand, fx]
  | .tagsAllOf _, _, _, _, _, _ => by simp [Query.render, sqlOperand, fx]
  | .tagsOneOf _, _, _, _, _, _ => by simp [Query.render, sqlOperand, fx]
  | .scheduledAtBefore _, _, _, _, _, _ => by simp [Query.render, sqlOperand, fx]
  | .scheduledAtAfter _, _, _, _, _, _ => by simp [Query.render, sqlOperand, fx]
  | .scheduledAtEqual _, _, _, _, _, _ => by simp [Query.render, sqlOperand, fx]
private theorem read_and (val : Atom → Bool) : (qs : List Query) → qs ≠ [] → (∀ q ∈ qs, ¬ HasEmpty q) →
    ∀ o a p rest, sqlOperand val o a p (Query.renderSep .and qs ++ rest) =
      sqlOperator val (fxAnd val qs o a p).1 (fxAnd val qs o a p).2 rest
  | [], h, _, _, _, _, _ => (h rfl).elim
  | [q], _, h, o, a, p, rest => by
    simp only [Query.renderSep, fxAnd]
    exact read_ok val q (h q (by simp)) o a p rest
  | q :: q' :: qs, _, h, o, a, p, rest => by
    simp only [Query.renderSep, fxAnd, List.append_assoc, List.cons_append]
    rw [read_ok val q (h q (by simp))]
    simp only [sqlOperator]
    exact read_and val (q' :: qs) (by simp) (fun x m => h x (List.mem_cons_of_mem _ m)) _ _ _ rest
private theorem read_or (val : Atom → Bool) : (qs : List Query) → qs ≠ [] → (∀ q ∈ qs, ¬ HasEmpty q) →
    ∀ o a p rest, sqlOperand val o a p (Query.renderSep .or qs ++ rest) =
      sqlOperator val (fxOr val qs o a p).1 (fxOr val qs o a p).2 rest
  | [], h, _, _, _, _, _ => (h rfl).elim
  | [q], _, h, o, a, p, rest => by
    simp only [Query.renderSep, fxOr]
    exact read_ok val q (h q (by simp)) o a p rest
  | q :: q' :: qs, _, h, o, a, p, rest => by
    simp only [Query.renderSep, fxOr, List.append_assoc, List.cons_append]
    rw [read_ok val q (h q (by simp))]
    simp only [sqlOperator]
    exact read_or val (q' :: qs) (by simp) (fun x m => h x (List.mem_cons_of_mem _ m)) _ _ _ rest
end

private theorem sqlEval_ok (val : Atom → Bool) (q : Query) (h : ¬ HasEmpty q) :
    sqlEval val q.render = some ((fx val q false true true).1 || (fx val q false true true).2) := by
  have := read_ok val q h false true true []
  simpa [sqlEval, sqlOperator] using this

private theorem operand_next (val : Atom → Bool) (o a p : Bool) {ts : List Tok} (h : Next ts) :
    sqlOperand val o a p ts = none := by
  rcases h with rfl | ⟨r, rfl⟩ | ⟨r, rfl⟩ <;> simp [sqlOperand]

mutual
private theorem read_bad (val : Atom → Bool) : (q : Query) → HasEmpty q → ∀ o a p rest, Next rest →
    sqlOperand val o a p (q.render ++ rest) = none
  | .not q, h, o, a, p, rest, hr => by
    have : HasEmpty q := by cases h; assumption
    simp only [Query.render, List.cons_append, sqlOperand]
    exact read_bad val q this o a (!p) rest hr
  | .and qs, h, o, a, p, rest, hr => by
    simp only [Query.render]
    refine read_bad_sep val .and (.inr (.inl rfl)) qs ?_ o a p rest hr
    cases h with
    | and => exact .inl rfl
    | inAnd _ q m h => exact .inr ⟨q, m, h⟩
  | .or qs, h, o, a, p, rest, hr => by
    simp only [Query.render]
    refine read_bad_sep val .or (.inr (.inr rfl)) qs ?_ o a p rest hr
    cases h with
    | or => exact .inl rfl
    | inOr _ q m h => exact .inr ⟨q, m, h⟩
  | .executorEqual _, h, _, _, _, _, _ => by cases h
  | .dataEquals _, h, _, _, _, _, _ => by cases h
  | .metadataEquals _, h, _, _, _, _, _ => by cases h
  | .idEquals _, h, _, _, _, _, _ => by cases h
  | .idIn _, h, _, _, _, _, _ => by cases h
  | .statusEqual _, h, _, _, _, _, _ => by cases h
  | .tagsAllOf _, h, _, _, _, _, _ => by cases h
  | .tagsOneOf _, h, _, _, _, _, _ => by cases h
  | .scheduledAtBefore _, h, _, _, _, _, _ => by cases h
  | .scheduledAtAfter _, h, _, _, _, _, _ => by cases h
  | .scheduledAtEqual _, h, _, _, _, _, _ => by cases h
private theorem read_bad_sep (val : Atom → Bool) (sep : Tok) (hs : False ∨ sep = .and ∨ sep = .or) :
    (qs : List Query) → (qs = [] ∨ ∃ q ∈ qs, HasEmpty q) → ∀ o a p rest, Next rest →
    sqlOperand val o a p (Query.renderSep sep qs ++ rest) = none
  | [], _, o, a, p, rest, hr => by
    simp only [Query.renderSep, List.nil_append]
    exact operand_next val o a p hr
  | [q], h, o, a, p, rest, hr => by
    simp only [Query.renderSep]
    refine read_bad val q ?_ o a p rest hr
    simpa using h
  | q :: q' :: qs, h, o, a, p, rest, hr => by
    simp only [Query.renderSep, List.append_assoc, List.cons_append]
    by_cases hq : HasEmpty q
    · refine read_bad val q hq o a p _ ?_
      rcases hs with h | rfl | rfl
      · exact h.elim
      · exact .inr (.inl ⟨_, rfl⟩)
      · exact .inr (.inr ⟨_, rfl⟩)
    · rw [read_ok val q hq]
      have h' : ∃ x ∈ q' :: qs, HasEmpty x := by
        rcases h with h | ⟨x, m, hx⟩
        · simp at h
        · rcases List.mem_cons.mp m with rfl | m
          · exact (hq hx).elim
          · exact ⟨x, m, hx⟩
      rcases hs with h | rfl | rfl
      · exact h.elim
      · simp only [sqlOperator]
        exact read_bad_sep val .and (.inr (.inl rfl)) (q' :: qs) (.inr h') _ _ _ rest hr
      · simp only [sqlOperator]
        exact read_bad_sep val .or (.inr (.inr rfl)) (q' :: qs) (.inr h') _ _ _ rest hr
end

private theorem sqlEval_bad (val : Atom → Bool) (q : Query) (h : HasEmpty q) :
    sqlEval val q.render = none := by
  have := read_bad val q h false true true [] (.inl rfl)
  simpa [sqlEval] using this

/-! ## Which conditions are accepted -/

/-- **C43, syntax.** The database rejects a query exactly when an `and` or `or` of no
queries occurs somewhere in it. -/
theorem C43_accepted (tie : Int → Nat) (rows : List Row) (q : Query) :
    pgQuery tie rows q = .err .badState ↔ HasEmpty q := by
  constructor
  · intro h
    by_cases hq : HasEmpty q
    · exact hq
    · unfold pgQuery at h
      rw [sqlEval_ok _ q hq] at h
      simp only at h
      split at h <;> simp at h
  · intro h
    unfold pgQuery
    rw [sqlEval_bad _ q h]

example : HasEmpty (.and [.statusEqual .scheduled, .not (.or [])]) :=
  .inAnd _ (.not (.or [])) (by simp) (.inNot _ .or)

/-! ## Queries without need for parentheses -/

private theorem decode_fields {r : Row} {j : Job} (h : r.decode = some j) :
    j.id = r.id ∧ j.status = r.status ∧ j.executor = r.executor ∧ j.data = r.data ∧
    j.metadata = r.metadata ∧ j.tags = r.tags ∧ j.scheduledAt = r.scheduledAt ∧ j.insertedAt = r.insertedAt := by
  unfold Row.decode at h
  split at h
  · simp at h
  · simp only [Option.some.injEq] at h
    subst h
    simp

private theorem literal_fx {r : Row} {j : Job} (hd : r.decode = some j) {q : Query} (h : Literal q) :
    ∀ o a p, fx (Atom.eval r) q o a p = (o, a && (q.matches j == p)) := by
  obtain ⟨h1, h2, h3, h4, h5, h6, h7, _⟩ := decode_fields hd
  induction h with
  | executorEqual e => intro o a p; simp [fx, Atom.eval, Query.matches, h3]
  | dataEquals e => intro o a p; simp [fx, Atom.eval, Query.matches, h4]
  | metadataEquals e => intro o a p; simp [fx, Atom.eval, Query.matches, h5]
  | idEquals e => intro o a p; simp [fx, Atom.eval, Query.matches, h1]
  | idIn e =>
    intro o a p
    have : ([e].contains r.id) = (r.id == e) := by
      rw [Bool.eq_iff_iff]; simp
    simp only [fx, Atom.eval, Query.matches, h1, this, List.all_cons, List.all_nil, Bool.and_true]
  | statusEqual e => intro o a p; simp [fx, Atom.eval, Query.matches, h2]
  | tagsAllOf e =>
    intro o a p
    have : (fun tag => r.tags.any fun t => t == tag) = fun v => r.tags.contains v := by
      funext v; rw [Bool.eq_iff_iff]; simp [List.any_eq_true]
    simp only [fx, Atom.eval, Query.matches, h6, this]
  | tagsOneOf e =>
    intro o a p
    have : (fun tag => r.tags.any fun t => t == tag) = fun v => r.tags.contains v := by
      funext v; rw [Bool.eq_iff_iff]; simp [List.any_eq_true]
    simp only [fx, Atom.eval, Query.matches, h6, this]
  | before t ht => intro o a p; simp [fx, Atom.eval, Query.matches, h7, pgTime_whole ht]
  | after t ht => intro o a p; simp [fx, Atom.eval, Query.matches, h7, pgTime_whole ht]
  | at' t ht => intro o a p; simp [fx, Atom.eval, Query.matches, h7, pgTime_whole ht]
  | not q h ih =>
    intro o a p
    simp only [fx, ih, Query.matches]
    cases q.matches j <;> cases p <;> rfl
  | and q h ih => intro o a p; simp [fx, fxAnd, ih, Query.matches, Query.matchesAll]
  | or q h ih => intro o a p; simp [fx, fxOr, ih, Query.matches, Query.matchesAny]

private theorem conj_fx {r : Row} {j : Job} (hd : r.decode = some j) {q : Query} (h : Conjunctive q) :
    ∀ o a, fx (Atom.eval r) q o a true = (o, a && q.matches j) := by
  induction h with
  | literal q h => intro o a; simp [literal_fx hd h]
  | and q qs h ih =>
    suffices H : ∀ (qs : List Query) (q : Query),
        (∀ x ∈ q :: qs, ∀ o a, fx (Atom.eval r) x o a true = (o, a && x.matches j)) →
        ∀ o a, fxAnd (Atom.eval r) (q :: qs) o a true = (o, a && Query.matchesAll (q :: qs) j) by
      intro o a; simpa [fx, Query.matches] using H qs q ih o a
    intro qs
    induction qs with
    | nil => intro q hx o a; simp [fxAnd, hx q (by simp), Query.matchesAll]
    | cons q' qs ih' =>
      intro q hx o a
      simp only [fxAnd, hx q (by simp)]
      rw [ih' q' (fun x m => hx x (List.mem_cons_of_mem _ m))]
      simp [Query.matchesAll, Bool.and_assoc]
  | or q h ih => intro o a; simp [fx, fxOr, ih, Query.matches, Query.matchesAny]

private theorem disj_fx {r : Row} {j : Job} (hd : r.decode = some j) {q : Query} (h : Disjunctive q) :
    ∀ o, ((fx (Atom.eval r) q o true true).1 || (fx (Atom.eval r) q o true true).2) = (o || q.matches j) := by
  induction h with
  | conj q h => intro o; simp [conj_fx hd h]
  | or q qs h ih =>
    suffices H : ∀ (qs : List Query) (q : Query),
        (∀ x ∈ q :: qs, ∀ o, ((fx (Atom.eval r) x o true true).1 || (fx (Atom.eval r) x o true true).2) =
          (o || x.matches j)) →
        ∀ o, ((fxOr (Atom.eval r) (q :: qs) o true true).1 || (fxOr (Atom.eval r) (q :: qs) o true true).2) =
          (o || Query.matchesAny (q :: qs) j) by
      intro o; simpa [fx, Query.matches] using H qs q ih o
    intro qs
    induction qs with
    | nil => intro q hx o; simp [fxOr, hx q (by simp), Query.matchesAny]
    | cons q' qs ih' =>
      intro q hx o
      simp only [fxOr, hx q (by simp)]
      rw [ih' q' (fun x m => hx x (List.mem_cons_of_mem _ m))]
      simp [Query.matchesAny, Bool.or_assoc]
  | and q h ih => intro o; simp [fx, fxAnd, ih, Query.matches, Query.matchesAll]

private theorem literal_full {q : Query} (h : Literal q) : ¬ HasEmpty q := by
  induction h with
  | not q h ih => intro e; cases e with | inNot _ e => exact ih e
  | and q h ih =>
    intro e
    cases e with | inAnd _ x m e => rw [List.mem_singleton.mp m] at e; exact ih e
  | or q h ih =>
    intro e
    cases e with | inOr _ x m e => rw [List.mem_singleton.mp m] at e; exact ih e
  | _ => intro e; cases e

private theorem conj_full {q : Query} (h : Conjunctive q) : ¬ HasEmpty q := by
  induction h with
  | literal q h => exact literal_full h
  | and q qs h ih => intro e; cases e with | inAnd _ x m e => exact ih x m e
  | or q h ih =>
    intro e
    cases e with | inOr _ x m e => rw [List.mem_singleton.mp m] at e; exact ih e

private theorem disj_full {q : Query} (h : Disjunctive q) : ¬ HasEmpty q := by
  induction h with
  | conj q h => exact conj_full h
  | or q qs h ih => intro e; cases e with | inOr _ x m e => exact ih x m e
  | and q h ih =>
    intro e
    cases e with | inAnd _ x m e => rw [List.mem_singleton.mp m] at e; exact ih e

private theorem decodeRows_mem {rows : List Row} {jobs : List Job} (h : decodeRows rows = some jobs) :
    ∀ r ∈ rows, ∃ j, r.decode = some j := by
  induction rows generalizing jobs with
  | nil => intro r m; cases m
  | cons r rs ih =>
    intro x m
    simp only [decodeRows] at h
    split at h
    · rename_i j js hj hjs
      rcases List.mem_cons.mp m with rfl | m
      · exact ⟨j, hj⟩
      · exact ih hjs x m
    · simp at h

private theorem decodeRows_eq {rows : List Row} (h : ∀ r ∈ rows, ∃ j, r.decode = some j) :
    decodeRows rows = some (rows.filterMap Row.decode) := by
  induction rows with
  | nil => rfl
  | cons r rs ih =>
    obtain ⟨j, hj⟩ := h r (by simp)
    simp [decodeRows, hj, ih (fun x m => h x (List.mem_cons_of_mem _ m))]

private theorem newest_total (tie : Int → Nat) (a b : Row) :
    newestFirst tie a b = true ∨ newestFirst tie b a = true := by
  simp only [newestFirst, Bool.or_eq_true, decide_eq_true_eq, Bool.and_eq_true, beq_iff_eq]
  simp only [Time]
  omega

private theorem newest_trans (tie : Int → Nat) (a b c : Row) (h1 : newestFirst tie a b = true)
    (h2 : newestFirst tie b c = true) : newestFirst tie a c = true := by
  simp only [newestFirst, Bool.or_eq_true, decide_eq_true_eq, Bool.and_eq_true, beq_iff_eq] at *
  simp only [Time] at *
  omega

open scoped Classical in
/-- **C43, partial** (missing: every other query, see `C43_violated`). For every
table whose rows can be read and every query of any size that is a disjunction of
conjunctions of possibly negated comparisons, with whole-microsecond times and no id
list of several elements: the result consists of exactly the jobs in the table that
satisfy the query, each as often as it is in the table, latest inserted first. -/
theorem C43_disjunctive_partial (tie : Int → Nat) (rows : List Row) (jobs : List Job) (q : Query)
    (hr : decodeRows rows = some jobs) (hq : Disjunctive q) :
    ∃ js, pgQuery tie rows q = .jobs js ∧
      js.Perm (jobs.filter fun j => decide (q.Holds j)) ∧
      js.Pairwise fun a b => b.insertedAt ≤ a.insertedAt := by
  have hdec := decodeRows_mem hr
  have hjobs : jobs = rows.filterMap Row.decode := by
    rw [decodeRows_eq hdec] at hr
    exact (Option.some.inj hr).symm
  have hperm := sortBy_perm (newestFirst tie) (rows.filter fun r => sqlEval (Atom.eval r) q.render == some true)
  have hsort := sortBy_sorted (newest_total tie) (newest_trans tie)
    (rows.filter fun r => sqlEval (Atom.eval r) q.render == some true)
  generalize hS : sortBy (newestFirst tie)
    (rows.filter fun r => sqlEval (Atom.eval r) q.render == some true) = S at hperm hsort
  have hSd : ∀ r ∈ S, ∃ j, r.decode = some j := by
    intro r m
    have := hperm.mem_iff.mp m
    exact hdec r (List.mem_filter.mp this).1
  refine ⟨S.filterMap Row.decode, ?_, ?_, ?_⟩
  · unfold pgQuery
    rw [sqlEval_ok _ q (disj_full hq), hS, decodeRows_eq hSd]
  · refine (hperm.filterMap _).trans ?_
    rw [hjobs]
    clear hS hSd hperm hsort hr hjobs
    induction rows with
    | nil => simp
    | cons r rs ih =>
      obtain ⟨j, hj⟩ := hdec r (by simp)
      have ih := ih (fun x m => hdec x (List.mem_cons_of_mem _ m))
      have hv : sqlEval (Atom.eval r) q.render = some (q.matches j) := by
        rw [sqlEval_ok _ q (disj_full hq), disj_fx hj hq]; simp
      by_cases hm : q.matches j = true
      · have hh := (query_matches_iff q j).mp hm
        simp [hv, hm, hj, hh]
        simpa using ih
      · have hh : ¬ q.Holds j := fun h => hm ((query_matches_iff q j).mpr h)
        simp [hv, hm, hj, hh]
        simpa using ih
  · clear hS hperm
    induction S with
    | nil => simp
    | cons r rs ih =>
      rw [List.pairwise_cons] at hsort
      obtain ⟨j, hj⟩ := hSd r (by simp)
      have ih := ih hsort.2 (fun x m => hSd x (List.mem_cons_of_mem _ m))
      simp only [List.filterMap_cons, hj, List.pairwise_cons]
      refine ⟨?_, ih⟩
      intro y my
      obtain ⟨x, mx, hx⟩ := List.mem_filterMap.mp my
      have := hsort.1 x mx
      have e1 := (decode_fields hj).2.2.2.2.2.2.2
      have e2 := (decode_fields hx).2.2.2.2.2.2.2
      simp only [newestFirst, Bool.or_eq_true, decide_eq_true_eq, Bool.and_eq_true, beq_iff_eq] at this
      rw [e1, e2]
      simp only [Time] at *
      omega

example : Disjunctive (.or [.and [.executorEqual "mail", .not (.statusEqual .complete)],
    .and [.tagsAllOf ["a"], .scheduledAtBefore 5000]]) := by
  refine .or _ _ ?_
  intro x m
  simp only [List.mem_cons, List.not_mem_nil, or_false] at m
  rcases m with rfl | rfl
  · refine .conj _ (.and _ _ ?_)
    intro x m
    simp only [List.mem_cons, List.not_mem_nil, or_false] at m
    rcases m with rfl | rfl
    · exact .literal _ (.executorEqual _)
    · exact .literal _ (.not _ (.statusEqual _))
  · refine .conj _ (.and _ _ ?_)
    intro x m
    simp only [List.mem_cons, List.not_mem_nil, or_false] at m
    rcases m with rfl | rfl
    · exact .literal _ (.tagsAllOf _)
    · exact .literal _ (.before _ (by decide))

example : pgQuery (fun i => i.toNat)
    [sampleRow 1, { sampleRow 2 with status := .complete, insertedAt := 5 }, { sampleRow 3 with tags := [], insertedAt := 7 }]
    (.or [.statusEqual .complete, .not (.tagsAllOf ["a"])]) =
    .jobs (([{ sampleRow 3 with tags := [], insertedAt := 7 },
      { sampleRow 2 with status := .complete, insertedAt := 5 }] : List Row).filterMap Row.decode) := by decide

/-! ## Queries that need parentheses -/

/-- **C43 fails**: the condition is written without parentheses. A conjunction with
a disjunction inside finds a job that does not satisfy it; a negated conjunction
misses one that does (`NOT a AND b` is `(NOT a) AND b`); and times between two
microseconds are cut. -/
theorem C43_violated :
    (∃ rows q, ∃ j ∈ rows.filterMap Row.decode, ∃ js, pgQuery (fun _ => 0) rows q = .jobs js ∧
      j ∈ js ∧ ¬ q.Holds j) ∧
    (∃ rows q, ∃ j ∈ rows.filterMap Row.decode, ∃ js, pgQuery (fun _ => 0) rows q = .jobs js ∧
      j ∉ js ∧ q.Holds j) ∧
    (∃ rows t, ∃ j ∈ rows.filterMap Row.decode, ∃ js,
      pgQuery (fun _ => 0) rows (.scheduledAtBefore t) = .jobs js ∧ j ∉ js ∧ j.scheduledAt < t) := by
  refine ⟨⟨[{ sampleRow 1 with executor := "other" }],
      .and [.or [.statusEqual .scheduled, .statusEqual .retryable], .executorEqual "mail"], ?_⟩,
    ⟨[{ sampleRow 1 with status := .complete }],
      .not (.and [.statusEqual .complete, .executorEqual "other"]), ?_⟩,
    ⟨[{ sampleRow 1 with scheduledAt := epoch2000 }], epoch2000 + 700, ?_⟩⟩
  · refine ⟨{ sampleJob 1 with executor := "other" }, by decide,
      [{ sampleJob 1 with executor := "other" }], by decide, by decide, ?_⟩
    rw [← query_matches_iff]; decide
  · refine ⟨{ sampleJob 1 with status := .complete }, by decide, [], by decide, by decide, ?_⟩
    rw [← query_matches_iff]; decide
  · refine ⟨{ sampleJob 1 with scheduledAt := epoch2000 }, by decide, [], by decide, by decide, by decide⟩

/-! ## What a query finds, whatever it is -/

private def Full (D : List (List Query)) : Prop := ∃ l c ds, D = (l :: c) :: ds

private theorem full_glue {A B : List (List Query)} (h : Full A) : Full (glue A B) := by
  obtain ⟨l, c, ds, rfl⟩ := h
  cases ds with
  | nil => cases B with
    | nil => exact ⟨l, c, [], rfl⟩
    | cons b bs => exact ⟨l, c ++ b, bs, rfl⟩
  | cons d ds => exact ⟨l, c, glue (d :: ds) B, rfl⟩

mutual
private theorem full_alternatives : (q : Query) → ¬ HasEmpty q → Full q.alternatives
  | .not q, h => by
    obtain ⟨l, c, ds, e⟩ := full_alternatives q (fun e => h (.inNot q e))
    exact ⟨.not l, c, ds, by simp [Query.alternatives, e, negateFirst]⟩
  | .and [], h => absurd .and h
  | .and (q :: qs), h => by
    simp only [Query.alternatives, Query.glueAll]
    exact full_glue (full_alternatives q (fun e => h (.inAnd _ q (by simp) e)))
  | .or [], h => absurd .or h
  | .or (q :: qs), h => by
    obtain ⟨l, c, ds, e⟩ := full_alternatives q (fun e => h (.inOr _ q (by simp) e))
    exact ⟨l, c, ds ++ Query.joinAll qs, by simp [Query.alternatives, Query.joinAll, e]⟩
  | .executorEqual _, _ => ⟨_, _, _, rfl⟩
  | .dataEquals _, _ => ⟨_, _, _, rfl⟩
  | .metadataEquals _, _ => ⟨_, _, _, rfl⟩
  | .idEquals _, _ => ⟨_, _, _, rfl⟩
  | .idIn _, _ => ⟨_, _, _, rfl⟩
  | .statusEqual _, _ => ⟨_, _, _, rfl⟩
  | .tagsAllOf _, _ => ⟨_, _, _, rfl⟩
  | .tagsOneOf _, _ => ⟨_, _, _, rfl⟩
  | .scheduledAtBefore _, _ => ⟨_, _, _, rfl⟩
  | .scheduledAtAfter _, _ => ⟨_, _, _, rfl⟩
  | .scheduledAtEqual _, _ => ⟨_, _, _, rfl⟩
end

open scoped Classical in
private noncomputable def all' (r : Row) (c : List Query) : Bool := decide (∀ l ∈ c, l.HoldsRow r)

/-- Reading alternatives one after the other. -/
private noncomputable def eat (r : Row) : List (List Query) → Bool → Bool → Bool × Bool
  | [], o, a => (o, a)
  | [d], o, a => (o, a && all' r d)
  | d :: d' :: ds, o, a => eat r (d' :: ds) (o || (a && all' r d)) true

private theorem all'_append (r : Row) (c d : List Query) : all' r (c ++ d) = (all' r c && all' r d) := by
  classical
  rw [Bool.eq_iff_iff]
  simp only [all', Bool.and_eq_true, decide_eq_true_eq, List.mem_append]
  exact ⟨fun h => ⟨fun l m => h l (.inl m), fun l m => h l (.inr m)⟩, fun h l m => m.elim (h.1 l) (h.2 l)⟩

private theorem eat_glue (r : Row) : ∀ (A : List (List Query)), A ≠ [] → ∀ (B : List (List Query)), B ≠ [] → ∀ o a,
    eat r (glue A B) o a = eat r B (eat r A o a).1 (eat r A o a).2
  | [], h, _, _, _, _ => absurd rfl h
  | [_], _, [], h, _, _ => absurd rfl h
  | [c], _, [d], _, o, a => by simp [glue, eat, all'_append, Bool.and_assoc]
  | [c], _, d :: d' :: ds, _, o, a => by simp [glue, eat, all'_append, Bool.and_assoc]
  | c :: c' :: cs, _, B, hB, o, a => by
    have ih := eat_glue r (c' :: cs) (by simp) B hB
    have hne : ∃ x xs, glue (c' :: cs) B = x :: xs := by
      cases cs with
      | nil => cases B with
        | nil => exact absurd rfl hB
        | cons b bs => exact ⟨_, _, rfl⟩
      | cons _ _ => exact ⟨_, _, rfl⟩
    obtain ⟨x, xs, hx⟩ := hne
    simp only [glue, hx, eat]
    rw [← hx, ih]

private theorem eat_append (r : Row) : ∀ (A : List (List Query)), A ≠ [] → ∀ (B : List (List Query)), B ≠ [] → ∀ o a,
    eat r (A ++ B) o a = eat r B ((eat r A o a).1 || (eat r A o a).2) true
  | [], h, _, _, _, _ => absurd rfl h
  | [_], _, [], h, _, _ => absurd rfl h
  | [c], _, d :: ds, _, o, a => by simp [eat]
  | c :: c' :: cs, _, B, hB, o, a => by
    have ih := eat_append r (c' :: cs) (by simp) B hB
    simp only [List.cons_append, eat] at ih ⊢
    exact ih _ _

private theorem eat_value (r : Row) : ∀ (D : List (List Query)), D ≠ [] → ∀ o a,
    ((eat r D o a).1 || (eat r D o a).2) = true ↔
      o = true ∨ (a = true ∧ ∃ d, D.head? = some d ∧ all' r d = true) ∨ ∃ c ∈ D.tail, all' r c = true
  | [], h, _, _ => absurd rfl h
  | [d], _, o, a => by simp [eat]
  | d :: d' :: ds, _, o, a => by
    have ih := eat_value r (d' :: ds) (by simp) (o || (a && all' r d)) true
    simp only [eat, ih]
    simp [or_assoc]

/-- Does the first comparison count positively? -/
private def signed (p : Bool) (D : List (List Query)) : List (List Query) := if p then D else negateFirst D

private theorem signed_ne {p : Bool} {D : List (List Query)} (h : Full D) : signed p D ≠ [] := by
  obtain ⟨l, c, ds, rfl⟩ := h
  cases p <;> simp [signed, negateFirst]

private theorem signed_glue (p : Bool) {A B : List (List Query)} (h : Full A) :
    signed p (glue A B) = glue (signed p A) B := by
  obtain ⟨l, c, ds, rfl⟩ := h
  cases p
  · cases ds <;> cases B <;> simp [signed, glue, negateFirst]
  · simp [signed]

private theorem signed_append (p : Bool) {A B : List (List Query)} (h : Full A) :
    signed p (A ++ B) = signed p A ++ B := by
  obtain ⟨l, c, ds, rfl⟩ := h
  cases p <;> simp [signed, negateFirst]

private theorem signed_negate (r : Row) (p : Bool) {D : List (List Query)} (h : Full D) (o a : Bool) :
    eat r (signed p (negateFirst D)) o a = eat r (signed (!p) D) o a := by
  obtain ⟨l, c, ds, rfl⟩ := h
  cases p
  · have : all' r (.not (.not l) :: c) = all' r (l :: c) := by
      classical
      rw [Bool.eq_iff_iff]
      simp [all', Query.HoldsRow]
    cases ds <;> simp [signed, negateFirst, eat, this]
  · simp [signed]

private theorem eat_single (r : Row) (q : Query) (b : Bool) (h : b = true ↔ q.HoldsRow r) (o a p : Bool) :
    (o, a && (b == p)) = eat r (signed p [[q]]) o a := by
  classical
  have : (b == p) = all' r (if p then [q] else [.not q]) := by
    rw [Bool.eq_iff_iff]
    cases p
    · simp only [all', Bool.false_eq_true, if_false, decide_eq_true_eq, List.mem_singleton, forall_eq, Query.HoldsRow, ← h]
      simp
    · simp only [all', if_true, decide_eq_true_eq, List.mem_singleton, forall_eq, ← h]
      simp
  rw [this]
  cases p <;> simp [signed, negateFirst, eat]

mutual
private theorem fx_eat (r : Row) : (q : Query) → ¬ HasEmpty q → ∀ o a p,
    fx (Atom.eval r) q o a p = eat r (signed p q.alternatives) o a
  | .not q, h, o, a, p => by
    have hq := fun e => h (.inNot q e)
    rw [fx, fx_eat r q hq, Query.alternatives, signed_negate r p (full_alternatives q hq)]
  | .and qs, h, o, a, p => by
    rw [fx, Query.alternatives]
    exact fx_glue r qs (fun e => h (e ▸ .and)) (fun q m e => h (.inAnd qs q m e)) o a p
  | .or qs, h, o, a, p => by
    rw [fx, Query.alternatives]
    exact fx_join r qs (fun e => h (e ▸ .or)) (fun q m e => h (.inOr qs q m e)) o a p
  | .executorEqual _, _, _, _, _ => eat_single r _ _ (by simp [Atom.eval, Query.HoldsRow]) _ _ _
  | .dataEquals _, _, _, _, _ => eat_single r _ _ (by simp [Atom.eval, Query.HoldsRow]) _ _ _
  | .metadataEquals _, _, _, _, _ => eat_single r _ _ (by simp [Atom.eval, Query.HoldsRow]) _ _ _
  | .idEquals _, _, _, _, _ => eat_single r _ _ (by simp [Atom.eval, Query.HoldsRow]) _ _ _
  | .idIn _, _, _, _, _ => eat_single r _ _ (by simp [Atom.eval, Query.HoldsRow]) _ _ _
  | .statusEqual _, _, _, _, _ => eat_single r _ _ (by simp [Atom.eval, Query.HoldsRow]) _ _ _
  | .tagsAllOf _, _, _, _, _ => eat_single r _ _ (by simp [Atom.eval, Query.HoldsRow]) _ _ _
  | .tagsOneOf _, _, _, _, _ => eat_single r _ _ (by simp [Atom.eval, Query.HoldsRow]) _ _ _
  | .scheduledAtBefore _, _, _, _, _ => eat_single r _ _ (by simp [Atom.eval, Query.HoldsRow]) _ _ _
  | .scheduledAtAfter _, _, _, _, _ => eat_single r _ _ (by simp [Atom.eval, Query.HoldsRow]) _ _ _
  | .scheduledAtEqual _, _, _, _, _ => eat_single r _ _ (by simp [Atom.eval, Query.HoldsRow]) _ _ _
private theorem fx_glue (r : Row) : (qs : List Query) → qs ≠ [] → (∀ q ∈ qs, ¬ HasEmpty q) → ∀ o a p,
    fxAnd (Atom.eval r) qs o a p = eat r (signed p (Query.glueAll qs)) o a
  | [], h, _, _, _, _ => absurd rfl h
  | [q], _, h, o, a, p => by
    have hf := full_alternatives q (h q (by simp))
    rw [fxAnd, fx_eat r q (h q (by simp)), Query.glueAll, Query.glueAll]
    obtain ⟨l, c, ds, e⟩ := hf
    have hg : ∀ (ds : List (List Query)) (d : List Query), glue (d :: ds) [] = d :: ds := by
      intro ds
      induction ds with
      | nil => intro d; rfl
      | cons x xs ih => intro d; simp [glue, ih]
    rw [e, hg]
  | q :: q' :: qs, _, h, o, a, p => by
    have hf := full_alternatives q (h q (by simp))
    have hf' := full_alternatives q' (h q' (by simp))
    have ih := fx_glue r (q' :: qs) (by simp) (fun x m => h x (List.mem_cons_of_mem _ m))
    simp only [fxAnd]
    rw [fx_eat r q (h q (by simp)), ih]
    rw [show Query.glueAll (q :: q' :: qs) = glue q.alternatives (Query.glueAll (q' :: qs)) from by rw [Query.glueAll]]
    have hne : Query.glueAll (q' :: qs) ≠ [] := by
      obtain ⟨l, c, ds, e⟩ := full_glue (B := Query.glueAll qs) hf'
      rw [Query.glueAll, e]; simp
    rw [signed_glue p hf, eat_glue r _ (signed_ne hf) _ hne]
    rfl
private theorem fx_join (r : Row) : (qs : List Query) → qs ≠ [] → (∀ q ∈ qs, ¬ HasEmpty q) → ∀ o a p,
    fxOr (Atom.eval r) qs o a p = eat r (signed p (Query.joinAll qs)) o a
  | [], h, _, _, _, _ => absurd rfl h
  | [q], _, h, o, a, p => by
    rw [fxOr, fx_eat r q (h q (by simp)), Query.joinAll, Query.joinAll, List.append_nil]
  | q :: q' :: qs, _, h, o, a, p => by
    have hf := full_alternatives q (h q (by simp))
    have hf' := full_alternatives q' (h q' (by simp))
    have ih := fx_join r (q' :: qs) (by simp) (fun x m => h x (List.mem_cons_of_mem _ m))
    simp only [fxOr]
    rw [fx_eat r q (h q (by simp)), ih]
    rw [show Query.joinAll (q :: q' :: qs) = q.alternatives ++ Query.joinAll (q' :: qs) from by rw [Query.joinAll]]
    have hne : Query.joinAll (q' :: qs) ≠ [] := by
      obtain ⟨l, c, ds, e⟩ := hf'
      rw [Query.joinAll, e]; simp
    rw [signed_append p hf, eat_append r _ (signed_ne hf) _ hne]
    rfl
end

private theorem finds_iff (r : Row) (q : Query) (h : ¬ HasEmpty q) :
    sqlEval (Atom.eval r) q.render = some true ↔ q.Finds r := by
  classical
  rw [sqlEval_ok _ q h, fx_eat r q h]
  have hf := full_alternatives q h
  have hv := eat_value r q.alternatives (by obtain ⟨l, c, ds, e⟩ := hf; rw [e]; simp) false true
  simp only [Option.some.injEq, signed, if_true]
  rw [hv]
  obtain ⟨l, c, ds, e⟩ := hf
  simp [Query.Finds, e, all']

private theorem newest_rows {S : List Row} {tie : Int → Nat} (hs : S.Pairwise fun a b => newestFirst tie a b = true) :
    (S.filterMap Row.decode).Pairwise fun a b => b.insertedAt ≤ a.insertedAt := by
  induction S with
  | nil => simp
  | cons r rs ih =>
    rw [List.pairwise_cons] at hs
    have ih := ih hs.2
    cases hj : r.decode with
    | none => simpa [hj] using ih
    | some j =>
      simp only [List.filterMap_cons, hj, List.pairwise_cons]
      refine ⟨?_, ih⟩
      intro y my
      obtain ⟨x, mx, hx⟩ := List.mem_filterMap.mp my
      have := hs.1 x mx
      have e1 := (decode_fields hj).2.2.2.2.2.2.2
      have e2 := (decode_fields hx).2.2.2.2.2.2.2
      simp only [newestFirst, Bool.or_eq_true, decide_eq_true_eq, Bool.and_eq_true, beq_iff_eq] at this
      rw [e1, e2]
      simp only [Time] at *
      omega

private theorem decodeRows_none {rows : List Row} (h : ∃ r ∈ rows, r.decode = none) : decodeRows rows = none := by
  induction rows with
  | nil => obtain ⟨r, m, _⟩ := h; cases m
  | cons r rs ih =>
    obtain ⟨x, m, hx⟩ := h
    simp only [decodeRows]
    rcases List.mem_cons.mp m with rfl | m
    · rw [hx]
    · rw [ih ⟨x, m, hx⟩]
      cases r.decode <;> rfl

open scoped Classical in
/-- **C43, exactly.** For every table and every query without empty `and`s and `or`s: the
query is read as a list of alternatives, each a list of possibly negated comparisons, where
an `and` runs the last alternative of one part and the first of the next together, and a
`not` applies to the first comparison only; times are cut to microseconds and an id list is
met by an id equal to all its elements. If all rows found can be read the result is exactly
these, latest inserted first; otherwise it is an error. -/
theorem C43_exactly (tie : Int → Nat) (rows : List Row) (q : Query) (hq : ¬ HasEmpty q) :
    ((∀ r ∈ rows, q.Finds r → r.decode ≠ none) →
      ∃ js, pgQuery tie rows q = .jobs js ∧
        js.Perm ((rows.filter fun r => decide (q.Finds r)).filterMap Row.decode) ∧
        js.Pairwise fun a b => b.insertedAt ≤ a.insertedAt) ∧
    ((∃ r ∈ rows, q.Finds r ∧ r.decode = none) → pgQuery tie rows q = .err .encodeDecode) := by
  have hfil : (rows.filter fun r => sqlEval (Atom.eval r) q.render == some true) =
      rows.filter fun r => decide (q.Finds r) := by
    refine List.filter_congr ?_
    intro r _
    rw [Bool.eq_iff_iff]
    simp only [beq_iff_eq, decide_eq_true_eq]
    exact finds_iff r q hq
  have hperm := sortBy_perm (newestFirst tie) (rows.filter fun r => decide (q.Finds r))
  have hsort := sortBy_sorted (newest_total tie) (newest_trans tie) (rows.filter fun r => decide (q.Finds r))
  have hpg : pgQuery tie rows q = match decodeRows (sortBy (newestFirst tie) (rows.filter fun r => decide (q.Finds r))) with
      | none => .err .encodeDecode
      | some js => .jobs js := by
    unfold pgQuery
    rw [sqlEval_ok (fun _ => false) q hq, hfil]
    rfl
  rw [hpg]
  generalize sortBy (newestFirst tie) (rows.filter fun r => decide (q.Finds r)) = S at hperm hsort
  constructor
  · intro hd
    have hSd : ∀ r ∈ S, ∃ j, r.decode = some j := by
      intro r m
      have := List.mem_filter.mp (hperm.mem_iff.mp m)
      have := hd r this.1 (by simpa using this.2)
      exact Option.ne_none_iff_exists'.mp this
    rw [decodeRows_eq hSd]
    exact ⟨_, rfl, hperm.filterMap _, newest_rows hsort⟩
  · rintro ⟨r, m, hf, hn⟩
    rw [decodeRows_none ⟨r, hperm.mem_iff.mpr (List.mem_filter.mpr ⟨m, by simpa using hf⟩), hn⟩]

/-- `not (a and (b or c))` is read as `(not a and b) or c`. -/
example : (Query.not (.and [.statusEqual .complete, .or [.executorEqual "mail", .idEquals 3]])).alternatives =
    [[.not (.statusEqual .complete), .executorEqual "mail"], [.idEquals 3]] := by
  simp [Query.alternatives, Query.glueAll, Query.joinAll, glue, negateFirst]

/-! ## C44 -/

/-- **C44 fails**, for every table and every list with two different ids: no job is
ever found. -/
theorem C44_violated (tie : Int → Nat) (rows : List Row) (ids : List Int) (i k : Int)
    (hi : i ∈ ids) (hk : k ∈ ids) (hik : i ≠ k) : pgQuery tie rows (.idIn ids) = .jobs [] := by
  have h1 : ∀ val, sqlEval val (Query.render (.idIn ids)) = some (val (.idAll ids)) := by
    intro val; simp [sqlEval, Query.render, sqlOperand, sqlOperator]
  have h2 : (rows.filter fun r => sqlEval (Atom.eval r) (Query.render (.idIn ids)) == some true) = [] := by
    rw [List.filter_eq_nil_iff]
    intro r _
    simp only [h1, Atom.eval, beq_iff_eq, Option.some.injEq, List.all_eq_true, beq_iff_eq]
    intro h
    exact hik ((h i hi).symm.trans (h k hk))
  unfold pgQuery
  rw [h1, h2]
  rfl

example : pgQuery (fun _ => 0) [sampleRow 1, sampleRow 2] (.idIn [1, 2]) = .jobs [] := by decide

/-- **C44 fails** for the empty list as well: it finds every job. -/
theorem C44_empty_violated (tie : Int → Nat) (rows : List Row) (jobs : List Job)
    (hr : decodeRows rows = some jobs) : ∃ js, pgQuery tie rows (.idIn []) = .jobs js ∧ js.Perm jobs := by
  have hdec := decodeRows_mem hr
  have hjobs : jobs = rows.filterMap Row.decode := by
    rw [decodeRows_eq hdec] at hr
    exact (Option.some.inj hr).symm
  have h1 : ∀ val, sqlEval val (Query.render (.idIn [])) = some (val (.idAll [])) := by
    intro val; simp [sqlEval, Query.render, sqlOperand, sqlOperator]
  have h2 : (rows.filter fun r => sqlEval (Atom.eval r) (Query.render (.idIn [])) == some true) = rows := by
    rw [List.filter_eq_self]
    intro r _
    simp [h1, Atom.eval]
  have hperm := sortBy_perm (newestFirst tie) rows
  refine ⟨(sortBy (newestFirst tie) rows).filterMap Row.decode, ?_, hjobs ▸ hperm.filterMap _⟩
  unfold pgQuery
  rw [h1, h2, decodeRows_eq (fun r m => hdec r (hperm.mem_iff.mp m))]

example : pgQuery (fun i => i.toNat) [sampleRow 1, sampleRow 2] (.idIn []) =
    .jobs (([sampleRow 1, sampleRow 2] : List Row).filterMap Row.decode) := by decide

open scoped Classical in
/-- **C44, partial** (missing: lists with more than one different id and the empty
list, see `C44_violated`). For a list that names one id, any number of times, exactly
the jobs with this id are found. -/
theorem C44_one_id_partial (tie : Int → Nat) (rows : List Row) (jobs : List Job) (i : Int) (n : Nat)
    (hr : decodeRows rows = some jobs) :
    ∃ js, pgQuery tie rows (.idIn (List.replicate (n + 1) i)) = .jobs js ∧
      js.Perm (jobs.filter fun j => decide (j.id ∈ List.replicate (n + 1) i)) := by
  obtain ⟨js, h1, h2, _⟩ := C43_disjunctive_partial tie rows jobs (.idIn [i]) hr
    (.conj _ (.literal _ (.idIn i)))
  have h3 : ∀ r : Row, sqlEval (Atom.eval r) (Query.render (.idIn (List.replicate (n + 1) i))) =
      sqlEval (Atom.eval r) (Query.render (.idIn [i])) := by
    intro r
    have : (List.replicate (n + 1) i).all (fun v => r.id == v) = (r.id == i) := by
      rw [Bool.eq_iff_iff, List.all_eq_true]
      simp [List.mem_replicate]
    simp only [sqlEval, Query.render, sqlOperand, sqlOperator, Atom.eval, this, List.all_cons,
      List.all_nil, Bool.and_true]
  refine ⟨js, ?_, ?_⟩
  · rw [← h1]
    unfold pgQuery
    simp only [h3]
    simp [sqlEval, Query.render, sqlOperand, sqlOperator]
  · refine h2.trans ?_
    rw [List.filter_congr]
    intro j _
    rw [decide_eq_decide]
    simp [Query.Holds, List.mem_replicate]

example : pgQuery (fun i => i.toNat) [sampleRow 1, sampleRow 2] (.idIn [2, 2]) =
    .jobs (([sampleRow 2] : List Row).filterMap Row.decode) := by decide

/-- **C44: exactly what is found.** For every table whose rows can be read and every list
of ids: the jobs whose id is equal to every id in the list. -/
theorem C44_exactly (tie : Int → Nat) (rows : List Row) (jobs : List Job) (ids : List Int)
    (hr : decodeRows rows = some jobs) :
    ∃ js, pgQuery tie rows (.idIn ids) = .jobs js ∧ ∀ j, j ∈ js ↔ j ∈ jobs ∧ ∀ i ∈ ids, j.id = i := by
  match ids with
  | [] =>
    obtain ⟨js, h, hp⟩ := C44_empty_violated tie rows jobs hr
    exact ⟨js, h, fun j => by simp [hp.mem_iff]⟩
  | i :: is =>
    by_cases hall : ∀ k ∈ is, k = i
    · have hrep : i :: is = List.replicate (is.length + 1) i := by
        rw [List.replicate_succ, List.eq_replicate_of_mem hall, List.length_replicate]
      obtain ⟨js, h, hp⟩ := C44_one_id_partial tie rows jobs i is.length hr
      rw [hrep]
      exact ⟨js, h, fun j => by simp [hp.mem_iff]⟩
    · obtain ⟨k, hk⟩ := Classical.not_forall.mp hall
      obtain ⟨hk, hne⟩ := Classical.not_imp.mp hk
      refine ⟨[], C44_violated tie rows (i :: is) k i (List.mem_cons_of_mem _ hk) (List.mem_cons_self ..) hne, fun j => ?_⟩
      constructor
      · intro h; cases h
      · rintro ⟨_, h⟩
        exact absurd ((h k (List.mem_cons_of_mem _ hk)).symm.trans (h i (List.mem_cons_self ..))) hne

example : decodeRows [sampleRow 1, sampleRow 2] ≠ none := by decide

/-! ## C58 -/

/-- **C58 fails**: the executor condition is one conjunct of an unparenthesised
condition. Asking the executor `mail` for jobs that are scheduled or retryable
returns a job of the executor `other`. -/
theorem C58_violated : ∃ rows q, ∃ j : Job, ∃ js,
    pgQuery (fun _ => 0) rows (Query.forExecutor "mail" q) = .jobs js ∧ j ∈ js ∧ j.executor ≠ "mail" := by
  refine ⟨[{ sampleRow 1 with executor := "other", status := .retryable }],
    .or [.statusEqual .scheduled, .statusEqual .retryable],
    { sampleJob 1 with executor := "other", status := .retryable },
    [{ sampleJob 1 with executor := "other", status := .retryable }], ?_, ?_, ?_⟩ <;> decide

private theorem glue_assoc : ∀ (A B C : List (List Query)), B ≠ [] → glue (glue A B) C = glue A (glue B C)
  | [], _, _, _ => rfl
  | [_], [], _, h => absurd rfl h
  | [a], [b], [], _ => by simp [glue]
  | [a], [b], c :: cs, _ => by simp [glue]
  | [a], b :: b' :: bs, C, _ => by simp [glue]
  | a :: a' :: as, B, C, h => by
    have ih := glue_assoc (a' :: as) B C h
    have hne : ∃ x xs, glue (a' :: as) B = x :: xs := by
      cases as with
      | nil => cases B with
        | nil => exact absurd rfl h
        | cons b bs => exact ⟨_, _, rfl⟩
      | cons _ _ => exact ⟨_, _, rfl⟩
    obtain ⟨x, xs, hx⟩ := hne
    rw [glue, hx, glue, ← hx, ih]
    rfl

private theorem glueAll_snoc (x : Query) : ∀ (qs : List Query), qs ≠ [] → (∀ q ∈ qs, ¬ HasEmpty q) →
    Query.glueAll (qs ++ [x]) = glue (Query.glueAll qs) (Query.glueAll [x])
  | [], h, _ => absurd rfl h
  | [q], _, h => by
    obtain ⟨l, c, ds, e⟩ := full_alternatives q (h q (by simp))
    have hg : ∀ (ds : List (List Query)) (d : List Query), glue (d :: ds) [] = d :: ds := by
      intro ds
      induction ds with
      | nil => intro d; rfl
      | cons x xs ih => intro d; simp [glue, ih]
    simp only [List.singleton_append, Query.glueAll, e, hg]
  | q :: q' :: qs, _, h => by
    have ih := glueAll_snoc x (q' :: qs) (by simp) (fun x m => h x (List.mem_cons_of_mem _ m))
    have hne : Query.glueAll (q' :: qs) ≠ [] := by
      obtain ⟨l, c, ds, e⟩ := full_glue (B := Query.glueAll qs) (full_alternatives q' (h q' (by simp)))
      rw [Query.glueAll, e]; simp
    rw [List.cons_append, Query.glueAll, ih]
    rw [show Query.glueAll (q :: q' :: qs) = glue q.alternatives (Query.glueAll (q' :: qs)) from by rw [Query.glueAll]]
    rw [glue_assoc _ _ _ hne]

private theorem glue_last (x : Query) : ∀ (D : List (List Query)) (h : D ≠ []),
    glue D [[x]] = D.dropLast ++ [D.getLast h ++ [x]]
  | [], h => absurd rfl h
  | [d], _ => rfl
  | d :: d' :: ds, _ => by
    have := glue_last x (d' :: ds) (by simp)
    simp [glue, this]

theorem guarded_finds (e : String) (q : Query) (hq : ¬ HasEmpty q) (r : Row) :
    (q.forExecutor e).Finds r ↔
      if r.executor = e then q.Finds r else ∃ c ∈ q.unguarded, ∀ l ∈ c, l.HoldsRow r := by
  have hfull := full_alternatives q hq
  have H : ∀ q : Query, Full q.alternatives → ((Query.and [.executorEqual e, q]).Finds r ↔
      if r.executor = e then q.Finds r else ∃ c ∈ q.alternatives.tail, ∀ l ∈ c, l.HoldsRow r) := by
    rintro q ⟨l, c, ds, hD⟩
    have hg : ∀ (ds : List (List Query)) (d : List Query), glue (d :: ds) [] = d :: ds := by
      intro ds
      induction ds with
      | nil => intro d; rfl
      | cons x xs ih => intro d; simp [glue, ih]
    have : (Query.and [.executorEqual e, q]).alternatives = (.executorEqual e :: l :: c) :: ds := by
      simp [Query.alternatives, Query.glueAll, hD, hg, glue]
    simp only [Query.Finds, this, hD]
    by_cases he : r.executor = e
    · simp [he, Query.HoldsRow]
    · simp [he, Query.HoldsRow]
  cases q with
  | and qs =>
    have hne : qs ≠ [] := fun h => hq (h ▸ .and)
    have hall : ∀ q ∈ qs, ¬ HasEmpty q := fun q m h => hq (.inAnd qs q m h)
    have hD : (Query.and qs).alternatives = Query.glueAll qs := by rw [Query.alternatives]
    have hDne : Query.glueAll qs ≠ [] := by
      obtain ⟨l, c, ds, h⟩ := hfull
      rw [← hD, h]; simp
    have h1 : (Query.forExecutor e (.and qs)).alternatives =
        (Query.glueAll qs).dropLast ++ [(Query.glueAll qs).getLast hDne ++ [.executorEqual e]] := by
      rw [Query.forExecutor, Query.alternatives, glueAll_snoc _ _ hne hall]
      rw [show Query.glueAll [Query.executorEqual e] = [[.executorEqual e]] from by
        simp [Query.glueAll, Query.alternatives, glue]]
      exact glue_last _ _ hDne
    have h2 : (Query.and qs).alternatives = (Query.glueAll qs).dropLast ++ [(Query.glueAll qs).getLast hDne] := by
      rw [hD, List.dropLast_concat_getLast]
    simp only [Query.Finds, h1, Query.unguarded]
    rw [h2]
    by_cases he : r.executor = e
    · simp only [he, if_true, List.mem_append, List.mem_singleton]
      constructor
      · rintro ⟨c, m | rfl, h⟩
        · exact ⟨c, .inl m, h⟩
        · exact ⟨_, .inr rfl, fun l m => h l (by simp [m])⟩
      · rintro ⟨c, m | rfl, h⟩
        · exact ⟨c, .inl m, h⟩
        · refine ⟨_, .inr rfl, ?_⟩
          intro l m
          rcases List.mem_append.mp m with m | m
          · exact h l m
          · rw [List.mem_singleton.mp m]; exact he
    · simp only [he, if_false, List.mem_append, List.mem_singleton, List.dropLast_concat]
      constructor
      · rintro ⟨c, m | rfl, h⟩
        · exact ⟨c, m, h⟩
        · exact absurd (h (.executorEqual e) (by simp)) he
      · rintro ⟨c, m, h⟩
        exact ⟨c, .inl m, h⟩
  | not _ => exact H _ hfull
  | or _ => exact H _ hfull
  | executorEqual _ => exact H _ hfull
  | dataEquals _ => exact H _ hfull
  | metadataEquals _ => exact H _ hfull
  | idEquals _ => exact H _ hfull
  | idIn _ => exact H _ hfull
  | statusEqual _ => exact H _ hfull
  | tagsAllOf _ => exact H _ hfull
  | tagsOneOf _ => exact H _ hfull
  | scheduledAtBefore _ => exact H _ hfull
  | scheduledAtAfter _ => exact H _ hfull
  | scheduledAtEqual _ => exact H _ hfull

theorem forExecutor_nonempty (e : String) (q : Query) (hq : ¬ HasEmpty q) : ¬ HasEmpty (q.forExecutor e) := by
  have H : ∀ q, ¬ HasEmpty q → ¬ HasEmpty (.and [.executorEqual e, q]) := by
    intro q hq h
    cases h with | inAnd _ x m h =>
    simp only [List.mem_cons, List.not_mem_nil, or_false] at m
    rcases m with rfl | rfl
    · cases h
    · exact hq h
  cases q with
  | and qs =>
    intro h
    simp only [Query.forExecutor] at h
    generalize hx : qs ++ [Query.executorEqual e] = xs at h
    cases h with
    | and => simp at hx
    | inAnd _ x m h =>
      subst hx
      rcases List.mem_append.mp m with m | m
      · exact hq (.inAnd _ x m h)
      · rw [List.mem_singleton.mp m] at h; cases h
  | _ => exact H _ hq

/-- **C58, exactly.** For every table whose rows can be read, every executor and every query
without empty `and`s and `or`s: the executor is given its own jobs for which the flattened
query holds, and of other executors' jobs exactly those for which an alternative holds that
the condition on the executor does not reach. -/
theorem C58_exactly (tie : Int → Nat) (rows : List Row) (e : String) (q : Query) (hq : ¬ HasEmpty q)
    (hr : ∀ r ∈ rows, r.decode ≠ none) :
    ∃ js, pgQuery tie rows (q.forExecutor e) = .jobs js ∧
      ∀ j, j ∈ js ↔ ∃ r ∈ rows, r.decode = some j ∧
        if r.executor = e then q.Finds r else ∃ c ∈ q.unguarded, ∀ l ∈ c, l.HoldsRow r := by
  have hne := forExecutor_nonempty e q hq
  obtain ⟨js, h1, h2, _⟩ := (C43_exactly tie rows (q.forExecutor e) hne).1 (fun r m _ => hr r m)
  refine ⟨js, h1, fun j => ?_⟩
  rw [h2.mem_iff, List.mem_filterMap]
  constructor
  · rintro ⟨r, m, hd⟩
    have := List.mem_filter.mp m
    exact ⟨r, this.1, hd, (guarded_finds e q hq r).mp (by simpa using this.2)⟩
  · rintro ⟨r, m, hd, h⟩
    exact ⟨r, List.mem_filter.mpr ⟨m, by simpa using (guarded_finds e q hq r).mpr h⟩, hd⟩

/-- Asking for `a and (b or c)` guards `c` only. -/
example : (Query.and [.statusEqual .complete, .or [.tagsAllOf ["a"], .idEquals 3]]).unguarded =
    [[.statusEqual .complete, .tagsAllOf ["a"]]] := by
  simp [Query.unguarded, Query.alternatives, Query.glueAll, Query.joinAll, glue]

open scoped Classical in
/-- **C58, partial** (missing: queries with an `or` or with a negated `and`, see
`C58_violated`). For every conjunction of possibly negated comparisons, asking an
executor returns exactly its own jobs among those satisfying the query. -/
theorem C58_conjunctive_partial (tie : Int → Nat) (rows : List Row) (jobs : List Job) (e : String) (q : Query)
    (hr : decodeRows rows = some jobs) (hq : Conjunctive q) :
    ∃ js, pgQuery tie rows (q.forExecutor e) = .jobs js ∧
      js.Perm (jobs.filter fun j => decide (j.executor = e ∧ q.Holds j)) := by
  have hc : Conjunctive (q.forExecutor e) := by
    have H : ∀ q, Conjunctive q → Conjunctive (.and [.executorEqual e, q]) := by
      intro q hq
      refine .and _ _ ?_
      intro x m
      simp only [List.mem_cons, List.not_mem_nil, or_false] at m
      rcases m with rfl | rfl
      · exact .literal _ (.executorEqual _)
      · exact hq
    cases q with
    | and qs =>
      have hall : qs ≠ [] ∧ ∀ x ∈ qs, Conjunctive x := by
        cases hq with
        | literal _ h =>
          cases h with | and q h => exact ⟨by simp, by intro x m; rw [List.mem_singleton.mp m]; exact .literal _ h⟩
        | and q qs h => exact ⟨by simp, h⟩
      cases qs with
      | nil => exact (hall.1 rfl).elim
      | cons x xs =>
        refine .and _ _ ?_
        intro y m
        change y ∈ (x :: xs) ++ [Query.executorEqual e] at m
        rcases List.mem_append.mp m with m | m
        · exact hall.2 y m
        · rw [List.mem_singleton.mp m]; exact .literal _ (.executorEqual _)
    | not _ => exact H _ hq
    | or _ => exact H _ hq
    | executorEqual _ => exact H _ hq
    | dataEquals _ => exact H _ hq
    | metadataEquals _ => exact H _ hq
    | idEquals _ => exact H _ hq
    | idIn _ => exact H _ hq
    | statusEqual _ => exact H _ hq
    | tagsAllOf _ => exact H _ hq
    | tagsOneOf _ => exact H _ hq
    | scheduledAtBefore _ => exact H _ hq
    | scheduledAtAfter _ => exact H _ hq
    | scheduledAtEqual _ => exact H _ hq
  obtain ⟨js, h1, h2, _⟩ := C43_disjunctive_partial tie rows jobs _ hr (.conj _ hc)
  refine ⟨js, h1, h2.trans ?_⟩
  rw [List.filter_congr]
  intro j _
  rw [decide_eq_decide]
  cases q <;> simp [Query.forExecutor, Query.Holds]
  constructor
  · intro h
    exact ⟨by simpa [Query.Holds] using h (.executorEqual e) (.inr rfl), fun q m => h q (.inl m)⟩
  · rintro ⟨h, h'⟩ q (m | rfl)
    · exact h' q m
    · simpa [Query.Holds] using h

example : Conjunctive (.and [.statusEqual .scheduled, .not (.tagsOneOf ["b"])]) := by
  refine .and _ _ ?_
  intro x m
  simp only [List.mem_cons, List.not_mem_nil, or_false] at m
  rcases m with rfl | rfl
  · exact .literal _ (.statusEqual _)
  · exact .literal _ (.not _ (.tagsOneOf _))

end Rexecutor
