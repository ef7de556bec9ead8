import Verif.Spec.Query
import Verif.Spec.Samples
import Verif.Lemmas.ListLemmas

/-! # C18, C19: queries -/

namespace Rexecutor

/-! ## C18 -/

private theorem tag_any {tags : List String} {tag : String} :
    (tags.any fun t => t == tag) = true ↔ tag ∈ tags := by
  simp [List.any_eq_true]

mutual
private theorem matches_iff (j : Job) : (q : Query) → (q.matches j = true ↔ q.Holds j)
  | .not q => by simp [Query.matches, Query.Holds, ← matches_iff j q]
  | .and qs => by simp [Query.matches, Query.Holds, matchesAll_iff j qs]
  | .or qs => by simp [Query.matches, Query.Holds, matchesAny_iff j qs]
  | .executorEqual e => by simp [Query.matches, Query.Holds]
  | .dataEquals d => by simp [Query.matches, Query.Holds]
  | .metadataEquals m => by simp [Query.matches, Query.Holds]
  | .idEquals id => by simp [Query.matches, Query.Holds]
  | .idIn ids => by simp [Query.matches, Query.Holds]
  | .statusEqual s => by simp [Query.matches, Query.Holds]
  | .tagsAllOf tags => by simp [Query.matches, Query.Holds]
  | .tagsOneOf tags => by simp [Query.matches, Query.Holds]
  | .scheduledAtBefore t => by simp [Query.matches, Query.Holds]
  | .scheduledAtAfter t => by simp [Query.matches, Query.Holds]
  | .scheduledAtEqual t => by simp [Query.matches, Query.Holds]
private theorem matchesAll_iff (j : Job) :
    (qs : List Query) → (Query.matchesAll qs j = true ↔ ∀ q ∈ qs, q.Holds j)
  | [] => by simp [Query.matchesAll]
  | q :: qs => by simp [Query.matchesAll, matches_iff j q, matchesAll_iff j qs]
private theorem matchesAny_iff (j : Job) :
    (qs : List Query) → (Query.matchesAny qs j = true ↔ ∃ q ∈ qs, q.Holds j)
  | [] => by simp [Query.matchesAny]
  | q :: qs => by simp [Query.matchesAny, matches_iff j q, matchesAny_iff j qs]
end

/-- The evaluator of the code decides the meaning of the query. -/
theorem query_matches_iff (q : Query) (j : Job) : q.matches j = true ↔ q.Holds j := matches_iff j q

open scoped Classical in
/-- **C18.** For every store and every query, of any size and nesting: the result
is the list of the stored jobs, in order, that satisfy the query as a formula; and
the call changes nothing. -/
theorem C18_query_exact (now : Time) (m : Mem) (q : Query) :
    m.step now (.query q) = (.jobs ((m.jobs.map (·.job)).filter fun j => decide (q.Holds j)), m) := by
  simp only [Mem.step, Mem.query]
  congr 2
  rw [List.filter_map]
  congr 1
  apply List.filter_congr
  intro k _
  simp only [Function.comp]
  rw [Bool.eq_iff_iff]
  simp [matches_iff]

example : ((storeOf [sampleJob 0, { sampleJob 1 with status := .complete }, { sampleJob 2 with tags := [] }]).query
    (.or [.and [.not (.statusEqual .scheduled), .and []], .and [.tagsAllOf ["a"], .idIn [2, 0]], .or []])).map (·.id)
    = [0, 1] := by decide

/-! ## C19 -/

theorem C19_and (cd : Codec D) (cm : Codec M) (a b : TQuery D M) (j : Job) :
    (Where.and a b).Holds cd cm j ↔ a.Holds cd cm j ∧ b.Holds cd cm j := by
  unfold Where.and
  split
  · simp only [TQuery.Holds, List.mem_append, List.mem_singleton]
    constructor
    · intro h; exact ⟨fun q hq => h q (Or.inl hq), h b (Or.inr rfl)⟩
    · rintro ⟨h1, h2⟩ q (hq | rfl)
      · exact h1 q hq
      · exact h2
  · simp [TQuery.Holds]

theorem C19_or (cd : Codec D) (cm : Codec M) (a b : TQuery D M) (j : Job) :
    (Where.or a b).Holds cd cm j ↔ a.Holds cd cm j ∨ b.Holds cd cm j := by
  unfold Where.or
  split
  · simp only [TQuery.Holds, List.mem_append, List.mem_singleton]
    constructor
    · rintro ⟨q, hq | rfl, h⟩
      · exact Or.inl ⟨q, hq, h⟩
      · exact Or.inr h
    · rintro (⟨q, hq, h⟩ | h)
      · exact ⟨q, Or.inl hq, h⟩
      · exact ⟨b, Or.inr rfl, h⟩
  · simp [TQuery.Holds]

theorem C19_not (cd : Codec D) (cm : Codec M) (a : TQuery D M) (j : Job) :
    (Where.not a).Holds cd cm j ↔ ¬ a.Holds cd cm j := by
  simp [Where.not, TQuery.Holds]

/-- **C19, the constructors.** What a job satisfies each of them: the stored data or
metadata is the serialised value; the id, status or schedule time is the given one; the id
is in the list; all, or one, of the given tags are among the job's; it is scheduled
strictly before or after the given time; strictly more, or less, than the duration ago
(so `scheduled_at_within_the_last` includes all jobs scheduled for the future). -/
theorem C19_constructors (cd : Codec D) (cm : Codec M) (j : Job) (d : D) (m : M) (id : Int) (ids : List Int)
    (st : JobStatus) (tags : List String) (t now : Time) (dur : Delta) :
    ((Where.dataEquals d : TQuery D M).Holds cd cm j ↔ cd.enc d = some j.data) ∧
    ((Where.metadataEquals m : TQuery D M).Holds cd cm j ↔ cm.enc m = some j.metadata) ∧
    ((Where.idEquals id : TQuery D M).Holds cd cm j ↔ j.id = id) ∧
    ((Where.idIn ids : TQuery D M).Holds cd cm j ↔ j.id ∈ ids) ∧
    ((Where.statusEquals st : TQuery D M).Holds cd cm j ↔ j.status = st) ∧
    ((Where.taggedByAllOf tags : TQuery D M).Holds cd cm j ↔ ∀ tag ∈ tags, tag ∈ j.tags) ∧
    ((Where.taggedByOneOf tags : TQuery D M).Holds cd cm j ↔ ∃ tag ∈ tags, tag ∈ j.tags) ∧
    ((Where.scheduledAtEquals t : TQuery D M).Holds cd cm j ↔ j.scheduledAt = t) ∧
    ((Where.scheduledAtBefore t : TQuery D M).Holds cd cm j ↔ j.scheduledAt < t) ∧
    ((Where.scheduledAtAfter t : TQuery D M).Holds cd cm j ↔ t < j.scheduledAt) ∧
    ((Where.scheduledAtOlderThan now dur : TQuery D M).Holds cd cm j ↔ dur < now - j.scheduledAt) ∧
    ((Where.scheduledAtWithinTheLast now dur : TQuery D M).Holds cd cm j ↔ now - j.scheduledAt < dur) := by
  refine ⟨?_, ?_, ?_, ?_, ?_, ?_, ?_, ?_, ?_, ?_, ?_, ?_⟩ <;>
    simp only [Where.dataEquals, Where.metadataEquals, Where.idEquals, Where.idIn, Where.statusEquals,
      Where.taggedByAllOf, Where.taggedByOneOf, Where.scheduledAtEquals, Where.scheduledAtBefore,
      Where.scheduledAtAfter, Where.scheduledAtOlderThan, Where.scheduledAtWithinTheLast, TQuery.Holds] <;>
    (simp only [Time, Delta] at *; omega)

mutual
/-- The translation to backend queries keeps the meaning. -/
private theorem toQuery_holds (cd : Codec D) (cm : Codec M) (j : Job) :
    (q : TQuery D M) → (bq : Query) → q.toQuery cd cm = some bq → (bq.Holds j ↔ q.Holds cd cm j)
  | .not q, bq, h => by
    simp only [TQuery.toQuery, Option.map_eq_some_iff] at h
    obtain ⟨q', h1, rfl⟩ := h
    simp [Query.Holds, TQuery.Holds, toQuery_holds cd cm j q q' h1]
  | .and qs, bq, h => by
    simp only [TQuery.toQuery, Option.map_eq_some_iff] at h
    obtain ⟨qs', h1, rfl⟩ := h
    simp only [Query.Holds, TQuery.Holds]
    exact (toQueries_holds cd cm j qs qs' h1).1
  | .or qs, bq, h => by
    simp only [TQuery.toQuery, Option.map_eq_some_iff] at h
    obtain ⟨qs', h1, rfl⟩ := h
    simp only [Query.Holds, TQuery.Holds]
    simpa using (toQueries_holds cd cm j qs qs' h1).2
  | .dataEquals d, bq, h => by
    simp only [TQuery.toQuery, Option.map_eq_some_iff] at h
    obtain ⟨v, h1, rfl⟩ := h
    simp only [Query.Holds, TQuery.Holds, h1, Option.some.injEq]
    exact eq_comm
  | .metadataEquals d, bq, h => by
    simp only [TQuery.toQuery, Option.map_eq_some_iff] at h
    obtain ⟨v, h1, rfl⟩ := h
    simp only [Query.Holds, TQuery.Holds, h1, Option.some.injEq]
    exact eq_comm
  | .idEquals id, bq, h => by
    simp only [TQuery.toQuery, Option.some.injEq] at h; subst h; simp [Query.Holds, TQuery.Holds]
  | .idIn ids, bq, h => by
    simp only [TQuery.toQuery, Option.some.injEq] at h; subst h; simp [Query.Holds, TQuery.Holds]
  | .statusEqual s, bq, h => by
    simp only [TQuery.toQuery, Option.some.injEq] at h; subst h; simp [Query.Holds, TQuery.Holds]
  | .tagsAllOf tags, bq, h => by
    simp only [TQuery.toQuery, Option.some.injEq] at h; subst h; simp [Query.Holds, TQuery.Holds]
  | .tagsOneOf tags, bq, h => by
    simp only [TQuery.toQuery, Option.some.injEq] at h; subst h; simp [Query.Holds, TQuery.Holds]
  | .scheduledAtBefore t, bq, h => by
    simp only [TQuery.toQuery, Option.some.injEq] at h; subst h; simp [Query.Holds, TQuery.Holds]
  | .scheduledAtAfter t, bq, h => by
    simp only [TQuery.toQuery, Option.some.injEq] at h; subst h; simp [Query.Holds, TQuery.Holds]
  | .scheduledAtEqual t, bq, h => by
    simp only [TQuery.toQuery, Option.some.injEq] at h; subst h; simp [Query.Holds, TQuery.Holds]
private theorem toQueries_holds (cd : Codec D) (cm : Codec M) (j : Job) :
    (qs : List (TQuery D M)) → (bqs : List Query) → TQuery.toQueries cd cm qs = some bqs →
      ((∀ b ∈ bqs, b.Holds j) ↔ ∀ q ∈ qs, q.Holds cd cm j) ∧
      ((∃ b ∈ bqs, b.Holds j) ↔ ∃ q ∈ qs, q.Holds cd cm j)
  | [], bqs, h => by simp only [TQuery.toQueries, Option.some.injEq] at h; subst h; simp
  | q :: qs, bqs, h => by
    simp only [TQuery.toQueries] at h
    split at h
    · rename_i q' qs' h1 h2
      simp only [Option.some.injEq] at h
      subst h
      have a := toQuery_holds cd cm j q q' h1
      have b := toQueries_holds cd cm j qs qs' h2
      simp [a, b.1, b.2]
    · simp at h
end

mutual
private theorem toQuery_some (cd : Codec D) (cm : Codec M) (hd : cd.Lossless) (hm : cm.Lossless) :
    (q : TQuery D M) → ∃ bq, q.toQuery cd cm = some bq
  | .not q => by
    obtain ⟨b, h⟩ := toQuery_some cd cm hd hm q; exact ⟨_, by simp [TQuery.toQuery, h]; rfl⟩
  | .and qs => by
    obtain ⟨b, h⟩ := toQueries_some cd cm hd hm qs; exact ⟨_, by simp [TQuery.toQuery, h]; rfl⟩
  | .or qs => by
    obtain ⟨b, h⟩ := toQueries_some cd cm hd hm qs; exact ⟨_, by simp [TQuery.toQuery, h]; rfl⟩
  | .dataEquals d => by
    obtain ⟨v, h, -⟩ := hd d; exact ⟨_, by simp [TQuery.toQuery, h]; rfl⟩
  | .metadataEquals d => by
    obtain ⟨v, h, -⟩ := hm d; exact ⟨_, by simp [TQuery.toQuery, h]; rfl⟩
  | .idEquals id => ⟨_, rfl⟩
  | .idIn ids => ⟨_, rfl⟩
  | .statusEqual s => ⟨_, rfl⟩
  | .tagsAllOf tags => ⟨_, rfl⟩
  | .tagsOneOf tags => ⟨_, rfl⟩
  | .scheduledAtBefore t => ⟨_, rfl⟩
  | .scheduledAtAfter t => ⟨_, rfl⟩
  | .scheduledAtEqual t => ⟨_, rfl⟩
private theorem toQueries_some (cd : Codec D) (cm : Codec M) (hd : cd.Lossless) (hm : cm.Lossless) :
    (qs : List (TQuery D M)) → ∃ bqs, TQuery.toQueries cd cm qs = some bqs
  | [] => ⟨_, rfl⟩
  | q :: qs => by
    obtain ⟨a, ha⟩ := toQuery_some cd cm hd hm q
    obtain ⟨b, hb⟩ := toQueries_some cd cm hd hm qs
    exact ⟨a :: b, by simp [TQuery.toQueries, ha, hb]⟩
end

private theorem forExecutor_holds (x : String) (q : Query) (j : Job) :
    (q.forExecutor x).Holds j ↔ j.executor = x ∧ q.Holds j := by
  unfold Query.forExecutor
  split
  · simp only [Query.Holds, List.mem_append, List.mem_singleton]
    constructor
    · intro h; exact ⟨by simpa [Query.Holds] using h _ (Or.inr rfl), fun q hq => h q (Or.inl hq)⟩
    · rintro ⟨h1, h2⟩ q (hq | rfl)
      · exact h2 q hq
      · simpa [Query.Holds] using h1
  · simp [Query.Holds]

theorem decodeAll_ok {cd : Codec D} {cm : Codec M} {js : List Job} {ts : List (TJob D M)} :
    decodeAll cd cm js = .ok ts ↔ js.map (decodeJob cd cm) = ts.map .ok := by
  induction js generalizing ts with
  | nil => cases ts <;> simp [decodeAll]
  | cons j js ih =>
    simp only [decodeAll, List.map_cons]
    cases hj : decodeJob cd cm j with
    | err => cases ts <;> simp
    | panic => cases ts <;> simp
    | ok t =>
      cases ts with
      | nil => cases decodeAll cd cm js <;> simp
      | cons t' ts =>
        simp only [List.map_cons, List.cons.injEq, Outcome.ok.injEq]
        rw [← ih]
        cases decodeAll cd cm js <;> simp

open scoped Classical in
/-- **C19.** `query_jobs` of an executor, for any `Where` query (of any size and
nesting) over values that serialise: it returns a list exactly if that is, in order, what
the stored jobs that belong to the executor and satisfy the query are decoded to, one by
one and none left out. -/
theorem C19_query_jobs (cd : Codec D) (cm : Codec M) (hd : cd.Lossless) (hm : cm.Lossless)
    (x : String) (q : TQuery D M) (m : Mem) (ts : List (TJob D M)) :
    queryJobs cd cm x q m = .ok ts ↔
      ((m.jobs.map (·.job)).filter fun j => decide (j.executor = x ∧ q.Holds cd cm j)).map (decodeJob cd cm) =
        ts.map .ok := by
  obtain ⟨bq, hq⟩ := toQuery_some cd cm hd hm q
  unfold queryJobs
  rw [hq]
  simp only
  have := C18_query_exact 0 m (bq.forExecutor x)
  simp only [Mem.step, Prod.mk.injEq, Res.jobs.injEq, and_true] at this
  rw [this, decodeAll_ok]
  have hf : (m.jobs.map (·.job)).filter (fun j => decide ((bq.forExecutor x).Holds j)) =
      (m.jobs.map (·.job)).filter fun j => decide (j.executor = x ∧ q.Holds cd cm j) := by
    apply List.filter_congr
    intro j _
    rw [decide_eq_decide, forExecutor_holds, toQuery_holds cd cm j q bq hq]
  rw [hf]

open scoped Classical in
/-- `query_jobs` decodes the jobs that belong to the executor and satisfy the query, in order. -/
theorem queryJobs_eq (cd : Codec D) (cm : Codec M) (hd : cd.Lossless) (hm : cm.Lossless)
    (x : String) (q : TQuery D M) (m : Mem) :
    queryJobs cd cm x q m =
      decodeAll cd cm ((m.jobs.map (·.job)).filter fun j => decide (j.executor = x ∧ q.Holds cd cm j)) := by
  obtain ⟨bq, hq⟩ := toQuery_some cd cm hd hm q
  unfold queryJobs
  rw [hq]
  simp only
  have := C18_query_exact 0 m (bq.forExecutor x)
  simp only [Mem.step, Prod.mk.injEq, Res.jobs.injEq, and_true] at this
  rw [this]
  congr 1
  apply List.filter_congr
  intro j _
  rw [decide_eq_decide, forExecutor_holds, toQuery_holds cd cm j q bq hq]

/-- The serde implementation of `String`. -/
def stringCodec : Codec String where
  enc s := some (.str s)
  dec | .str s => some s
      | _ => none

theorem stringCodec_lossless : stringCodec.Lossless := fun a => ⟨.str a, rfl, rfl⟩

/-- The serde implementation of `()`. -/
def unitCodec : Codec Unit where
  enc _ := some .null
  dec | .null => some ()
      | _ => none

theorem unitCodec_lossless : unitCodec.Lossless := fun _ => ⟨.null, rfl, rfl⟩

/-- A query that tries to escape from the executor `mail` with a trailing `or`. -/
example : (match queryJobs stringCodec unitCodec "mail"
      (Where.or (.statusEqual .complete) (Where.not (.idEquals 0)))
      (storeOf [sampleJob 0, sampleJob 1, { sampleJob 2 with executor := "sms" },
        { sampleJob 3 with status := .complete, executor := "sms" }]) with
    | .ok ts => ts.map (·.id)
    | _ => []) = [1] := by decide

end Rexecutor
