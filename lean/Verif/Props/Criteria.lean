import Verif.Model.Criteria
import Verif.Lemmas.Api
import Verif.Spec.Samples

/-! # C56, C88: combining uniqueness criteria, in memory -/

namespace Rexecutor

/-- The new job with these criteria. -/
def EnqueuableJob.withCriteria (e : EnqueuableJob) (c : Criteria) : EnqueuableJob := { e with criteria := some c }

/-- **C56, what holds.** Adding `and_executor`, or a duration to criteria without one, only
narrows what counts as a duplicate: every stored job that is a duplicate under the
combined criteria is one under the original criteria and satisfies the added one. Missing:
`and_key`, see `C56_violated`. -/
theorem C56_narrows_partial (now : Time) (e : EnqueuableJob) (c : Criteria) (k : KeyedJob) :
    ((e.withCriteria c.andExecutor).matches now k = true ↔
      (e.withCriteria c).matches now k = true ∧ k.job.executor = e.executor) ∧
    (∀ d, c.duration = none → ((e.withCriteria (c.andWithin d)).matches now k = true ↔
      (e.withCriteria c).matches now k = true ∧ now - d < k.job.scheduledAt ∧ k.job.scheduledAt < now + d)) := by
  constructor
  · rw [matches_iff, matches_iff]
    simp only [EnqueuableJob.withCriteria, Option.some.injEq, exists_eq_left']
    constructor
    · rintro ⟨a, b, c', d⟩
      exact ⟨⟨a, fun _ => b rfl, c', d⟩, b rfl⟩
    · rintro ⟨⟨a, b, c', d⟩, h⟩
      exact ⟨a, fun _ => h, c', d⟩
  · intro dur hd
    rw [matches_iff, matches_iff]
    simp only [EnqueuableJob.withCriteria, Option.some.injEq, exists_eq_left']
    constructor
    · rintro ⟨a, b, c', d⟩
      refine ⟨⟨a, b, c', ?_⟩, d dur rfl⟩
      intro x hx; rw [hd] at hx; simp at hx
    · rintro ⟨⟨a, b, c', d⟩, h⟩
      refine ⟨a, b, c', ?_⟩
      intro x hx
      simp only [Criteria.andWithin, Option.some.injEq] at hx
      subst hx; exact h

/-- **C56 fails for keys.** Criteria without a key match only jobs stored without a key, so
adding `and_key` does not narrow them: the stored job with key 5 is no duplicate under
`by_executor()` but is one under `by_executor().and_key(5)`. Consequently a job enqueued
with a key does not stop a later enqueue "by executor" from inserting. -/
theorem C56_violated :
    ∃ k : KeyedJob, (sampleEnq.withCriteria Criteria.byExecutor).matches 0 k = false ∧
      (sampleEnq.withCriteria (Criteria.byExecutor.andKey 5)).matches 0 k = true :=
  ⟨{ job := sampleJob 1, key := some 5 }, by decide, by decide⟩

/-- **C56, exactly what `and_key` does.** It exchanges one demand on the stored job for another:
instead of having been stored without a key (or with the one named before), it must have been
stored with this key; the other demands stay. -/
theorem C56_key_exactly (now : Time) (e : EnqueuableJob) (c : Criteria) (h : Int) (k : KeyedJob) :
    (e.withCriteria (c.andKey h)).matches now k = true ↔
      k.key = some h ∧ (e.withCriteria c).matches now { k with key := c.key } = true := by
  rw [matches_iff, matches_iff]
  simp only [EnqueuableJob.withCriteria, Option.some.injEq, exists_eq_left']
  constructor
  · rintro ⟨a, b, c', d⟩
    exact ⟨a, rfl, b, c', d⟩
  · rintro ⟨h, -, b, c', d⟩
    exact ⟨h, b, c', d⟩

example : (sampleEnq.withCriteria (Criteria.byExecutor.andKey 5)).matches 0 { job := sampleJob 1, key := some 5 } = true := by
  decide

/-- On stored jobs and criteria the theorem is about something: a duplicate with both. -/
example : (sampleEnq.withCriteria ((Criteria.byStatuses [.scheduled]).andExecutor.andWithin 5)).matches 3
    { job := sampleJob 1, key := none } = true := by decide

/-- **C56, criteria built step by step.** Each builder call sets its own part and leaves the
others: the order of `and_executor`, `and_within`, `and_statuses`, `and_key` and
`on_conflict` does not matter. -/
theorem C56_order_irrelevant (c : Criteria) (d : Delta) (ss : List JobStatus) (h : Int) (r : Replace) :
    c.andExecutor.andWithin d = (c.andWithin d).andExecutor ∧
    c.andExecutor.andStatuses ss = (c.andStatuses ss).andExecutor ∧
    c.andExecutor.andKey h = (c.andKey h).andExecutor ∧
    (c.andWithin d).andStatuses ss = (c.andStatuses ss).andWithin d ∧
    (c.andWithin d).andKey h = (c.andKey h).andWithin d ∧
    (c.andStatuses ss).andKey h = (c.andKey h).andStatuses ss ∧
    (c.onConflictReplace r).andExecutor = c.andExecutor.onConflictReplace r ∧
    (c.onConflictReplace r).andWithin d = (c.andWithin d).onConflictReplace r ∧
    (c.onConflictReplace r).andStatuses ss = (c.andStatuses ss).onConflictReplace r ∧
    (c.onConflictReplace r).andKey h = (c.andKey h).onConflictReplace r :=
  ⟨rfl, rfl, rfl, rfl, rfl, rfl, rfl, rfl, rfl, rfl⟩

example : ((Criteria.byKey 5).andExecutor.andWithin sec).andStatuses [.retryable] =
    ((Criteria.byExecutor.andKey 5).andStatuses [.retryable]).andWithin sec := by decide

/-! ## C88 -/

/-- The statuses a call gives. -/
def ReplaceCall.statuses? : ReplaceCall → Option (List JobStatus)
  | .forStatuses ss => some ss
  | _ => none

/-- **C88, replacements.** After any chain of calls on any constructor, a field is replaced
exactly if it was named by the constructor or by one of the calls, and the statuses are
those of the last `for_statuses`, or Scheduled only. -/
theorem C88_replace (f : ReplaceField) (calls : List ReplaceCall) :
    let named g := g = f ∨ ReplaceCall.also g ∈ calls
    ((Replace.build f calls).scheduledAt = true ↔ named .scheduledAt) ∧
    ((Replace.build f calls).data = true ↔ named .data) ∧
    ((Replace.build f calls).metadata = true ↔ named .metadata) ∧
    ((Replace.build f calls).priority = true ↔ named .priority) ∧
    ((Replace.build f calls).maxAttempts = true ↔ named .maxAttempts) ∧
    (Replace.build f calls).forStatuses =
      ((calls.filterMap ReplaceCall.statuses?).getLast?.getD [.scheduled]) := by
  unfold Replace.build
  have key : ∀ (calls : List ReplaceCall) (r : Replace),
      ((calls.foldl Replace.apply r).scheduledAt = true ↔ r.scheduledAt = true ∨ ReplaceCall.also .scheduledAt ∈ calls) ∧
      ((calls.foldl Replace.apply r).data = true ↔ r.data = true ∨ ReplaceCall.also .data ∈ calls) ∧
      ((calls.foldl Replace.apply r).metadata = true ↔ r.metadata = true ∨ ReplaceCall.also .metadata ∈ calls) ∧
      ((calls.foldl Replace.apply r).priority = true ↔ r.priority = true ∨ ReplaceCall.also .priority ∈ calls) ∧
      ((calls.foldl Replace.apply r).maxAttempts = true ↔ r.maxAttempts = true ∨ ReplaceCall.also .maxAttempts ∈ calls) ∧
      (calls.foldl Replace.apply r).forStatuses = (calls.filterMap ReplaceCall.statuses?).getLast?.getD r.forStatuses := by
    intro calls
    induction calls with
    | nil => intro r; simp
    | cons c cs ih =>
      intro r
      obtain ⟨h1, h2, h3, h4, h5, h6⟩ := ih (r.apply c)
      rw [List.foldl_cons, h1, h2, h3, h4, h5, h6]
      cases c with
      | also g => cases g <;> simp [Replace.apply, Replace.also, ReplaceCall.statuses?]
      | forStatuses ss => simp [Replace.apply, Replace.setStatuses, ReplaceCall.statuses?, List.getLast?_cons]
  obtain ⟨h1, h2, h3, h4, h5, h6⟩ := key calls (Replace.only f)
  simp only
  rw [h1, h2, h3, h4, h5, h6]
  cases f <;> simp [Replace.only]

example : Replace.build .priority [.also .metadata, .forStatuses [.retryable], .forStatuses [.complete]] =
    { priority := true, metadata := true, forStatuses := [.complete] } := by decide

/-- What a call gives for the key, the duration, the statuses and the resolution. -/
def CriteriaCall.key? : CriteriaCall → Option Int
  | .andKey h => some h
  | _ => none
def CriteriaCall.duration? : CriteriaCall → Option Delta
  | .andWithin d => some d
  | _ => none
def CriteriaCall.statuses? : CriteriaCall → Option (List JobStatus)
  | .andStatuses ss => some ss
  | _ => none
def CriteriaCall.resolution? : CriteriaCall → Option Resolution
  | .onConflict r => some (.replace r)
  | .onConflictDoNothing => some .doNothing
  | _ => none

/-- The same for the constructors. -/
def CriteriaCtor.key? : CriteriaCtor → Option Int
  | .byKey h => some h
  | _ => none
def CriteriaCtor.duration? : CriteriaCtor → Option Delta
  | .within d => some d
  | _ => none
def CriteriaCtor.statuses? : CriteriaCtor → Option (List JobStatus)
  | .byStatuses ss => some ss
  | _ => none

/-- **C88, all statuses.** A replacement `for_statuses(&JobStatus::ALL)`, in memory, takes each
named field from the new job and leaves the others, whatever the status of the stored job. -/
theorem C88_all_statuses (f : ReplaceField) (calls : List ReplaceCall) (e : EnqueuableJob) (c : Criteria) (j : Job)
    (he : e.criteria = some c) (hc : c.onConflict = .replace (Replace.build f (calls ++ [.forStatuses JobStatus.all]))) :
    let named g := g = f ∨ ReplaceCall.also g ∈ calls
    (named .scheduledAt → (j.replace e).scheduledAt = e.scheduledAt) ∧ (¬ named .scheduledAt → (j.replace e).scheduledAt = j.scheduledAt) ∧
    (named .data → (j.replace e).data = e.data) ∧ (¬ named .data → (j.replace e).data = j.data) ∧
    (named .metadata → (j.replace e).metadata = e.metadata) ∧ (¬ named .metadata → (j.replace e).metadata = j.metadata) ∧
    (named .priority → (j.replace e).priority = e.priority) ∧ (¬ named .priority → (j.replace e).priority = j.priority) ∧
    (named .maxAttempts → (j.replace e).maxAttempts = e.maxAttempts) ∧ (¬ named .maxAttempts → (j.replace e).maxAttempts = j.maxAttempts) := by
  obtain ⟨h1, h2, h3, h4, h5, h6⟩ := C88_replace f (calls ++ [.forStatuses JobStatus.all])
  generalize Replace.build f (calls ++ [.forStatuses JobStatus.all]) = r at *
  have hall : r.forStatuses.contains j.status = true := by
    rw [h6]
    simp only [List.filterMap_append, List.filterMap_cons, ReplaceCall.statuses?, List.filterMap_nil, List.getLast?_append,
      List.getLast?_singleton, Option.some_or, Option.getD_some]
    cases j.status <;> rfl
  have hm : ∀ g, ReplaceCall.also g ∈ calls ++ [ReplaceCall.forStatuses JobStatus.all] ↔ ReplaceCall.also g ∈ calls := by
    intro g; simp
  simp only [hm] at h1 h2 h3 h4 h5
  obtain ⟨key, ex, du, st, oc⟩ := c
  subst hc
  simp only [Job.replace, he, hall, if_true]
  rw [← h1, ← h2, ← h3, ← h4, ← h5]
  cases r.scheduledAt <;> cases r.data <;> cases r.metadata <;> cases r.priority <;> cases r.maxAttempts <;> simp

example : (({ sampleJob 0 with status := .discarded, priority := 5 } : Job).replace
      (sampleEnq.withCriteria (Criteria.byExecutor.onConflictReplace (Replace.build .priority [.forStatuses JobStatus.all])))).priority = 0 ∧
    (({ sampleJob 0 with status := .discarded, priority := 5 } : Job).replace
      (sampleEnq.withCriteria (Criteria.byExecutor.onConflictReplace (Replace.build .priority [])))).priority = 5 := by decide

/-- **C88, criteria.** After any chain of calls on any constructor: criteria look at the
executor exactly if the constructor or a call says so; key, duration and resolution are those
of the last call giving one, else of the constructor, else there is none (do nothing); the
statuses are those of the last call, else of the constructor, else Scheduled only. -/
theorem C88_criteria (c : CriteriaCtor) (calls : List CriteriaCall) :
    ((c.build calls).executor = true ↔ c = .byExecutor ∨ CriteriaCall.andExecutor ∈ calls) ∧
    (c.build calls).key = (calls.filterMap CriteriaCall.key?).getLast?.or c.key? ∧
    (c.build calls).duration = (calls.filterMap CriteriaCall.duration?).getLast?.or c.duration? ∧
    (c.build calls).statuses =
      ((calls.filterMap CriteriaCall.statuses?).getLast?.or c.statuses?).getD [.scheduled] ∧
    (c.build calls).onConflict = (calls.filterMap CriteriaCall.resolution?).getLast?.getD .doNothing := by
  have hor : ∀ {α : Type} (a : α) (l : List α) (o : Option α), (a :: l).getLast?.or o = l.getLast?.or (some a) := by
    intro α a l o
    rw [List.getLast?_cons]; cases l.getLast? <;> rfl
  have hget : ∀ {α : Type} (a : α) (l : List α) (d : α), (a :: l).getLast?.getD d = l.getLast?.getD a := by
    intro α a l d
    rw [List.getLast?_cons]; rfl
  have key : ∀ (calls : List CriteriaCall) (c : Criteria),
      ((calls.foldl Criteria.apply c).executor = true ↔ c.executor = true ∨ CriteriaCall.andExecutor ∈ calls) ∧
      (calls.foldl Criteria.apply c).key = (calls.filterMap CriteriaCall.key?).getLast?.or c.key ∧
      (calls.foldl Criteria.apply c).duration = (calls.filterMap CriteriaCall.duration?).getLast?.or c.duration ∧
      (calls.foldl Criteria.apply c).statuses = (calls.filterMap CriteriaCall.statuses?).getLast?.getD c.statuses ∧
      (calls.foldl Criteria.apply c).onConflict = (calls.filterMap CriteriaCall.resolution?).getLast?.getD c.onConflict := by
    intro calls
    induction calls with
    | nil => intro c; simp
    | cons x xs ih =>
      intro c
      obtain ⟨h1, h2, h3, h4, h5⟩ := ih (c.apply x)
      rw [List.foldl_cons, h1, h2, h3, h4, h5]
      cases x <;> simp [Criteria.apply, Criteria.andExecutor, Criteria.andWithin, Criteria.andStatuses, Criteria.andKey,
        Criteria.onConflictReplace, Criteria.onConflictDoNothing, CriteriaCall.key?, CriteriaCall.duration?,
        CriteriaCall.statuses?, CriteriaCall.resolution?, hor, hget]
  obtain ⟨h1, h2, h3, h4, h5⟩ := key calls c.criteria
  unfold CriteriaCtor.build
  rw [h1, h2, h3, h4, h5]
  have hs : ∀ (o : Option (List JobStatus)) (a : Option (List JobStatus)) d, (o.or a).getD d = o.getD (a.getD d) := by
    intro o a d; cases o <;> rfl
  rw [hs]
  cases c <;> simp [CriteriaCtor.criteria, Criteria.byExecutor, Criteria.within, Criteria.byStatuses, Criteria.byKey,
    CriteriaCtor.key?, CriteriaCtor.duration?, CriteriaCtor.statuses?]

example : (CriteriaCtor.within sec).build [.andKey 5, .onConflict (Replace.build .data []), .andKey 7, .andExecutor] =
    { key := some 7, executor := true, duration := some sec, statuses := [.scheduled],
      onConflict := .replace { data := true, forStatuses := [.scheduled] } } := by decide

end Rexecutor
