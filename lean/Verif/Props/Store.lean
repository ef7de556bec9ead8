import Verif.Lemmas.Life
import Verif.Model.Typed
import Verif.Spec.Samples
import Verif.Spec.Store
import Verif.Spec.Prune

/-! # C13, C15, C16, C17, C52 (in-memory): rerun, prune, update -/

namespace Rexecutor

/-! ## C13 -/

/-- **C13.** Rerunning a stored job at time `now` succeeds and changes only that
job (the first with that id): `max_attempts` grows by one, the completed, cancelled
and discarded times are cleared, the schedule time is `now`, the status is a
waiting one, everything else is kept. So it can be handed out to its executor at
any time from `now` on, and if the attempts did not exceed `max_attempts` before,
the next attempt does not exceed the new `max_attempts`. -/
theorem C13_rerun (now : Time) (m : Mem) (id : Int) (h : ∃ k ∈ m.jobs, k.job.id = id) :
    ∃ (i : Nat) (k : KeyedJob) (s : JobStatus),
      m.jobs[i]? = some k ∧ k.job.id = id ∧
      (m.step now (.rerun id)).1 = .unit ∧
      (m.step now (.rerun id)).2.jobs = m.jobs.set i { k with job :=
        { k.job with maxAttempts := k.job.maxAttempts + 1, scheduledAt := now, status := s,
                     completedAt := none, cancelledAt := none, discardedAt := none } } ∧
      ∃ k', (m.step now (.rerun id)).2.jobs[i]? = some k' ∧
        (∀ t, now ≤ t → Eligible t k.job.executor k'.job) ∧
        (k.job.attempt ≤ k.job.maxAttempts → k'.job.attempt + 1 ≤ k'.job.maxAttempts) := by
  rcases onJob_cases id (Job.markRerunable now) true m with ⟨hne, -⟩ | ⟨l, k, r, h1, h2, h3, h4, h5, h6⟩
  · obtain ⟨k, hk, hi⟩ := h; exact absurd hi (hne k hk)
  · refine ⟨l.length, k, if k.job.attempt = 1 then .scheduled else .retryable, by rw [h1]; simp, h3, h4, ?_, ?_⟩
    · simp only [Mem.step, Mem.rerun]
      rw [h5, h1]; simp [Job.markRerunable]
    · refine ⟨{ k with job := k.job.markRerunable now }, ?_, ?_, ?_⟩
      · simp only [Mem.step, Mem.rerun]; rw [h5]; simp
      · intro t ht
        refine ⟨rfl, ?_, ?_⟩
        · simp only [Job.markRerunable]; split <;> simp
        · simp only [Job.markRerunable, Time] at *; omega
      · simp only [Job.markRerunable]; intro h; omega

example : ((storeOf [{ sampleJob 3 with status := .discarded, attempt := 2, discardedAt := some 4 }]).step 9
      (.rerun 3)).2.jobs.map (·.job)
    = [{ sampleJob 3 with status := .retryable, attempt := 2, maxAttempts := 3, scheduledAt := 9 }] := by
  decide

/-- **C13, limit.** If `max_attempts` is already 65535, then after a rerun the job
can no longer be read as a typed job: whatever is handed out never reaches
`execute`. -/
theorem C13_rerun_at_limit (now : Time) (j : Job) (h : j.maxAttempts = 65535) (cd : Codec D) (cm : Codec M)
    (t : Time) : ∀ x, decodeJob cd cm ((j.markRerunable now).markExecuting t) ≠ .ok x := by
  intro x hx
  have hu : toU16? ((j.markRerunable now).markExecuting t).maxAttempts = none := by
    simp only [Job.markExecuting, Job.markRerunable, h]; rfl
  unfold decodeJob at hx
  rw [hu] at hx
  split at hx
  · simp at hx
  · split at hx
    · simp at hx
    · split at hx <;> simp_all

/-! ## C15 -/

theorem spec_matches {s : PruneSpec} {j : Job} : s.matches j = true ↔ s.Selects j := by
  unfold PruneSpec.matches PruneSpec.Selects ExecSpec.matches
  cases s.executors with
  | except es =>
    simp only [Bool.and_eq_true, beq_iff_eq, List.all_eq_true, bne_iff_ne, ne_eq]
    refine and_congr_right fun _ => ⟨fun h hm => h _ hm rfl, fun h x hx he => h (he ▸ hx)⟩
  | only es =>
    simp only [Bool.and_eq_true, beq_iff_eq, List.any_eq_true]
    refine and_congr_right fun _ => ⟨fun ⟨x, hx, he⟩ => he ▸ hx, fun h => ⟨_, h, rfl⟩⟩

private theorem retain_unselected (spec : PruneSpec) (n c : Nat) (ks : List KeyedJob) :
    (Mem.retainLength spec n c ks).filter (fun k => !spec.matches k.job)
      = ks.filter (fun k => !spec.matches k.job) := by
  induction ks generalizing c with
  | nil => rfl
  | cons k ks ih =>
    simp only [Mem.retainLength]
    split
    · rename_i h
      split
      · simp [h, ih]
      · simp [h, ih]
    · rename_i h
      simp [h, ih]

/-- **C15.** For every store and prune specification: the jobs after a prune are a
sub-list of the jobs before (nothing is added, changed or reordered), and the jobs
the specification does not select all survive. -/
theorem C15_prune_frame (now : Time) (spec : PruneSpec) (m : Mem) :
    (m.step now (.prune spec)).1 = .unit ∧
    (m.step now (.prune spec)).2.jobs.Sublist m.jobs ∧
    (m.step now (.prune spec)).2.jobs.filter (fun k => ¬ spec.Selects k.job)
      = m.jobs.filter (fun k => ¬ spec.Selects k.job) ∧
    (m.step now (.prune spec)).2.allocated = m.allocated ∧
    (m.step now (.prune spec)).2.subs = m.subs := by
  refine ⟨rfl, prune_sublist now spec m, ?_, prune_allocated now spec m, prune_subs now spec m⟩
  have hf : (fun k : KeyedJob => decide (¬ spec.Selects k.job)) = fun k => !spec.matches k.job := by
    funext k
    have := @spec_matches spec k.job
    cases h : spec.matches k.job <;> simp_all
  rw [hf]
  simp only [Mem.step, Mem.prune]
  split
  · simp only [List.filter_filter]
    congr 1
    funext k
    cases spec.matches k.job <;> simp
  · exact retain_unselected _ _ _ _

example : ((storeOf [{ sampleJob 1 with status := .complete }, sampleJob 2,
      { sampleJob 3 with status := .complete, executor := "sms" }]).step 100
      (.prune { status := .complete, pruneBy := .maxAge 10, executors := .except ["sms"] })).2.jobs.map
      (fun k => k.job.id) = [2, 3] := by decide

/-! ## C16 -/

/-- **C16, when no selected job is scheduled `age` or more in the future.** Then a
max-age prune keeps exactly the jobs that are not selected or that were scheduled
less than `age` before now. -/
theorem C16_max_age_partial (now : Time) (spec : PruneSpec) (age : Delta) (m : Mem)
    (hs : spec.pruneBy = .maxAge age)
    (hf : ∀ k ∈ m.jobs, spec.Selects k.job → k.job.scheduledAt < now + age) :
    (m.step now (.prune spec)).2.jobs
      = m.jobs.filter fun k => ¬ (spec.Selects k.job ∧ k.job.scheduledAt ≤ now - age) := by
  simp only [Mem.step, Mem.prune, hs]
  refine List.filter_congr ?_
  intro k hk
  have h1 := @spec_matches spec k.job
  have h2 := hf k hk
  by_cases hsel : spec.Selects k.job
  · have h3 := h2 hsel
    rw [h1.mpr hsel]
    simp only [Time, Delta] at *
    simp only [hsel, true_and, Bool.not_true, Bool.false_or]
    rw [← Bool.decide_and, decide_eq_decide]
    omega
  · have : spec.matches k.job = false := by
      cases hm : spec.matches k.job with
      | false => rfl
      | true => exact absurd (h1.mp hm) hsel
    simp [this, hsel]

/-- The hypothesis of `C16_max_age_partial` is met by finished jobs, which are in the
past. -/
example : ((storeOf [{ sampleJob 1 with status := .complete, scheduledAt := 80 },
      { sampleJob 2 with status := .complete, scheduledAt := 90 },
      { sampleJob 3 with status := .complete, scheduledAt := 91 }]).step 100
      (.prune { status := .complete, pruneBy := .maxAge 10, executors := .except [] })).2.jobs.map
      (fun k => k.job.id) = [3] := by decide

/-- **C16 fails in general.** A job scheduled two hours from now is removed by a
prune of jobs older than one hour. -/
theorem C16_violated :
    ¬ ∀ (now : Time) (spec : PruneSpec) (age : Delta) (m : Mem) (k : KeyedJob), 0 ≤ age →
      spec.pruneBy = .maxAge age → k ∈ m.jobs →
      (k ∉ (m.step now (.prune spec)).2.jobs ↔ spec.Selects k.job ∧ k.job.scheduledAt ≤ now - age) := by
  intro h
  have := h 0 { status := .scheduled, pruneBy := .maxAge 3600, executors := .except [] } 3600
    (storeOf [{ sampleJob 1 with scheduledAt := 7200 }])
    { job := { sampleJob 1 with scheduledAt := 7200 }, key := none } (by decide) rfl (by decide)
  revert this
  decide

/-- **C16, what a max-age prune does.** Whatever is stored: it removes exactly the selected
jobs whose scheduled time is at least `age` away from now, in the past or in the future. -/
theorem C16_exactly (now : Time) (spec : PruneSpec) (age : Delta) (m : Mem) (hs : spec.pruneBy = .maxAge age) :
    (m.step now (.prune spec)).2.jobs
      = m.jobs.filter fun k => ¬ (spec.Selects k.job ∧
          (k.job.scheduledAt ≤ now - age ∨ now + age ≤ k.job.scheduledAt)) := by
  simp only [Mem.step, Mem.prune, hs]
  refine List.filter_congr ?_
  intro k hk
  have h1 := @spec_matches spec k.job
  by_cases hsel : spec.Selects k.job
  · rw [h1.mpr hsel]
    simp only [Time, Delta] at *
    simp only [hsel, true_and, Bool.not_true, Bool.false_or]
    rw [← Bool.decide_and, decide_eq_decide]
    omega
  · have : spec.matches k.job = false := by
      cases hm : spec.matches k.job with
      | false => rfl
      | true => exact absurd (h1.mp hm) hsel
    simp [this, hsel]

/-! ## C17 -/

private theorem retain_spec (spec : PruneSpec) (n c : Nat) (ks : List KeyedJob) :
    (Mem.retainLength spec n c ks).filter (fun k => spec.matches k.job)
      = (ks.filter (fun k => spec.matches k.job)).drop (n - c) := by
  induction ks generalizing c with
  | nil => simp [Mem.retainLength]
  | cons k ks ih =>
    simp only [Mem.retainLength]
    split
    · rename_i h
      split
      · simp only [h, List.filter_cons_of_pos, ih]
        rw [show n - c = 0 by omega, show n - (c + 1) = 0 by omega]; simp
      · simp only [h, List.filter_cons_of_pos, ih]
        rw [show n - c = (n - (c + 1)) + 1 by omega]; simp
    · rename_i h
      simp [h, ih]

/-- **C17, what holds.** A max-length prune with limit `n` removes selected jobs
from the front: the selected jobs that survive are the selected jobs without the
first `n` of them (so a removed job was always inserted before a surviving one).
That is the wrong number: it removes `n` jobs instead of keeping `n`. -/
theorem C17_max_length_partial (now : Time) (spec : PruneSpec) (n : Nat) (m : Mem)
    (hs : spec.pruneBy = .maxLength n) :
    (m.step now (.prune spec)).2.jobs.filter (fun k => spec.Selects k.job)
      = (m.jobs.filter fun k => spec.Selects k.job).drop n := by
  have hf : (fun k : KeyedJob => decide (spec.Selects k.job)) = fun k => spec.matches k.job := by
    funext k
    have := @spec_matches spec k.job
    cases h : spec.matches k.job <;> simp_all
  rw [hf]
  simp only [Mem.step, Mem.prune, hs]
  exact retain_spec _ _ _ _

/-- So at most the allowed number of jobs remains only if there were at most twice
as many to begin with. -/
theorem C17_remaining (now : Time) (spec : PruneSpec) (n : Nat) (m : Mem)
    (hs : spec.pruneBy = .maxLength n) :
    ((m.step now (.prune spec)).2.jobs.filter fun k => spec.Selects k.job).length ≤ n ↔
      (m.jobs.filter fun k => spec.Selects k.job).length ≤ 2 * n := by
  rw [C17_max_length_partial now spec n m hs, List.length_drop]; omega

/-- **C17 fails.** Three complete jobs, limit 1: two remain; one complete job, limit
1: none remains. -/
theorem C17_violated :
    (∃ (now : Time) (spec : PruneSpec) (m : Mem), spec.pruneBy = .maxLength 1 ∧
      ((m.step now (.prune spec)).2.jobs.filter fun k => spec.Selects k.job).length = 2) ∧
    (∃ (now : Time) (spec : PruneSpec) (m : Mem), spec.pruneBy = .maxLength 1 ∧
      (m.jobs.filter fun k => spec.Selects k.job).length = 1 ∧
      ((m.step now (.prune spec)).2.jobs.filter fun k => spec.Selects k.job).length = 0) := by
  refine ⟨⟨0, { status := .scheduled, pruneBy := .maxLength 1, executors := .except [] },
    storeOf [sampleJob 1, sampleJob 2, sampleJob 3], rfl, by decide⟩,
    ⟨0, { status := .scheduled, pruneBy := .maxLength 1, executors := .except [] },
    storeOf [sampleJob 1], rfl, by decide, by decide⟩⟩

/-! ## C52, in-memory -/

/-- **C52, in-memory.** After a successful `update_job` the (first) stored job with
that id is the given one, at its old position and with its old uniqueness key, and
no other position changes. -/
theorem C52_update_memory (now : Time) (m : Mem) (job : Job) (h : ∃ k ∈ m.jobs, k.job.id = job.id) :
    ∃ (i : Nat) (k : KeyedJob), m.jobs[i]? = some k ∧ k.job.id = job.id ∧
      (m.step now (.update job)).1 = .unit ∧
      (m.step now (.update job)).2.jobs = m.jobs.set i { k with job := job } := by
  rcases onJob_cases job.id (fun _ => job) true m with ⟨hne, -⟩ | ⟨l, k, r, h1, h2, h3, h4, h5, h6⟩
  · obtain ⟨k, hk, hi⟩ := h; exact absurd hi (hne k hk)
  · refine ⟨l.length, k, by rw [h1]; simp, h3, h4, ?_⟩
    simp only [Mem.step, Mem.update]
    rw [h5, h1]; simp

example : ((storeOf [sampleJob 1, sampleJob 2]).step 0
    (.update { sampleJob 2 with status := .cancelled, data := .num 4 })).2
    = storeOf [sampleJob 1, { sampleJob 2 with status := .cancelled, data := .num 4 }] := by decide

end Rexecutor
