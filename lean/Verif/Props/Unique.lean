import Verif.Lemmas.Api
import Verif.Spec.Samples

/-! # C20 – C25: uniqueness on the in-memory backend -/

namespace Rexecutor

/-- The criteria of the examples: by executor, within a day, replace priority and
data of waiting jobs. -/
def replacing : EnqueuableJob :=
  { sampleEnq with
    data := .str "new"
    priority := 9
    criteria := some { key := none, executor := true, duration := some 86400, statuses := [.scheduled, .complete],
                       onConflict := .replace { data := true, priority := true, forStatuses := [.scheduled] } } }

/-! ## C20 -/

theorem storedAs_intoJob (now : Time) (e : EnqueuableJob) (id : Int) :
    StoredAs now e id (e.intoJob now id) := by
  unfold StoredAs EnqueuableJob.intoJob
  cases e.criteria <;> simp

/-- **C20.** For every store with distinct ids and every criteria, without a
concurrent call: if no stored job is a duplicate, a new job is appended and its id
returned; if one is, the id of a stored duplicate is returned, the number of jobs
and all their ids stay the same and no id is taken. (The window is around the
current time: see C25.) -/
theorem C20_unique_enqueue (now : Time) (e : EnqueuableJob) (m : Mem) (uc : Criteria)
    (hc : e.criteria = some uc) (hn : (m.jobs.map fun k => k.job.id).Nodup) :
    ((∀ k ∈ m.jobs, ¬ Duplicate now e uc k) →
      ∃ id k', (m.enqueue now e).1 = .id id ∧ (m.enqueue now e).2.jobs = m.jobs ++ [k'] ∧
        StoredAs now e id k') ∧
    ((∃ k ∈ m.jobs, Duplicate now e uc k) →
      ∃ k ∈ m.jobs, Duplicate now e uc k ∧ (m.enqueue now e).1 = .id k.job.id ∧
        (m.enqueue now e).2.jobs.map (fun k => k.job.id) = m.jobs.map (fun k => k.job.id) ∧
        (m.enqueue now e).2.allocated = m.allocated) := by
  rcases enqueue_cases now e m uc hc with ⟨h1, h2, h3, h4⟩ | ⟨l, k, r, h1, h2, h3, h4, h5⟩
  · refine ⟨fun _ => ⟨_, _, h2, h3, storedAs_intoJob now e _⟩, ?_⟩
    · rintro ⟨k, hk, hd⟩; exact absurd hd (h1 k hk)
  · refine ⟨fun h => absurd h3 (h k (by rw [h1]; simp)), fun _ => ⟨k, by rw [h1]; simp, h3, h4, ?_⟩⟩
    have := update_replace (e := e) hn h1
    rw [h5]
    refine ⟨?_, this.2⟩
    rw [this.1, h1]; simp

example : ((storeOf [sampleJob 3]).enqueue 5 replacing).1 = .id 3 ∧
    ((storeOf [{ sampleJob 3 with status := .executing }]).enqueue 5 replacing).1 = .id 0 := by decide

/-- The calls allowed in the history of `C20_at_most_one` (everything except snooze,
rerun and update): enqueues of executor `x` use by-executor criteria without window
that look at Scheduled jobs, with key `key`; other enqueues are arbitrary. -/
def UniqueEnqueues (x : String) (key : Option Int) : Api → Prop
  | .enqueue e => e.executor = x → ∃ uc, e.criteria = some uc ∧ uc.executor = true ∧ uc.key = key ∧
      uc.duration = none ∧ .scheduled ∈ uc.statuses
  | .op (.snoozed _ _) => False
  | .op (.rerun _) => False
  | .op (.update _) => False
  | .op _ => True

private def isOne (x : String) (key : Option Int) (k : KeyedJob) : Bool :=
  k.job.executor == x && k.job.status == .scheduled && k.key == key

private theorem onJob_count {x : String} {key : Option Int} {id : Int} {f : Job → Job} {w : Bool} {m : Mem}
    (hf : ∀ j, (f j).status ≠ .scheduled) :
    (m.onJob id f w).2.jobs.countP (isOne x key) ≤ m.jobs.countP (isOne x key) := by
  rcases onJob_cases id f w m with ⟨-, he⟩ | ⟨l, k, r, h1, -, -, -, h5, -⟩
  · rw [he]; exact Nat.le_refl _
  · rw [h5, h1]
    have : isOne x key { k with job := f k.job } = false := by simp [isOne, hf]
    simp only [List.countP_append, List.countP_cons, this]
    simp

private theorem op_count {x : String} {key : Option Int} (now : Time) (m : Mem) (o : Op)
    (h : UniqueEnqueues x key (.op o)) :
    (m.step now o).2.jobs.countP (isOne x key) ≤ m.jobs.countP (isOne x key) := by
  cases o with
  | complete id => exact onJob_count (by intro j; simp [Job.markComplete])
  | retryable id t e => exact onJob_count (by intro j; simp [Job.markRetryable])
  | discarded id e => exact onJob_count (by intro j; simp [Job.markDiscarded])
  | cancelled id e => exact onJob_count (by intro j; simp [Job.markCancelled])
  | snoozed id t => exact h.elim
  | rerun id => exact h.elim
  | update job => exact h.elim
  | prune spec => exact (prune_sublist now spec m).countP_le
  | query q => exact Nat.le_refl _
  | subscribe y => exact Nat.le_refl _
  | notifyAll => exact Nat.le_refl _
  | load y =>
    rcases load_cases now y m with ⟨-, he⟩ | ⟨l, k, r, h1, -, -, -, h5⟩
    · simp only [Mem.step]; rw [he]; exact Nat.le_refl _
    · simp only [Mem.step]
      rw [h5, h1]
      have : isOne x key { k with job := k.job.markExecuting now } = false := by
        simp [isOne, Job.markExecuting]
      simp only [List.countP_append, List.countP_cons, this]
      simp

/-- **C20, histories.** In every sequential history of at most 2^32 calls, in which
every enqueue for executor `x` uses such criteria and nobody snoozes, reruns or
updates: at most one stored job of `x` with that key is Scheduled. -/
theorem C20_at_most_one (paused : Bool) (x : String) (key : Option Int) (cs : List TApi)
    (hl : cs.length ≤ 2 ^ 32) (hcs : ∀ c ∈ cs, UniqueEnqueues x key c.call) :
    (((Mem.init paused).runApi cs).jobs.filter fun k =>
      k.job.executor = x ∧ k.job.status = .scheduled ∧ k.key = key).length ≤ 1 := by
  have hf : (fun k : KeyedJob => decide (k.job.executor = x ∧ k.job.status = .scheduled ∧ k.key = key))
      = isOne x key := by
    funext k; unfold isOne
    by_cases h1 : k.job.executor = x <;> by_cases h2 : k.job.status = .scheduled <;>
      by_cases h3 : k.key = key <;> simp [h1, h2, h3]
  rw [hf, ← List.countP_eq_length_filter]
  revert hl hcs
  refine snocInduction (P := fun cs => cs.length ≤ 2 ^ 32 → (∀ c ∈ cs, UniqueEnqueues x key c.call) →
    ((Mem.init paused).runApi cs).jobs.countP (isOne x key) ≤ 1) ?_ ?_ cs
  · intro _ _; simp [Mem.runApi, Mem.init]
  · intro cs c ih hl hcs
    simp only [List.length_append, List.length_singleton] at hl
    have hle := ih (by omega) (fun c hc => hcs c (by simp [hc]))
    have hn := runApi_nodup paused cs (by omega)
    rw [runApi_append]
    generalize (Mem.init paused).runApi cs = m at *
    have hc := hcs c (by simp)
    obtain ⟨now, call⟩ := c
    simp only [Mem.runApi]
    cases call with
    | op o => exact Nat.le_trans (op_count now m o hc) hle
    | enqueue e =>
      simp only [Mem.api, UniqueEnqueues] at hc ⊢
      cases hcr : e.criteria with
      | none =>
        have hx : e.executor ≠ x := by
          intro hx; obtain ⟨uc, h, -⟩ := hc hx; rw [hcr] at h; simp at h
        simp only [Mem.enqueue, hcr, Mem.insertNew, notify_jobs, List.countP_append]
        have : isOne x key (e.intoJob now (wrapI32 m.allocated)) = false := by
          simp [isOne, EnqueuableJob.intoJob, hx]
        simp [this, hle]
      | some uc =>
        rcases enqueue_cases now e m uc hcr with ⟨h1, h2, h3, h4⟩ | ⟨l, k, r, h1, h2, h3, h4, h5⟩
        · rw [h3, List.countP_append]
          by_cases hx : e.executor = x
          · obtain ⟨uc', g1, g2, g3, g4, g5⟩ := hc hx
            rw [hcr, Option.some.injEq] at g1
            subst g1
            have : m.jobs.countP (isOne x key) = 0 := by
              rw [List.countP_eq_zero]
              intro k hk hone
              simp only [isOne, Bool.and_eq_true, beq_iff_eq] at hone
              refine h1 k hk ⟨by rw [hone.2, g3], fun _ => by rw [hone.1.1, hx], by rw [hone.1.2]; exact g5, ?_⟩
              intro d hd; rw [g4] at hd; simp at hd
            rw [this]
            simp only [List.countP_cons, List.countP_nil]
            split <;> omega
          · have : isOne x key (e.intoJob now (wrapI32 m.allocated)) = false := by
              simp [isOne, EnqueuableJob.intoJob, hx]
            simp [this, hle]
        · rw [h5, (update_replace (e := e) hn h1).1]
          rw [h1] at hle
          have hs := replace_same e k.job
          have : isOne x key { k with job := k.job.replace e } = isOne x key k := by
            simp [isOne, hs.1, hs.2.1]
          simpa only [List.countP_append, List.countP_cons, this] using hle

example : (((Mem.init).runApi [⟨0, .enqueue sampleUnique⟩, ⟨1, .enqueue sampleUnique⟩,
      ⟨2, .op (.load "mail")⟩, ⟨3, .enqueue sampleUnique⟩, ⟨4, .enqueue sampleUnique⟩]).jobs.map
      fun k => (k.job.id, k.job.status)) = [(0, .executing), (1, .scheduled)] := by decide

/-- Snoozing is left out of `C20_at_most_one` for a reason: the snooze of a first
attempt makes a job Scheduled again next to one enqueued meanwhile. -/
theorem C20_snooze_makes_two :
    (((Mem.init).runApi [⟨0, .enqueue sampleUnique⟩, ⟨2, .op (.load "mail")⟩, ⟨3, .enqueue sampleUnique⟩,
      ⟨4, .op (.snoozed 0 9)⟩]).jobs.map fun k => (k.job.id, k.job.status))
      = [(0, .scheduled), (1, .scheduled)] := by decide

/-! ## C21 -/

/-- **C21.** For every store with distinct ids: an enqueue whose criteria say "do
nothing" and which finds a duplicate changes no stored job and takes no id. -/
theorem C21_do_nothing (now : Time) (e : EnqueuableJob) (m : Mem) (uc : Criteria)
    (hc : e.criteria = some uc) (hr : uc.onConflict = .doNothing)
    (hn : (m.jobs.map fun k => k.job.id).Nodup)
    (hd : ∃ k ∈ m.jobs, Duplicate now e uc k) :
    (m.enqueue now e).2.jobs = m.jobs ∧ (m.enqueue now e).2.allocated = m.allocated := by
  rcases enqueue_cases now e m uc hc with ⟨h1, -⟩ | ⟨l, k, r, h1, h2, h3, h4, h5⟩
  · obtain ⟨k, hk, hd⟩ := hd; exact absurd hd (h1 k hk)
  · have := update_replace (e := e) hn h1
    rw [h5]
    refine ⟨?_, this.2⟩
    rw [this.1, h1]
    rcases replace_cases e k.job with ⟨uc', r', g1, g2, -⟩ | ⟨-, g⟩
    · rw [hc, Option.some.injEq] at g1; subst g1; rw [hr] at g2; simp at g2
    · rw [g]

example : ((storeOf [sampleJob 3]).enqueue 5 sampleUnique) = (.id 3, storeOf [sampleJob 3]) := by decide

/-! ## C22 -/

/-- **C22.** For every store with distinct ids: an enqueue with a replace resolution
that finds a duplicate changes only the first duplicate; there exactly the flagged
fields take the new job's values if the job's status is among `for_statuses`, and
nothing otherwise. -/
theorem C22_replace (now : Time) (e : EnqueuableJob) (m : Mem) (uc : Criteria) (r : Replace)
    (hc : e.criteria = some uc) (hr : uc.onConflict = .replace r)
    (hn : (m.jobs.map fun k => k.job.id).Nodup)
    (hd : ∃ k ∈ m.jobs, Duplicate now e uc k) :
    ∃ (i : Nat) (k : KeyedJob) (j' : Job), m.jobs[i]? = some k ∧ Duplicate now e uc k ∧
      (∀ i' k', i' < i → m.jobs[i']? = some k' → ¬ Duplicate now e uc k') ∧
      (m.enqueue now e).2.jobs = m.jobs.set i { k with job := j' } ∧
      (k.job.status ∈ r.forStatuses → ReplacedBy r e k.job j') ∧
      (k.job.status ∉ r.forStatuses → j' = k.job) := by
  rcases enqueue_cases now e m uc hc with ⟨h1, -⟩ | ⟨l, k, r', h1, h2, h3, h4, h5⟩
  · obtain ⟨k, hk, hd⟩ := hd; exact absurd hd (h1 k hk)
  · refine ⟨l.length, k, k.job.replace e, by rw [h1]; simp, h3, ?_, ?_, ?_⟩
    · intro i' k' hi hk'
      rw [h1, List.getElem?_append_left hi] at hk'
      exact h2 k' (List.mem_of_getElem? hk')
    · rw [h5, (update_replace (e := e) hn h1).1, h1]; simp
    · rcases replace_cases e k.job with ⟨uc', r', g1, g2, g3, g4⟩ | ⟨g1, g2⟩
      · rw [hc, Option.some.injEq] at g1; subst g1
        rw [hr] at g2; simp only [Resolution.replace.injEq] at g2; subst g2
        exact ⟨fun _ => g4, fun h => absurd g3 h⟩
      · exact ⟨fun h => absurd h (g1 uc r hc hr), fun _ => g2⟩

example : ((storeOf [sampleJob 3, sampleJob 4]).enqueue 5 replacing).2.jobs.map (·.job)
    = [{ sampleJob 3 with data := .str "new", priority := 9 }, sampleJob 4] := by decide

end Rexecutor
