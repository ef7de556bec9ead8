import Verif.Model.Manage
import Verif.Props.Interference
import Verif.Props.PgInterference
import Verif.Props.Ids
import Verif.Props.Query
import Verif.Props.Store
import Verif.Props.PgRecords

/-! # C107, C108: what `cancel_job`, `rerun_job` and `update_job` of an executor act on -/

namespace Rexecutor

private theorem op_target {cd : Codec D} {cm : Codec M} {x : String} {call : JobCall D M} {o : Op} (h : call.op cd cm x = some o) :
    o.target = some call.id := by
  cases call with
  | cancel id reason => cases h; rfl
  | rerun id => cases h; rfl
  | update job =>
    simp only [JobCall.op, Option.map_eq_some_iff] at h
    obtain ⟨j, hj, rfl⟩ := h
    simp only [Op.target, JobCall.id, Option.some.injEq]
    unfold encodeJob at hj
    repeat (first | (split at hj) | cases hj)
    rfl

private theorem encoded_executor {cd : Codec D} {cm : Codec M} {job : TJob D M} {j : Job} (hj : encodeJob cd cm job = some j) :
    j.id = job.id ∧ j.executor = job.executor := by
  unfold encodeJob at hj
  repeat (first | (split at hj) | cases hj)
  exact ⟨rfl, rfl⟩

/-! ## C107 -/

/-- **C107, in memory, what holds.** A job call of executor `x` that names one of its own jobs, or
none at all, changes nothing of any other executor `y`: neither its jobs nor what its streams are
told. For `update_job` the given job must say that it is one of `x`. Missing: calls that name a job
of another executor, and updates that change `executor`; see `C107_violated` and
`C107_violated_move`. -/
theorem C107_own_partial (cd : Codec D) (cm : Codec M) (x y : String) (hxy : x ≠ y) (now : Time) (m : Mem) (call : JobCall D M)
    (o : Op) (ho : call.op cd cm x = some o) (hown : ∀ k ∈ m.jobs, k.job.id = call.id → k.job.executor = x)
    (hup : ∀ job, call = .update job → job.executor = x) :
    ownJobs y (m.step now o).2 = ownJobs y m ∧ ownSubs y (m.step now o).2 = ownSubs y m := by
  have hne : ∀ k ∈ m.jobs, k.job.id = call.id → k.job.executor ≠ y := fun k hk hid h => hxy (by rw [← hown k hk hid, h])
  have key : Act.Elsewhere y ⟨m, []⟩ (.op o) := by
    cases call with
    | cancel id reason => cases ho; exact hne
    | rerun id => cases ho; exact hne
    | update job =>
      simp only [JobCall.op, Option.map_eq_some_iff] at ho
      obtain ⟨j, hj, rfl⟩ := ho
      obtain ⟨e1, e2⟩ := encoded_executor hj
      refine ⟨?_, fun k hk hid => hne k hk (hid.trans e1)⟩
      rw [e2, hup job rfl]; exact hxy
  obtain ⟨h1, h2, -⟩ := elsewhere_op (c := ⟨m, []⟩) now key
  exact ⟨h1, h2⟩

/-- **C107, Postgres, what holds.** A job call of executor `x` that names one of its own rows, or
none at all, changes no row of any other executor `y`. Missing: calls that name a row of another
executor; see `C107_violated_postgres`. -/
theorem C107_own_postgres_partial (cd : Codec D) (cm : Codec M) (x y : String) (hxy : x ≠ y) (tie : Int → Nat) (now : Time)
    (p : Pg) (H : (rowIds p.rows).Nodup) (call : JobCall D M) (o : Op) (ho : call.op cd cm x = some o)
    (hown : ∀ r ∈ p.rows, r.id = call.id → r.executor = x) :
    ownRows y (p.step tie now o).2 = ownRows y p := by
  have hne : ∀ r ∈ p.rows, r.id = call.id → r.executor ≠ y := fun k hk hid h => hxy (by rw [← hown k hk hid, h])
  have keep : ∀ (id : Int) (f : Row → Row), (∀ r, (f r).executor = r.executor) → (∀ r ∈ p.rows, r.id = id → r.executor ≠ y) →
      ownRows y (p.onRow id f).2 = ownRows y p := by
    intro id f hf he
    rcases onRow_cases id f p H with ⟨-, h⟩ | ⟨-, h⟩
    · rw [h]
    · rw [h]
      refine Eq.trans (ownRows_updateRows hf _) ?_
      rw [updateRows_absent]; rfl
      intro r hr hid
      obtain ⟨h1, h2⟩ := List.mem_filter.mp hr
      exact he r h1 hid (by simpa using h2)
  cases call with
  | cancel id reason => cases ho; exact keep _ _ (fun _ => rfl) hne
  | rerun id => cases ho; exact keep _ _ (fun _ => rfl) hne
  | update job =>
    simp only [JobCall.op, Option.map_eq_some_iff] at ho
    obtain ⟨j, hj, rfl⟩ := ho
    exact keep _ _ (fun _ => rfl) fun r hr hid => hne r hr (hid.trans (encoded_executor hj).1)

/-- **C107, exactly.** Whoever calls: the call succeeds exactly if a job with this id is stored,
whichever executor it is one of, and it does the same whichever executor it is called on. -/
theorem C107_exactly (cd : Codec D) (cm : Codec M) (x : String) (now : Time) (m : Mem) (call : JobCall D M) (o : Op)
    (ho : call.op cd cm x = some o) :
    ((m.step now o).1 = .unit ↔ ∃ k ∈ m.jobs, k.job.id = call.id) ∧
    ∀ z, call.op cd cm z = some o := by
  obtain ⟨h1, -, h3⟩ := C02_unknown_id now m o call.id (op_target ho)
  refine ⟨⟨fun h => ?_, h3⟩, fun z => ho⟩
  apply Classical.byContradiction
  intro hn
  rw [h1.mpr hn] at h
  cases h

/-- Two jobs, one of `email`, one of `backup`. -/
def twoOwners : Mem := storeOf [{ sampleJob 3 with executor := "email" }, { sampleJob 4 with executor := "backup" }]

/-- **C107 fails in memory.** `backup` cancels the job of `email`, which it can neither query nor be
handed. -/
theorem C107_violated :
    let m := ((JobCall.cancel 3 "typo" : JobCall Unit Unit).op unitCodec unitCodec "backup").map fun o => (twoOwners.step 7 o).2
    m.map (fun m => m.jobs.map fun k => (k.job.id, k.job.executor, k.job.status, k.job.errors.map (·.details))) =
      some [(3, "email", .cancelled, ["typo"]), (4, "backup", .scheduled, [])] := by
  decide

/-- **C107 fails in memory: moving a job.** `backup` reads its job, changes the public field
`executor` and updates it: now it is one of `email`, and `email` is given it. -/
theorem C107_violated_move :
    let m := (match decodeJob (D := String) (M := Unit) stringCodec unitCodec { sampleJob 4 with executor := "backup" } with
      | .ok t => some t
      | _ => none).bind fun t => ((JobCall.update { t with executor := "email" }).op stringCodec unitCodec "backup").map
        fun o => (twoOwners.step 7 o).2
    (ownJobs "backup" twoOwners).map (·.job.id) = [4] ∧
    m.map (fun m => (ownJobs "email" m).map (·.job.id)) = some [3, 4] ∧
    m.map (fun m => (ownJobs "backup" m).map (·.job.id)) = some [] := by
  decide

/-- `email` cancels its own job: `C107_own_partial` applies. -/
example :
    let call : JobCall Unit Unit := .cancel 3 "typo"
    ∃ o, call.op unitCodec unitCodec "email" = some o ∧ (∀ k ∈ twoOwners.jobs, k.job.id = call.id → k.job.executor = "email") ∧
      (twoOwners.step 7 o).2.jobs ≠ twoOwners.jobs := by
  exact ⟨_, rfl, by decide, by decide⟩

/-- A database with a job of `email` (row 1) and one of `backup` (row 2). -/
def pgTwoOwners : Pg :=
  Pg.runApi sampleHash (fun _ i => i.toNat) {}
    [⟨0, .enqueue { sampleEnq with executor := "email" }⟩, ⟨0, .enqueue { sampleEnq with executor := "backup" }⟩]

/-- **C107 fails on Postgres.** `backup` cancels the job of `email`. -/
theorem C107_violated_postgres :
    let p := ((JobCall.cancel 1 "typo" : JobCall Unit Unit).op unitCodec unitCodec "backup").map fun o =>
      (pgTwoOwners.step (fun i => i.toNat) 7 o).2
    p.map (fun p => p.rows.map fun r => (r.id, r.executor, r.status, r.errors.map (·.details))) =
      some [(1, "email", .cancelled, ["typo"]), (2, "backup", .scheduled, [])] := by
  decide

/-- `email` reruns its own job: `C107_own_postgres_partial` applies. -/
example :
    let call : JobCall Unit Unit := .rerun 1
    (rowIds pgTwoOwners.rows).Nodup ∧
    ∃ o, call.op unitCodec unitCodec "email" = some o ∧ (∀ r ∈ pgTwoOwners.rows, r.id = call.id → r.executor = "email") ∧
      (pgTwoOwners.step (fun i => i.toNat) 7 o).2.rows ≠ pgTwoOwners.rows := by
  exact ⟨by decide, _, rfl, by decide, by decide⟩

/-! ## C108 -/

/-- **C108, in memory: what `rerun_job` does whatever the status.** For every stored job the call
succeeds, and afterwards the job waits, is due at once and has one more attempt. This is what is
meant for a complete, discarded or cancelled job. Missing: that the call is refused for a job that is
waiting or executing; see `C108_violated`. -/
theorem C108_in_memory_partial (now : Time) (m : Mem) (hn : (m.jobs.map (·.job.id)).Nodup) (k : KeyedJob) (hk : k ∈ m.jobs) :
    (m.step now (.rerun k.job.id)).1 = .unit ∧
    ∃ k' ∈ (m.step now (.rerun k.job.id)).2.jobs, k'.job.id = k.job.id ∧ k'.job.executor = k.job.executor ∧
      (∀ t, now ≤ t → Eligible t k.job.executor k'.job) ∧ k'.job.maxAttempts = k.job.maxAttempts + 1 := by
  obtain ⟨i, k₀, s, h1, h2, h3, h4, k', h5, h6, -⟩ := C13_rerun now m k.job.id ⟨k, hk, rfl⟩
  have hk0 : k₀ = k := by
    obtain ⟨j, hj⟩ := List.mem_iff_getElem?.mp hk
    have : i = j := (List.getElem?_inj (by
      have := List.getElem?_eq_some_iff.mp h1
      obtain ⟨hlt, -⟩ := this
      simpa using hlt) hn).mp (by simp [List.getElem?_map, h1, hj, h2])
    subst this
    rw [h1] at hj; exact Option.some.inj hj
  subst hk0
  refine ⟨h3, k', List.mem_of_getElem? h5, ?_⟩
  have hlt : i < m.jobs.length := (List.getElem?_eq_some_iff.mp h1).1
  rw [h4, List.getElem?_set_self hlt] at h5
  cases h5
  exact ⟨rfl, rfl, h6, rfl⟩

/-- **C108, on Postgres: what `rerun_job` does whatever the status.** -/
theorem C108_postgres_partial (tie : Int → Nat) (now : Time) (p : Pg) (hn : (rowIds p.rows).Nodup) (r : Row) (hr : r ∈ p.rows) :
    (p.step tie now (.rerun r.id)).1 = .unit ∧
    ∃ r' ∈ (p.step tie now (.rerun r.id)).2.rows, r'.id = r.id ∧ r'.executor = r.executor ∧
      (∀ t, now ≤ t → RowEligible t r.executor r') ∧ r'.maxAttempts = r.maxAttempts + 1 := by
  rcases onRow_cases r.id (Row.markRerunable now) p hn with ⟨h, -⟩ | ⟨-, h⟩
  · exact absurd (List.mem_map.mpr ⟨r, hr, rfl⟩) h
  · have hs : p.step tie now (.rerun r.id) = p.onRow r.id (Row.markRerunable now) := rfl
    rw [hs, h]
    refine ⟨rfl, r.markRerunable now, updateRows_mem.mpr ⟨r, hr, by simp⟩, rfl, rfl, fun t ht => ?_, rfl⟩
    refine ⟨rfl, ?_, ?_⟩
    · simp only [Row.markRerunable]; split <;> simp
    · have := pgTime_mono ht
      simp only [Row.markRerunable, Time, ms] at *
      omega

/-- A discarded job is made to run again: `C108_in_memory_partial` and `C108_postgres_partial` apply. -/
example :
    let m := storeOf [(sampleJob 3).markDiscarded 5 sampleErr]
    (m.jobs.map (·.job.id)).Nodup ∧ (m.jobs.map (·.job.status)) = [.discarded] ∧
      ((m.step 7 (.rerun 3)).2.jobs.map fun k => (k.job.status, k.job.scheduledAt)) = [(.retryable, 7)] := by
  decide

example :
    let p := Pg.runApi sampleHash (fun _ i => i.toNat) {} [⟨0, .enqueue sampleEnq⟩, ⟨5, .op (.cancelled 1 sampleErr)⟩]
    (rowIds p.rows).Nodup ∧ (p.rows.map (·.status)) = [.cancelled] ∧
      ((p.step (fun i => i.toNat) (7 * sec) (.rerun 1)).2.rows.map fun r => (r.status, r.scheduledAt)) = [(.retryable, 7 * sec)] := by
  decide

/-- A store with a job that waits for a time far ahead. -/
def farJob : Mem := storeOf [{ sampleJob 3 with scheduledAt := 1000 * sec }]

/-- **C108 fails.** Rerunning a job that has not run yet is not refused: the job loses the time it
was scheduled for and runs at once. -/
theorem C108_violated :
    (farJob.jobs.map fun k => (k.job.status, k.job.scheduledAt, k.job.maxAttempts)) = [(.scheduled, 1000 * sec, 2)] ∧
    (farJob.step 7 (.rerun 3)).1 = .unit ∧
    ((farJob.step 7 (.rerun 3)).2.jobs.map fun k => (k.job.status, k.job.scheduledAt, k.job.maxAttempts)) =
      [(.retryable, 7, 3)] := by
  decide

/-- **C108 fails for a job being executed.** It waits again while its execution goes on. -/
theorem C108_violated_executing :
    let m := storeOf [(sampleJob 3).markExecuting 5]
    (m.jobs.map fun k => k.job.status) = [.executing] ∧
    (m.step 7 (.rerun 3)).1 = .unit ∧
    ((m.step 7 (.rerun 3)).2.jobs.map fun k => (k.job.status, k.job.scheduledAt)) = [(.scheduled, 7)] := by
  decide

/-- **C108 fails on Postgres.** -/
theorem C108_violated_postgres :
    let p := Pg.runApi sampleHash (fun _ i => i.toNat) {} [⟨0, .enqueue { sampleEnq with scheduledAt := 1000 * sec }⟩]
    (p.rows.map fun r => (r.status, r.scheduledAt)) = [(.scheduled, 1000 * sec)] ∧
    (p.step (fun i => i.toNat) (7 * sec) (.rerun 1)).1 = .unit ∧
    ((p.step (fun i => i.toNat) (7 * sec) (.rerun 1)).2.rows.map fun r => (r.status, r.scheduledAt)) =
      [(.retryable, 7 * sec)] := by
  decide

end Rexecutor
