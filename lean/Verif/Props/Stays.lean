import Verif.Props.PgPrune
import Verif.Props.Store
import Verif.Lemmas.PgRow
import Verif.Lemmas.HistOk
import Verif.Spec.Samples

/-! # C145: a stored job stays until a prune that looks at its status removes it -/

namespace Rexecutor

/-! ## In memory -/

private theorem stays_step {now : Time} {c : Conc} {a : Act} {k : KeyedJob} (hk : k ∈ c.mem.jobs) :
    (∃ k' ∈ (c.step now a).2.mem.jobs, k'.job.id = k.job.id) ∨
    ∃ spec, a = .op (.prune spec) ∧ spec.Selects k.job ∧ k ∉ (c.step now a).2.mem.jobs := by
  have keep : ∀ m : Mem, m.ids = c.mem.ids → ∃ k' ∈ m.jobs, k'.job.id = k.job.id := by
    intro m hm
    have : k.job.id ∈ m.ids := by rw [hm]; exact List.mem_map.mpr ⟨k, hk, rfl⟩
    exact List.mem_map.mp this
  cases a with
  | start e => exact .inl ⟨k, hk, rfl⟩
  | advance i =>
    left
    simp only [Conc.step]
    split
    · exact ⟨k, hk, rfl⟩
    · rename_i p _
      cases p with
      | start e =>
        simp only [Mem.advance]
        split
        · exact ⟨k, hk, rfl⟩
        · split <;> exact ⟨k, hk, rfl⟩
      | noMatch e => exact ⟨k, hk, rfl⟩
      | allocated id e => exact ⟨k, List.mem_append_left _ hk, rfl⟩
      | pushed id e =>
        refine ⟨k, ?_, rfl⟩
        simp only [Mem.advance, Mem.notify]
        split <;> exact hk
      | matched job =>
        refine keep _ ?_
        have : (c.mem.update job).2.ids = c.mem.ids := onJob_ids fun j hj => rfl
        simp only [Mem.advance]
        split <;> rename_i hu <;> rw [hu] at this <;> exact this
      | done r => exact ⟨k, hk, rfl⟩
  | op o =>
    simp only [Conc.step]
    cases o with
    | complete id => exact .inl (keep _ (onJob_ids fun j hj => by first | exact hj | rfl))
    | retryable id t e => exact .inl (keep _ (onJob_ids fun j hj => by first | exact hj | rfl))
    | discarded id e => exact .inl (keep _ (onJob_ids fun j hj => by first | exact hj | rfl))
    | cancelled id e => exact .inl (keep _ (onJob_ids fun j hj => by first | exact hj | rfl))
    | snoozed id t => exact .inl (keep _ (onJob_ids fun j hj => by first | exact hj | rfl))
    | rerun id => exact .inl (keep _ (onJob_ids fun j hj => by first | exact hj | rfl))
    | update job => exact .inl (keep _ (onJob_ids fun j hj => by first | exact hj | rfl))
    | prune spec =>
      by_cases h : k ∈ (c.mem.step now (.prune spec)).2.jobs
      · exact .inl ⟨k, h, rfl⟩
      · refine .inr ⟨spec, rfl, ?_, h⟩
        refine Decidable.byContradiction fun hs => h ?_
        have hf := (C15_prune_frame now spec c.mem).2.2.1
        have : k ∈ c.mem.jobs.filter (fun k => ¬ spec.Selects k.job) := List.mem_filter.mpr ⟨hk, by simpa using hs⟩
        rw [← hf] at this
        exact (List.mem_filter.mp this).1
    | query q => exact .inl ⟨k, hk, rfl⟩
    | subscribe x => exact .inl ⟨k, hk, rfl⟩
    | notifyAll => exact .inl ⟨k, hk, rfl⟩
    | load x =>
      refine .inl (keep _ ?_)
      simp only [Mem.step]
      rcases load_cases now x c.mem with ⟨-, he⟩ | ⟨l, k, r, h1, h2, h3, h4, h5⟩
      · rw [he]
      · rw [h5]; unfold Mem.ids; simp only; rw [h1]; simp [Job.markExecuting]

/-- **C145, in memory.** From any state, through any interleaving of calls: a job that is
stored is still stored in the end, under its id, unless one of the calls is a prune that
selects the job as it was stored just then, by its status and its executor, and removes it. -/
theorem C145_in_memory (c : Conc) (as : List TAct) (k : KeyedJob) (hk : k ∈ c.mem.jobs) :
    (∃ k' ∈ (c.run as).mem.jobs, k'.job.id = k.job.id) ∨
    ∃ (n : Nat) (a : TAct) (spec : PruneSpec), as[n]? = some a ∧ a.act = .op (.prune spec) ∧
      ∃ k' ∈ (c.run (as.take n)).mem.jobs, k'.job.id = k.job.id ∧ spec.Selects k'.job ∧
        k' ∉ (c.run (as.take (n + 1))).mem.jobs := by
  induction as generalizing c k with
  | nil => exact .inl ⟨k, hk, rfl⟩
  | cons a as ih =>
    rcases stays_step (now := a.now) (a := a.act) hk with ⟨k', h1, h2⟩ | ⟨spec, h1, h2, h3⟩
    · rcases ih _ k' h1 with ⟨k'', g1, g2⟩ | ⟨n, b, spec, g1, g2, k'', g3, g4, g5, g6⟩
      · exact .inl ⟨k'', g1, g2.trans h2⟩
      · exact .inr ⟨n + 1, b, spec, g1, g2, k'', g3, g4.trans h2, g5, g6⟩
    · exact .inr ⟨0, a, spec, rfl, h1, k, hk, rfl, h2, h3⟩

/-- A job is retried and stays when completed jobs are pruned; it is gone when retryable ones
of its executor are. -/
example :
    let as := enqSteps 0 0 sampleEnq ++ [call 1 (.load "mail"), call 2 (.retryable 0 9 sampleErr),
      call 3 (.prune ⟨.complete, .maxLength 1, .except []⟩), call 3 (.prune ⟨.retryable, .maxLength 1, .only ["other"]⟩)]
    (fresh.run as).mem.ids = [0] ∧ (fresh.run (as ++ [call 4 (.prune ⟨.retryable, .maxLength 1, .only ["mail"]⟩)])).mem.ids = [] := by
  decide

/-! ## On Postgres -/

/-- Only the statement of a prune is logged as one. -/
private theorem stays_prune {hash : HashFn} {tie : Int → Nat} {now : Time} {c : PgConc} {a : PgAct} {spec : PruneSpec} {r : Res}
    (h : (c.step hash tie now a).1 = .stmt (.prune spec) r) : a = .stmt (.prune spec) := by
  cases a with
  | handout x => cases h
  | unique e uc => cases h
  | advance i =>
    exfalso
    simp only [PgConc.step] at h
    split at h
    · cases h
    · rename_i s _
      simp only at h
      revert h
      cases s <;> simp only [PgConc.advance] <;> (repeat' split) <;> intro h <;> cases h
  | abort i => simp only [PgConc.step] at h; split at h <;> cases h
  | plain e => simp only [PgConc.step] at h; split at h <;> cases h
  | stmt o =>
    cases o <;> simp only [PgConc.step] at h <;> (try split at h) <;> cases h
    rfl

/-- **C145, on Postgres.** From any reachable state, through any interleaving of calls and
sessions: a row is still in the table in the end, with its id, executor and time of
insertion, unless one of the statements is a prune that selects the row as it was just then,
by its status and its executor, and removes it. -/
theorem C145_on_postgres (hash : HashFn) (as₁ as₂ : List TPgAct) (r : Row) (hr : r ∈ (PgConc.run hash {} as₁).pg.rows) :
    (∃ r' ∈ (PgConc.run hash {} (as₁ ++ as₂)).pg.rows, r'.id = r.id ∧ r'.executor = r.executor ∧ r'.insertedAt = r.insertedAt) ∨
    ∃ (n : Nat) (a : TPgAct) (spec : PruneSpec), as₂[n]? = some a ∧ a.act = .stmt (.prune spec) ∧
      ∃ r' ∈ (PgConc.run hash {} (as₁ ++ as₂.take n)).pg.rows, r'.id = r.id ∧ r'.executor = r.executor ∧ spec.SelectsRow r' ∧
        r' ∉ (PgConc.run hash {} (as₁ ++ as₂.take (n + 1))).pg.rows := by
  induction as₂ generalizing as₁ r with
  | nil => rw [List.append_nil]; exact .inl ⟨r, hr, rfl, rfl, rfl⟩
  | cons a as ih =>
    have hstep : PgConc.run hash {} (as₁ ++ [a]) = ((PgConc.run hash {} as₁).step hash a.tie a.now a.act).2 := by
      rw [PgConc.run_append]; rfl
    have go : (∃ r' ∈ (PgConc.run hash {} (as₁ ++ [a])).pg.rows, r'.id = r.id ∧ r'.executor = r.executor ∧ r'.insertedAt = r.insertedAt) →
        (∃ r' ∈ (PgConc.run hash {} (as₁ ++ a :: as)).pg.rows, r'.id = r.id ∧ r'.executor = r.executor ∧ r'.insertedAt = r.insertedAt) ∨
        ∃ (n : Nat) (b : TPgAct) (spec : PruneSpec), (a :: as)[n]? = some b ∧ b.act = .stmt (.prune spec) ∧
          ∃ r' ∈ (PgConc.run hash {} (as₁ ++ (a :: as).take n)).pg.rows, r'.id = r.id ∧ r'.executor = r.executor ∧ spec.SelectsRow r' ∧
            r' ∉ (PgConc.run hash {} (as₁ ++ (a :: as).take (n + 1))).pg.rows := by
      rintro ⟨q, hq, e1, e2, e3⟩
      have := ih (as₁ ++ [a]) q hq
      simp only [List.append_assoc, List.singleton_append] at this
      rcases this with ⟨q', g1, g2, g3, g4⟩ | ⟨n, b, spec, g1, g2, q', g3, g4, g5, g6, g7⟩
      · exact .inl ⟨q', g1, g2.trans e1, g3.trans e2, g4.trans e3⟩
      · exact .inr ⟨n + 1, b, spec, g1, g2, q', g3, g4.trans e1, g5.trans e2, g6, g7⟩
    by_cases hp : ∃ spec, a.act = .stmt (.prune spec)
    · obtain ⟨spec, hp⟩ := hp
      by_cases hin : r ∈ (PgConc.run hash {} (as₁ ++ [a])).pg.rows
      · exact go ⟨r, hin, rfl, rfl, rfl⟩
      · refine .inr ⟨0, a, spec, rfl, hp, r, by simpa using hr, rfl, rfl, ?_, by simpa using hin⟩
        refine Decidable.byContradiction fun hs => hin ?_
        obtain ⟨hn, h⟩ := C47_interleaved hash as₁ a.tie a.now spec
        rw [hstep, hp]
        rcases h with h | ⟨-, h⟩
        · rw [h]; exact (C47_frame a.tie a.now spec _ hn).2.1 r hr hs
        · rw [h]; exact hr
    · refine go ?_
      rw [hstep]
      rcases (table_step (pgInv hash as₁) hash a.tie a.now a.act).forth hr with ⟨spec, h⟩ | ⟨r', h1, h2, h3⟩
      · exact absurd ⟨spec, stays_prune h⟩ hp
      · refine ⟨r', h1, h2, ?_⟩
        cases h3 <;> rename_i e <;> rw [e] <;> exact ⟨rfl, rfl⟩

/-- A row is handed out and completed, and stays when discarded rows are pruned; it is gone
when completed rows of its executor are. -/
example :
    let as := [pgAct 0 (.plain sampleEnq), pgAct 1 (.handout "mail"), pgAct 1 (.advance 0), pgAct 1 (.advance 0),
      pgAct 1 (.advance 0), pgAct 2 (.stmt (.complete 1)),
      pgAct 3 (.stmt (.prune ⟨.discarded, .maxLength 0, .except []⟩))]
    (PgConc.run sampleHash {} as).pg.rows.map (fun r => (r.id, r.status)) = [(1, .complete)] ∧
    (PgConc.run sampleHash {} (as ++ [pgAct 4 (.stmt (.prune ⟨.complete, .maxLength 0, .only ["mail"]⟩))])).pg.rows.map (·.id) = [] := by
  decide

end Rexecutor
