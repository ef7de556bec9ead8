import Verif.Props.Stays
import Verif.Props.Ids
import Verif.Props.PgRecords

/-! # C146: a job that was enqueued is unknown to a later call only if it was pruned -/

namespace Rexecutor

/-! ## In memory -/

private theorem known_insert {now : Time} {c : Conc} {a : Act} {id : Int} {e : EnqueuableJob}
    (h : (c.step now a).1 = .inserted id e) : ∃ k ∈ (c.step now a).2.mem.jobs, k.job.id = id := by
  cases a with
  | start e => cases h
  | op o => cases h
  | advance i =>
    simp only [Conc.step] at h ⊢
    split at h
    · cases h
    · rename_i p hp
      cases p with
      | start e => simp only [Mem.advance] at h; (repeat' split at h) <;> cases h
      | noMatch e => cases h
      | allocated id' e' =>
        cases h
        exact ⟨e.intoJob now id, by simp [Mem.advance], rfl⟩
      | pushed id e => cases h
      | matched job => simp only [Mem.advance] at h; split at h <;> cases h
      | done r => cases h

/-- **C146, in memory.** A job was inserted with an id at some step of any interleaving, and a
call names that id at any later one. If the call is refused with `JobNotFound`, then a prune
between the two selected the job with that id, as it was just then, and removed it. -/
theorem C146_in_memory (c : Conc) (as₁ as₂ : List TAct) (a b : TAct) (id : Int) (e : EnqueuableJob) (o : Op)
    (hins : ((c.run as₁).step a.now a.act).1 = .inserted id e) (hb : b.act = .op o) (ho : o.target = some id)
    (herr : ((c.run (as₁ ++ a :: as₂)).step b.now b.act).1 = .op o (.err (.jobNotFound id))) :
    ∃ (n : Nat) (p : TAct) (spec : PruneSpec), as₂[n]? = some p ∧ p.act = .op (.prune spec) ∧
      ∃ k ∈ (c.run (as₁ ++ a :: as₂.take n)).mem.jobs, k.job.id = id ∧ spec.Selects k.job ∧
        k ∉ (c.run (as₁ ++ a :: as₂.take (n + 1))).mem.jobs := by
  have hrun : ∀ bs, c.run (as₁ ++ a :: bs) = ((c.run as₁).step a.now a.act).2.run bs := fun bs => by
    rw [Conc.run_append]; rfl
  obtain ⟨k, hk, hid⟩ := known_insert hins
  have hgone : ¬ ∃ k ∈ (c.run (as₁ ++ a :: as₂)).mem.jobs, k.job.id = id := by
    refine (C02_unknown_id b.now _ o id ho).1.mp ?_
    rw [hb] at herr
    exact (Ev.op.inj herr).2
  rcases C145_in_memory _ as₂ k hk with ⟨k', h1, h2⟩ | ⟨n, p, spec, h1, h2, k', h3, h4, h5, h6⟩
  · exact absurd ⟨k', by rw [hrun]; exact h1, h2.trans hid⟩ hgone
  · exact ⟨n, p, spec, h1, h2, k', by rw [hrun]; exact h3, h4.trans hid, h5, by rw [hrun]; exact h6⟩

/-- An enqueued job is run and completed, completed jobs are pruned, and a rerun of the job is
refused. -/
example :
    let as₁ := (enqSteps 0 0 sampleEnq).take 2
    let a : TAct := ⟨0, .advance 0⟩
    let as₂ := [call 1 (.load "mail"), call 2 (.complete 0), call 3 (.prune ⟨.complete, .maxLength 1, .except []⟩)]
    (((fresh.run as₁).step a.now a.act).1 matches .inserted 0 _) ∧
    (((fresh.run (as₁ ++ a :: as₂)).step 4 (.op (.rerun 0))).1 matches .op (.rerun 0) (.err (.jobNotFound 0))) := by
  decide +kernel

private theorem known_returned (c : Conc) (hc : c.calls = []) (as : List TAct) (i : Nat) (id : Int)
    (h : (c.run as).calls[i]? = some (.done (.id id)) ∨ ∃ e, (c.run as).calls[i]? = some (.pushed id e)) :
    ∃ (as₁ as₂ : List TAct) (a : TAct), as = as₁ ++ a :: as₂ ∧ a.act = .advance i ∧
      ∃ k ∈ (c.run (as₁ ++ [a])).mem.jobs, k.job.id = id := by
  induction as using snoc_induction with
  | nil => simp [Conc.run, hc] at h
  | snoc as b ih =>
    have hrun : c.run (as ++ [b]) = ((c.run as).step b.now b.act).2 := by rw [Conc.run_append]; rfl
    have old : ((c.run as).calls[i]? = some (.done (.id id)) ∨ ∃ e, (c.run as).calls[i]? = some (.pushed id e)) →
        ∃ (as₁ as₂ : List TAct) (a : TAct), as ++ [b] = as₁ ++ a :: as₂ ∧ a.act = .advance i ∧
          ∃ k ∈ (c.run (as₁ ++ [a])).mem.jobs, k.job.id = id := by
      intro h
      obtain ⟨as₁, as₂, a, h1, h2, h3⟩ := ih h
      exact ⟨as₁, as₂ ++ [b], a, by rw [h1]; simp, h2, h3⟩
    have new : (b.act = .advance i → (∃ k ∈ (c.run (as ++ [b])).mem.jobs, k.job.id = id) →
        ∃ (as₁ as₂ : List TAct) (a : TAct), as ++ [b] = as₁ ++ a :: as₂ ∧ a.act = .advance i ∧
          ∃ k ∈ (c.run (as₁ ++ [a])).mem.jobs, k.job.id = id) := fun h1 h2 => ⟨as, [], b, rfl, h1, h2⟩
    rw [hrun] at h new
    generalize c.run as = d at h old new
    cases hb : b.act with
    | start e =>
      rw [hb] at h
      simp only [Conc.step] at h
      refine old ?_
      by_cases hi : i < d.calls.length
      · rwa [List.getElem?_append_left hi] at h
      · rw [List.getElem?_append_right (by omega)] at h
        exfalso
        cases hk : i - d.calls.length <;> rw [hk] at h <;> simp at h
    | op o => rw [hb] at h; exact old h
    | advance j =>
      rw [hb] at h new
      simp only [Conc.step] at h new
      cases hj : d.calls[j]? with
      | none => rw [hj] at h; exact old h
      | some p =>
        rw [hj] at h new
        simp only at h new
        by_cases hij : j = i
        · subst hij
          have hlt : j < d.calls.length := by
            rcases Nat.lt_or_ge j d.calls.length with h' | h'
            · exact h'
            · rw [List.getElem?_eq_none h'] at hj; cases hj
          rw [List.getElem?_set_self hlt] at h
          simp only [Option.some.injEq] at h
          cases p with
          | start e =>
            exfalso
            revert h
            simp only [Mem.advance]
            (repeat' split) <;> simp
          | noMatch e => exfalso; simp [Mem.advance] at h
          | allocated id' e' =>
            rcases h with h | ⟨e, h⟩
            · cases h
            · simp only [Mem.advance, Pending.pushed.injEq] at h
              exact new rfl ⟨e'.intoJob b.now id', by simp [Mem.advance], h.1⟩
          | pushed id' e' =>
            rcases h with h | ⟨e, h⟩
            · simp only [Mem.advance, Pending.done.injEq, Res.id.injEq] at h
              exact old (.inr ⟨e', by rw [hj, h]⟩)
            · cases h
          | matched job =>
            refine new rfl ?_
            rcases onJob_cases job.id (fun _ => job) true d.mem with ⟨-, hr⟩ | ⟨l, k, r, -, -, -, h4, h5, -⟩
            · exfalso
              have hu : d.mem.update job = (.err (.jobNotFound job.id), d.mem) := hr
              simp only [Mem.advance, hu] at h
              simp at h
            · have hu : d.mem.update job = (.unit, (d.mem.update job).2) := Prod.ext h4 rfl
              simp only [Mem.advance] at h ⊢
              rw [hu] at h ⊢
              simp only [Pending.done.injEq, Res.id.injEq, reduceCtorEq, exists_false, or_false] at h ⊢
              refine ⟨{ k with job := job }, ?_, h⟩
              show _ ∈ (d.mem.onJob job.id (fun _ => job) true).2.jobs
              rw [h5]; simp
          | done r =>
            rcases h with h | ⟨e, h⟩
            · simp only [Mem.advance] at h
              exact old (.inl (by rw [hj, h]))
            · cases h
        · rw [List.getElem?_set_ne hij] at h
          exact old h

/-- **C146, in memory, for the id that an enqueue returned.** If a call that names it is
refused with `JobNotFound`, then a prune since the enqueue began selected the job with that
id, as it was just then, and removed it. This includes the unique enqueues that return the id
of an older job. -/
theorem C146_returned_in_memory (paused : Bool) (as : List TAct) (b : TAct) (i : Nat) (id : Int) (o : Op)
    (hret : ((fresh paused).run as).calls[i]? = some (.done (.id id))) (hb : b.act = .op o) (ho : o.target = some id)
    (herr : (((fresh paused).run as).step b.now b.act).1 = .op o (.err (.jobNotFound id))) :
    ∃ (n m : Nat) (p q : TAct) (spec : PruneSpec), m < n ∧ as[m]? = some q ∧ q.act = .advance i ∧
      as[n]? = some p ∧ p.act = .op (.prune spec) ∧
      ∃ k ∈ ((fresh paused).run (as.take n)).mem.jobs, k.job.id = id ∧ spec.Selects k.job ∧
        k ∉ ((fresh paused).run (as.take (n + 1))).mem.jobs := by
  obtain ⟨as₁, as₂, a, h1, h2, k, hk, hid⟩ := known_returned (fresh paused) rfl as i id (.inl hret)
  subst h1
  have hrun : ∀ bs, (fresh paused).run (as₁ ++ a :: bs) = ((fresh paused).run (as₁ ++ [a])).run bs := fun bs => by
    rw [← Conc.run_append]; simp
  have hgone : ¬ ∃ k ∈ ((fresh paused).run (as₁ ++ a :: as₂)).mem.jobs, k.job.id = id := by
    refine (C02_unknown_id b.now _ o id ho).1.mp ?_
    rw [hb] at herr
    exact (Ev.op.inj herr).2
  rcases C145_in_memory _ as₂ k hk with ⟨k', g1, g2⟩ | ⟨n, p, spec, g1, g2, k', g3, g4, g5, g6⟩
  · exact absurd ⟨k', by rw [hrun]; exact g1, g2.trans hid⟩ hgone
  · have ht : ∀ n, (as₁ ++ a :: as₂).take (as₁.length + 1 + n) = as₁ ++ a :: as₂.take n := fun n => by
      rw [Nat.add_assoc, List.take_length_add_append, Nat.add_comm 1 n]; rfl
    refine ⟨as₁.length + 1 + n, as₁.length, p, a, spec, by omega, by simp, h2, ?_, g2, k', ?_, g4.trans hid, g5, ?_⟩
    · rw [List.getElem?_append_right (by omega)]
      have : as₁.length + 1 + n - as₁.length = n + 1 := by omega
      rw [this]; exact g1
    · rw [ht, hrun]; exact g3
    · rw [Nat.add_assoc _ n 1, ht, hrun]; exact g6

/-- A unique enqueue finds the job of an earlier one and returns its id; then it is pruned. -/
example :
    let as := enqSteps 0 0 sampleUnique ++ enqSteps 5 1 sampleUnique ++ [call 6 (.prune ⟨.scheduled, .maxLength 1, .except []⟩)]
    (fresh.run as).calls[1]? = some (.done (.id 0)) ∧
    (((fresh.run as).step 7 (.op (.rerun 0))).1 matches .op (.rerun 0) (.err (.jobNotFound 0))) := by
  decide +kernel

/-! ## On Postgres -/

/-- **C146, on Postgres.** A row was inserted at some step of any interleaving of calls and
sessions, and a call names its id at any later one. If the call is refused with
`JobNotFound`, then a prune between the two selected the row of that id, as it was just
then, and removed it. -/
theorem C146_on_postgres (hash : HashFn) (as₁ as₂ : List TPgAct) (a b : TPgAct) (row : Row) (uc : Option Criteria) (o : Op)
    (hins : ((PgConc.run hash {} as₁).step hash a.tie a.now a.act).1 = .inserted row uc) (hb : b.act = .stmt o)
    (ho : o.target = some row.id)
    (herr : ((PgConc.run hash {} (as₁ ++ a :: as₂)).step hash b.tie b.now b.act).1 = .stmt o (.err (.jobNotFound row.id))) :
    ∃ (n : Nat) (p : TPgAct) (spec : PruneSpec), as₂[n]? = some p ∧ p.act = .stmt (.prune spec) ∧
      ∃ r ∈ (PgConc.run hash {} (as₁ ++ a :: as₂.take n)).pg.rows, r.id = row.id ∧ r.executor = row.executor ∧ spec.SelectsRow r ∧
        r ∉ (PgConc.run hash {} (as₁ ++ a :: as₂.take (n + 1))).pg.rows := by
  have hmem : row ∈ (PgConc.run hash {} (as₁ ++ [a])).pg.rows := by
    have hT := table_step (pgInv hash as₁) hash a.tie a.now a.act
    have hrun : PgConc.run hash {} (as₁ ++ [a]) = ((PgConc.run hash {} as₁).step hash a.tie a.now a.act).2 := by
      rw [PgConc.run_append]; rfl
    rw [hrun]
    rw [hins] at hT
    generalize ((PgConc.run hash {} as₁).step hash a.tie a.now a.act).2.pg.rows = rows' at hT
    cases hT with
    | same _ _ hi => exact absurd (hi row.id) (by simp [PgEv.inserts])
    | insert _ _ _ => simp
    | change _ _ _ _ _ hi _ => exact absurd (hi row.id) (by simp [PgEv.inserts])
  have hgone : ∀ r ∈ (PgConc.run hash {} (as₁ ++ a :: as₂)).pg.rows, r.id ≠ row.id := by
    rw [hb] at herr
    rcases C67_by_id hash (as₁ ++ a :: as₂) b.tie b.now o row.id ho with ⟨h, -⟩ | ⟨h, -⟩ | ⟨-, h, -⟩
    · rw [h] at herr; cases herr
    · exact h
    · rw [h] at herr; cases herr
  have := C145_on_postgres hash (as₁ ++ [a]) as₂ row hmem
  simp only [List.append_assoc, List.singleton_append] at this
  rcases this with ⟨r, h1, h2, -⟩ | h
  · exact absurd h2 (hgone r h1)
  · exact h

/-- An enqueued row is run and completed, completed rows are pruned, and a rerun of the row is
refused. -/
example :
    let a := pgAct 0 (.plain sampleEnq)
    let as₂ := [pgAct 1 (.handout "mail"), pgAct 1 (.advance 0), pgAct 1 (.advance 0), pgAct 1 (.advance 0),
      pgAct 2 (.stmt (.complete 1)), pgAct 3 (.stmt (.prune ⟨.complete, .maxLength 0, .except []⟩))]
    (((PgConc.run sampleHash {} []).step sampleHash a.tie a.now a.act).1 matches .inserted _ none) ∧
    (((PgConc.run sampleHash {} (a :: as₂)).step sampleHash Int.toNat 4 (.stmt (.rerun 1))).1 matches
      .stmt (.rerun 1) (.err (.jobNotFound 1))) := by
  decide

private theorem known_returned_pg (hash : HashFn) (as : List TPgAct) (i : Nat) (id : Int)
    (h : (PgConc.run hash {} as).sessions[i]? = some (.done (.id id)) ∨
      (∃ e uc st, (PgConc.run hash {} as).sessions[i]? = some (.found e uc id st)) ∨
      ∃ e uc rep, (PgConc.run hash {} as).sessions[i]? = some (.replacing e uc rep id)) :
    ∃ (as₁ as₂ : List TPgAct) (a : TPgAct), as = as₁ ++ a :: as₂ ∧ a.act = .advance i ∧
      ∃ r ∈ (PgConc.run hash {} (as₁ ++ [a])).pg.rows, r.id = id := by
  induction as using snoc_induction with
  | nil => simp [PgConc.run] at h
  | snoc as b ih =>
    have hrun : PgConc.run hash {} (as ++ [b]) = ((PgConc.run hash {} as).step hash b.tie b.now b.act).2 := by
      rw [PgConc.run_append]; rfl
    have old : ((PgConc.run hash {} as).sessions[i]? = some (.done (.id id)) ∨
        (∃ e uc st, (PgConc.run hash {} as).sessions[i]? = some (.found e uc id st)) ∨
        ∃ e uc rep, (PgConc.run hash {} as).sessions[i]? = some (.replacing e uc rep id)) →
        ∃ (as₁ as₂ : List TPgAct) (a : TPgAct), as ++ [b] = as₁ ++ a :: as₂ ∧ a.act = .advance i ∧
          ∃ r ∈ (PgConc.run hash {} (as₁ ++ [a])).pg.rows, r.id = id := by
      intro h
      obtain ⟨as₁, as₂, a, h1, h2, h3⟩ := ih h
      exact ⟨as₁, as₂ ++ [b], a, by rw [h1]; simp, h2, h3⟩
    have new : (b.act = .advance i → (∃ r ∈ (PgConc.run hash {} (as ++ [b])).pg.rows, r.id = id) →
        ∃ (as₁ as₂ : List TPgAct) (a : TPgAct), as ++ [b] = as₁ ++ a :: as₂ ∧ a.act = .advance i ∧
          ∃ r ∈ (PgConc.run hash {} (as₁ ++ [a])).pg.rows, r.id = id) := fun h1 h2 => ⟨as, [], b, rfl, h1, h2⟩
    rw [hrun] at h new
    generalize PgConc.run hash {} as = d at h old new
    have app : ∀ s : Session, (∀ r, s ≠ .done r) → (∀ e uc i st, s ≠ .found e uc i st) →
        (∀ e uc rep i, s ≠ .replacing e uc rep i) →
        ((d.sessions ++ [s])[i]? = some (.done (.id id)) ∨
          (∃ e uc st, (d.sessions ++ [s])[i]? = some (.found e uc id st)) ∨
          ∃ e uc rep, (d.sessions ++ [s])[i]? = some (.replacing e uc rep id)) →
        (d.sessions[i]? = some (.done (.id id)) ∨ (∃ e uc st, d.sessions[i]? = some (.found e uc id st)) ∨
          ∃ e uc rep, d.sessions[i]? = some (.replacing e uc rep id)) := by
      intro s n1 n2 n3 h
      by_cases hi : i < d.sessions.length
      · rwa [List.getElem?_append_left hi] at h
      · rw [List.getElem?_append_right (by omega)] at h
        exfalso
        cases hk : i - d.sessions.length with
        | zero =>
          rw [hk] at h
          simp only [List.getElem?_cons_zero, Option.some.injEq] at h
          rcases h with h | ⟨e, uc, st, h⟩ | ⟨e, uc, rep, h⟩
          · exact n1 _ h
          · exact n2 _ _ _ _ h
          · exact n3 _ _ _ _ h
        | succ n => rw [hk] at h; simp at h
    cases hb : b.act with
    | handout x => rw [hb] at h; exact old (app _ (by simp) (by simp) (by simp) h)
    | unique e uc => rw [hb] at h; exact old (app _ (by simp) (by simp) (by simp) h)
    | plain e =>
      rw [hb] at h
      simp only [PgConc.step] at h
      split at h <;> exact old h
    | stmt o =>
      rw [hb] at h
      cases o <;> simp only [PgConc.step] at h <;> (try split at h) <;> exact old h
    | abort j =>
      rw [hb] at h
      simp only [PgConc.step] at h
      split at h
      · exact old h
      · exact old h
      · by_cases hij : j = i
        · subst hij
          exfalso
          rw [List.getElem?_set] at h
          simp at h
        · rw [List.getElem?_set_ne hij] at h; exact old h
    | advance j =>
      rw [hb] at h new
      simp only [PgConc.step] at h new
      cases hj : d.sessions[j]? with
      | none => rw [hj] at h; exact old h
      | some p =>
        rw [hj] at h new
        simp only at h new
        by_cases hij : j = i
        · subst hij
          have hlt : j < d.sessions.length := by
            rcases Nat.lt_or_ge j d.sessions.length with h' | h'
            · exact h'
            · rw [List.getElem?_eq_none h'] at hj; cases hj
          rw [List.getElem?_set_self hlt] at h
          simp only [Option.some.injEq] at h
          cases p with
          | handout x => exfalso; simp [PgConc.advance] at h
          | looking x t snap => exfalso; revert h; simp only [PgConc.advance]; split <;> simp
          | locked x t id' =>
            exfalso; revert h; simp only [PgConc.advance]
            split
            · simp
            · simp only
              split <;> simp
          | unique e uc t => exfalso; revert h; simp only [PgConc.advance]; split <;> simp
          | holding e uc t =>
            refine new rfl ?_
            simp only [PgConc.advance] at h ⊢
            split at h
            · simp at h
            · rename_i r rs hs
              simp only
              have hr : r ∈ d.pg.rows := by
                have : r ∈ sortBy (fun x y => decide (b.tie x.id ≤ b.tie y.id)) (d.pg.rows.filter fun r => uc.finds e.executor e.scheduledAt r) := by
                  rw [hs]; simp
                exact (List.mem_filter.mp ((sortBy_perm _ _).mem_iff.mp this)).1
              refine ⟨r, hr, ?_⟩
              rcases h with h | ⟨_, _, _, h⟩ | ⟨_, _, _, h⟩
              · cases h
              · simp only [Session.found.injEq] at h; exact h.2.2.1
              · cases h
          | missing e uc t => exfalso; revert h; simp only [PgConc.advance]; split <;> simp
          | found e uc id' st =>
            refine old (.inr (.inl ?_))
            rw [hj]
            suffices id' = id by subst this; exact ⟨_, _, _, rfl⟩
            revert h
            simp only [PgConc.advance]
            (repeat' split) <;> simp +contextual
          | inserted e uc row =>
            refine new rfl ⟨row, by simp [PgConc.advance], ?_⟩
            simpa [PgConc.advance] using h
          | replacing e uc rep id' =>
            refine old (.inr (.inr ⟨e, uc, rep, ?_⟩))
            rw [hj]
            simp only [PgConc.advance] at h
            simp at h
            rw [h]
          | done r =>
            simp only [PgConc.advance] at h
            simp at h
            exact old (.inl (by rw [hj, h]))
        · rw [List.getElem?_set_ne hij] at h
          exact old h

/-- **C146, on Postgres, for the id that a unique enqueue returned.** If a call that names it
is refused with `JobNotFound`, then a prune since the enqueue began selected the row of that
id, as it was just then, and removed it. -/
theorem C146_returned_on_postgres (hash : HashFn) (as : List TPgAct) (b : TPgAct) (i : Nat) (id : Int) (o : Op)
    (hret : (PgConc.run hash {} as).sessions[i]? = some (.done (.id id))) (hb : b.act = .stmt o) (ho : o.target = some id)
    (herr : ((PgConc.run hash {} as).step hash b.tie b.now b.act).1 = .stmt o (.err (.jobNotFound id))) :
    ∃ (n m : Nat) (p q : TPgAct) (spec : PruneSpec), m < n ∧ as[m]? = some q ∧ q.act = .advance i ∧
      as[n]? = some p ∧ p.act = .stmt (.prune spec) ∧
      ∃ r ∈ (PgConc.run hash {} (as.take n)).pg.rows, r.id = id ∧ spec.SelectsRow r ∧
        r ∉ (PgConc.run hash {} (as.take (n + 1))).pg.rows := by
  obtain ⟨as₁, as₂, a, h1, h2, r, hr, hid⟩ := known_returned_pg hash as i id (.inl hret)
  subst h1
  have hgone : ∀ r ∈ (PgConc.run hash {} (as₁ ++ a :: as₂)).pg.rows, r.id ≠ id := by
    rw [hb] at herr
    rcases C67_by_id hash (as₁ ++ a :: as₂) b.tie b.now o id ho with ⟨h, -⟩ | ⟨h, -⟩ | ⟨-, h, -⟩
    · rw [h] at herr; cases herr
    · exact h
    · rw [h] at herr; cases herr
  have := C145_on_postgres hash (as₁ ++ [a]) as₂ r hr
  simp only [List.append_assoc, List.singleton_append] at this
  rcases this with ⟨r', g1, g2, -⟩ | ⟨n, p, spec, g1, g2, r', g3, g4, -, g5, g6⟩
  · exact absurd (g2.trans hid) (hgone r' g1)
  · have ht : ∀ n, (as₁ ++ a :: as₂).take (as₁.length + 1 + n) = as₁ ++ a :: as₂.take n := fun n => by
      rw [Nat.add_assoc, List.take_length_add_append, Nat.add_comm 1 n]; rfl
    refine ⟨as₁.length + 1 + n, as₁.length, p, a, spec, by omega, by simp, h2, ?_, g2, r', ?_, g4.trans hid, g5, ?_⟩
    · rw [List.getElem?_append_right (by omega)]
      have : as₁.length + 1 + n - as₁.length = n + 1 := by omega
      rw [this]; exact g1
    · rw [ht]; exact g3
    · rw [Nat.add_assoc _ n 1, ht]; exact g6

/-- A unique enqueue finds the row of an earlier one, the row is pruned, and the enqueue
returns its id. -/
example :
    let as := [pgAct 0 (.plain sampleEnq), pgAct 0 (.unique sampleEnq { executor := true, statuses := [.scheduled] }),
      pgAct 0 (.advance 0), pgAct 0 (.advance 0),
      pgAct 0 (.stmt (.prune { status := .scheduled, pruneBy := .maxLength 0, executors := .except [] })), pgAct 0 (.advance 0)]
    (PgConc.run sampleHash {} as).sessions[0]? = some (.done (.id 1)) ∧
    (((PgConc.run sampleHash {} as).step sampleHash Int.toNat 4 (.stmt (.rerun 1))).1 matches
      .stmt (.rerun 1) (.err (.jobNotFound 1))) := by
  decide

end Rexecutor
