import Verif.Props.Stays
import Verif.Props.Lifecycle
import Verif.Props.PgLifecycle
import Verif.Lemmas.Track
import Verif.Lemmas.PgSys

/-! # C145 with runners: whatever runners do, they remove no job -/

namespace Rexecutor

/-! ## In memory -/

private theorem staysRun_keep {c : Conc} {now : Time} {b : Act} (hb : ∀ spec, b ≠ .op (.prune spec)) {k : KeyedJob}
    (hk : k ∈ c.mem.jobs) : ∃ k' ∈ (c.step now b).2.mem.jobs, k'.job.id = k.job.id := by
  rcases C145_in_memory c [⟨now, b⟩] k hk with h | ⟨n, a, spec, h1, h2, -⟩
  · exact h
  · cases n with
    | zero => cases h1; exact absurd h2 (hb spec)
    | succ n => simp at h1

private theorem staysRun_reportable (defs : List Runner) (p : Bool) (as : List TSAct) :
    AllReportable ((Sys.init defs p).run defs as) := by
  induction as using snoc_induction with
  | nil =>
    intro r f o hf
    simp only [Sys.run, Sys.init, Sys.flightsOf] at hf
    exfalso
    revert hf
    rw [List.getElem?_map]
    cases defs[r]? <;> simp
  | snoc as a ih =>
    rw [Sys.run_append]
    exact allReportable_step ih (step_sstep defs a.now _ a.act)

/-- **C145, with runners in memory.** Runners and clients do anything, from spawning the
runners on: executions end in any way, runners panic or are shut down. A job that is stored
is still stored in the end, under its id, unless a client made a prune that selects the job
as it was stored just then and removes it. -/
theorem C145_runners_in_memory (defs : List Runner) (paused : Bool) (as₁ as₂ : List TSAct) (k : KeyedJob)
    (hk : k ∈ ((Sys.init defs paused).run defs as₁).conc.mem.jobs) :
    (∃ k' ∈ ((Sys.init defs paused).run defs (as₁ ++ as₂)).conc.mem.jobs, k'.job.id = k.job.id) ∨
    ∃ (n : Nat) (a : TSAct) (spec : PruneSpec), as₂[n]? = some a ∧ a.act = .client (.op (.prune spec)) ∧
      ∃ k' ∈ ((Sys.init defs paused).run defs (as₁ ++ as₂.take n)).conc.mem.jobs, k'.job.id = k.job.id ∧ spec.Selects k'.job ∧
        k' ∉ ((Sys.init defs paused).run defs (as₁ ++ as₂.take (n + 1))).conc.mem.jobs := by
  induction as₂ generalizing as₁ k with
  | nil => rw [List.append_nil]; exact .inl ⟨k, hk, rfl⟩
  | cons a as ih =>
    have hrun : (Sys.init defs paused).run defs (as₁ ++ [a]) =
        (((Sys.init defs paused).run defs as₁).step defs a.now a.act).2 := by rw [Sys.run_append]; rfl
    have go : (∃ k' ∈ ((Sys.init defs paused).run defs (as₁ ++ [a])).conc.mem.jobs, k'.job.id = k.job.id) →
        (∃ k' ∈ ((Sys.init defs paused).run defs (as₁ ++ a :: as)).conc.mem.jobs, k'.job.id = k.job.id) ∨
        ∃ (n : Nat) (b : TSAct) (spec : PruneSpec), (a :: as)[n]? = some b ∧ b.act = .client (.op (.prune spec)) ∧
          ∃ k' ∈ ((Sys.init defs paused).run defs (as₁ ++ (a :: as).take n)).conc.mem.jobs, k'.job.id = k.job.id ∧
            spec.Selects k'.job ∧ k' ∉ ((Sys.init defs paused).run defs (as₁ ++ (a :: as).take (n + 1))).conc.mem.jobs := by
      rintro ⟨q, hq, e⟩
      have := ih (as₁ ++ [a]) q hq
      simp only [List.append_assoc, List.singleton_append] at this
      rcases this with ⟨q', g1, g2⟩ | ⟨n, b, spec, g1, g2, q', g3, g4, g5, g6⟩
      · exact .inl ⟨q', g1, g2.trans e⟩
      · exact .inr ⟨n + 1, b, spec, g1, g2, q', g3, g4.trans e, g5, g6⟩
    have R := staysRun_reportable defs paused as₁
    have hs := step_sstep defs a.now ((Sys.init defs paused).run defs as₁) a.act
    by_cases hp : ∃ spec, a.act = .client (.op (.prune spec))
    · obtain ⟨spec, hp⟩ := hp
      rcases C145_in_memory ((Sys.init defs paused).run defs as₁).conc [⟨a.now, .op (.prune spec)⟩] k hk with h |
        ⟨n, b, spec', h1, h2, k', h3, h4, h5, h6⟩
      · refine go ?_
        rw [hrun, hp]; exact h
      · cases n with
        | succ n => simp at h1
        | zero =>
          cases h1
          cases h2
          refine .inr ⟨0, a, spec, rfl, hp, k', by simpa [Conc.run] using h3, h4, h5, ?_⟩
          simp only [Nat.zero_add, List.take_succ_cons, List.take_zero]
          rw [hrun, hp]; exact h6
    · refine go ?_
      rw [hrun]
      generalize ((Sys.init defs paused).run defs as₁) = s at *
      generalize (s.step defs a.now a.act).1 = ev at *
      generalize (s.step defs a.now a.act).2 = s' at *
      generalize a.act = act at *
      cases hs with
      | client b => exact staysRun_keep (fun spec e => hp ⟨spec, by rw [e]⟩) hk
      | idle => exact ⟨k, hk, rfl⟩
      | empty => exact staysRun_keep (fun _ e => by cases e) hk
      | started => exact staysRun_keep (fun _ e => by cases e) hk
      | undecodable => exact staysRun_keep (fun _ e => by cases e) hk
      | panicked => exact staysRun_keep (fun _ e => by cases e) hk
      | ended => exact ⟨k, hk, rfl⟩
      | overflowed => exact ⟨k, hk, rfl⟩
      | reported r i rs t o hr hf =>
        refine staysRun_keep (fun spec e => ?_) hk
        have hR : Reportable t o := R r ⟨t, .reporting o⟩ o (by rw [flightsOf_some hr]; exact List.mem_of_getElem? hf) rfl
        cases e
        rcases reportable_cases hR with h | ⟨_, h⟩ | ⟨_, h⟩ | ⟨-, _, h⟩ | ⟨-, _, _, h⟩ <;> cases h
      | shutdown => exact ⟨k, hk, rfl⟩

/-- A job that fails, is snoozed and fails for good is still stored, until discarded jobs are
pruned. -/
example :
    ((Sys.init [sampleRunner]).run [sampleRunner] (twoFailures.take 3)).conc.mem.ids = [0] ∧
    ((Sys.init [sampleRunner]).run [sampleRunner] twoFailures).conc.mem.ids = [0] ∧
    ((Sys.init [sampleRunner]).run [sampleRunner] (twoFailures ++
      [⟨16 * sec, .client (.op (.prune ⟨.discarded, .maxLength 1, .except []⟩))⟩])).conc.mem.ids = [] := by
  decide

/-! ## On Postgres -/

/-- What a step does to the database; a runner makes no prune. -/
private theorem staysRun_back (hash : HashFn) (defs : List Runner) (tie : Int → Nat) (now : Time) (s : PgSys) (R : PgReps s) (a : PSAct) :
    (s.step hash defs tie now a).2.conc = s.conc ∨
    ∃ b, (s.step hash defs tie now a).2.conc = (s.conc.step hash tie now b).2 ∧ (a = .db b ∨ ∀ spec, b ≠ .stmt (.prune spec)) := by
  cases a with
  | db b => exact .inr ⟨b, rfl, .inl rfl⟩
  | pull r =>
    simp only [PgSys.step]
    split
    · rename_i d _ _ _
      split
      · exact .inr ⟨.handout d.name, rfl, .inr (fun _ e => by cases e)⟩
      · exact .inl rfl
    · exact .inl rfl
  | take r =>
    simp only [PgSys.step]
    split
    · split
      · exact .inl rfl
      · exact .inl rfl
      · exact .inl rfl
    · exact .inl rfl
  | finish r i b =>
    simp only [PgSys.step]
    split
    · split
      · split
        · exact .inl rfl
        · split <;> exact .inl rfl
      · exact .inl rfl
    · exact .inl rfl
  | report r i =>
    simp only [PgSys.step]
    split
    · rename_i rs hr
      split
      · rename_i t o hf
        split
        · exact .inl rfl
        · rename_i ev c _ he
          refine .inr ⟨.stmt o, by rw [he], .inr (fun spec e => ?_)⟩
          have hR := R rs (List.mem_of_getElem? hr) t o (List.mem_of_getElem? hf)
          cases e
          rcases reportable_cases hR with h | ⟨_, h⟩ | ⟨_, h⟩ | ⟨-, _, h⟩ | ⟨-, _, _, h⟩ <;> cases h
      · exact .inl rfl
    · exact .inl rfl
  | lose r i =>
    simp only [PgSys.step]
    split
    · split <;> exact .inl rfl
    · exact .inl rfl
  | stop r => simp only [PgSys.step]; split <;> exact .inl rfl
  | drop r => simp only [PgSys.step]; split <;> exact .inl rfl
  | kill r => simp only [PgSys.step]; split <;> exact .inl rfl

private theorem staysRun_reps (hash : HashFn) (defs : List Runner) (as : List TPSAct) : PgReps ((PgSys.init defs).run hash defs as) := by
  induction as using snoc_induction with
  | nil =>
    intro rs hr t o hf
    simp only [PgSys.run, PgSys.init, List.mem_map] at hr
    obtain ⟨_, -, rfl⟩ := hr
    cases hf
  | snoc as a ih => rw [PgSys.run_append]; exact ih.step hash defs a.tie a.now a.act

/-- **C145, with runners on Postgres.** Runners of any number of processes and clients do
anything: executions end in any way, reports are lost, connections fail, processes are
stopped or killed. A row is still in the table in the end, with its id, executor and time of
insertion, unless a client made a prune that selects the row as it was just then and removes
it. -/
theorem C145_runners_on_postgres (hash : HashFn) (defs : List Runner) (as₁ as₂ : List TPSAct) (r : Row)
    (hr : r ∈ ((PgSys.init defs).run hash defs as₁).conc.pg.rows) :
    (∃ r' ∈ ((PgSys.init defs).run hash defs (as₁ ++ as₂)).conc.pg.rows,
      r'.id = r.id ∧ r'.executor = r.executor ∧ r'.insertedAt = r.insertedAt) ∨
    ∃ (n : Nat) (a : TPSAct) (spec : PruneSpec), as₂[n]? = some a ∧ a.act = .db (.stmt (.prune spec)) ∧
      ∃ r' ∈ ((PgSys.init defs).run hash defs (as₁ ++ as₂.take n)).conc.pg.rows, r'.id = r.id ∧ r'.executor = r.executor ∧
        spec.SelectsRow r' ∧ r' ∉ ((PgSys.init defs).run hash defs (as₁ ++ as₂.take (n + 1))).conc.pg.rows := by
  induction as₂ generalizing as₁ r with
  | nil => rw [List.append_nil]; exact .inl ⟨r, hr, rfl, rfl, rfl⟩
  | cons a as ih =>
    have hrun : (PgSys.init defs).run hash defs (as₁ ++ [a]) =
        (((PgSys.init defs).run hash defs as₁).step hash defs a.tie a.now a.act).2 := by rw [PgSys.run_append]; rfl
    have go : (∃ r' ∈ ((PgSys.init defs).run hash defs (as₁ ++ [a])).conc.pg.rows,
          r'.id = r.id ∧ r'.executor = r.executor ∧ r'.insertedAt = r.insertedAt) →
        (∃ r' ∈ ((PgSys.init defs).run hash defs (as₁ ++ a :: as)).conc.pg.rows,
          r'.id = r.id ∧ r'.executor = r.executor ∧ r'.insertedAt = r.insertedAt) ∨
        ∃ (n : Nat) (b : TPSAct) (spec : PruneSpec), (a :: as)[n]? = some b ∧ b.act = .db (.stmt (.prune spec)) ∧
          ∃ r' ∈ ((PgSys.init defs).run hash defs (as₁ ++ (a :: as).take n)).conc.pg.rows, r'.id = r.id ∧ r'.executor = r.executor ∧
            spec.SelectsRow r' ∧ r' ∉ ((PgSys.init defs).run hash defs (as₁ ++ (a :: as).take (n + 1))).conc.pg.rows := by
      rintro ⟨q, hq, e1, e2, e3⟩
      have := ih (as₁ ++ [a]) q hq
      simp only [List.append_assoc, List.singleton_append] at this
      rcases this with ⟨q', g1, g2, g3, g4⟩ | ⟨n, b, spec, g1, g2, q', g3, g4, g5, g6, g7⟩
      · exact .inl ⟨q', g1, g2.trans e1, g3.trans e2, g4.trans e3⟩
      · exact .inr ⟨n + 1, b, spec, g1, g2, q', g3, g4.trans e1, g5.trans e2, g6, g7⟩
    rcases staysRun_back hash defs a.tie a.now _ (staysRun_reps hash defs as₁) a.act with h | ⟨b, h, hb⟩
    · exact go ⟨r, by rw [hrun, h]; exact hr, rfl, rfl, rfl⟩
    · obtain ⟨bs, hbs, -⟩ := psys_schedule hash defs as₁
      have hbs' : ((PgSys.init defs).run hash defs (as₁ ++ [a])).conc = PgConc.run hash {} (bs ++ [⟨a.now, a.tie, b⟩]) := by
        rw [hrun, h, hbs, PgConc.run_append]; rfl
      rcases C145_on_postgres hash bs [⟨a.now, a.tie, b⟩] r (by rw [← hbs]; exact hr) with g | ⟨n, p, spec, g1, g2, r', g3, g4, g5, g6, g7⟩
      · rw [← hbs'] at g; exact go g
      · cases n with
        | succ n => simp at g1
        | zero =>
          cases g1
          rcases hb with hb | hb
          · cases g2
            simp only [List.take_zero, List.append_nil] at g3
            rw [← hbs] at g3
            refine .inr ⟨0, a, spec, rfl, hb, r', by simpa using g3, g4, g5, g6, ?_⟩
            simp only [Nat.zero_add, List.take_succ_cons, List.take_zero] at g7 ⊢
            rw [hbs']; exact g7
          · exact absurd g2 (hb spec)

/-- The same on Postgres, with two runners. -/
example :
    let run := fun as => ((PgSys.init [sampleRunner, sampleRunner]).run sampleHash [sampleRunner, sampleRunner] as).conc.pg.rows.map (·.id)
    run (pgTwoFailures.take 1) = [1] ∧ run pgTwoFailures = [1] ∧
    run (pgTwoFailures ++ [psAct (16 * sec) (.db (.stmt (.prune ⟨.discarded, .maxLength 0, .except []⟩)))]) = [] := by
  decide

end Rexecutor
