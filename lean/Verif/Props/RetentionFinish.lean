import Verif.Props.Retention
import Verif.Props.Skew

/-!
# C140: how long a finished job is kept after it has finished

A pruner that deletes the jobs of some age (`Pruner::max_age`, rexecutor/src/pruner.rs:277) compares
the age with the time a job was scheduled for (rexecutor/src/backend/memory.rs:460-468,
rexecutor-sqlx/src/query.rs:33-42), not with the time it finished at.
-/

namespace Rexecutor

/-- When a job came to be over, as its record tells: `completed_at`, `cancelled_at` or `discarded_at`, whichever
its status asks for. -/
def Job.overSince (j : Job) : Option Time :=
  match j.status with
  | .complete => j.completedAt
  | .cancelled => j.cancelledAt
  | .discarded => j.discardedAt
  | _ => none

/-- The same for a row. -/
def Row.overSince (r : Row) : Option Time :=
  match r.status with
  | .complete => r.completedAt
  | .cancelled => r.cancelledAt
  | .discarded => r.discardedAt
  | _ => none

/-! ## Deleted at the first prune -/

/-- **C140, a late job in memory.** A job that came to be over `age` or more after the time it was scheduled for
is deleted by the very first prune that deletes jobs of that age and that is made at or after the moment it finished. -/
theorem C140_at_once_in_memory (now : Time) (spec : PruneSpec) (age : Delta) (m : Mem) (k : KeyedJob) (c : Time)
    (_hover : k.job.overSince = some c) (hlate : k.job.scheduledAt + age ≤ c) (hnow : c ≤ now)
    (hs : spec.pruneBy = .maxAge age) (hsel : spec.Selects k.job) :
    k ∉ (m.step now (.prune spec)).2.jobs := by
  rw [C16_exactly now spec age m hs]
  intro h
  have := (List.mem_filter.mp h).2
  rw [decide_eq_true_eq] at this
  refine this ⟨hsel, Or.inl ?_⟩
  simp only [Time, Delta] at *
  omega

/-- A job that was due at time 0 and is completed at time 20. -/
def lateJob : Job := { sampleJob 1 with status := .complete, scheduledAt := 0, completedAt := some 20 }

/-- Jobs of age 10 are pruned at time 21. -/
example : (⟨lateJob, none⟩ : KeyedJob) ∉ ((storeOf [lateJob]).step 21
    (.prune { status := .complete, pruneBy := .maxAge 10, executors := .except [] })).2.jobs :=
  C140_at_once_in_memory 21 _ 10 _ _ 20 rfl (by decide) (by decide) rfl ⟨rfl, by decide⟩

/-- **C140, a late job on Postgres.** The same, up to the microsecond the times are stored with. -/
theorem C140_at_once_on_postgres (tie : Int → Nat) (now : Time) (spec : PruneSpec) (age : Delta) (p : Pg) (row : Row)
    (c : Time) (hn : (p.rows.map (·.id)).Nodup)
    (hover : row.overSince = some c) (hlate : row.scheduledAt + age + 1000 ≤ c) (hnow : c ≤ now)
    (hs : spec.pruneBy = .maxAge age) (hsel : spec.SelectsRow row) :
    row ∉ (p.step tie now (.prune spec)).2.rows := by
  intro h
  obtain ⟨-, h⟩ := (C47_max_age tie now spec age p hn hs row).mp h
  refine h ⟨hsel, ?_⟩
  have hf : spec.status.Finished := by
    rw [← hsel.1]
    unfold Row.overSince at hover
    unfold JobStatus.Finished
    cases hst : row.status <;> simp_all
  rw [if_pos hf]
  have := (pgTime_near (now - age)).1
  simp only [Time, Delta] at *
  omega

/-- A row that was due at time 0 and is completed 20 seconds later. -/
def lateRow : Row := { sampleRow 1 with status := .complete, scheduledAt := 0, completedAt := some 20000000000 }

example : lateRow ∉ ((⟨[lateRow], 2⟩ : Pg).step Int.toNat 20000001000
    (.prune { status := .complete, pruneBy := .maxAge 10000000000, executors := .except [] })).2.rows :=
  C140_at_once_on_postgres _ 20000001000 _ 10000000000 _ _ 20000000000 (by decide) rfl (by decide) (by decide) rfl
    ⟨rfl, by decide⟩

/-! ## The claim fails -/

/-- A job due at time 0 that is not begun before two hours later, as no executor is running, and is completed
then. The prune comes a second later. -/
def lateMem : List TAct :=
  [⟨0, .start sampleEnq⟩, ⟨0, .advance 0⟩, ⟨0, .advance 0⟩, ⟨0, .advance 0⟩,
    ⟨7200000000000, .op (.load "email")⟩, ⟨7201000000000, .op (.complete 0)⟩]

/-- deletes completed jobs an hour old -/
def hourOld : PruneSpec := (Pruner.maxAge 3600000000000 .complete).spec

/-- **C140 fails in memory.** A job that finished a second ago is deleted by the pruner of completed jobs that are
an hour old. -/
theorem C140_violated_in_memory :
    ¬ ∀ (p : Bool) (as as' : List TAct) (k : KeyedJob) (c : Time) (age : Delta),
      k ∈ ((fresh p).run as).mem.jobs → k.job.overSince = some c →
      (∀ e ∈ ((fresh p).run as).trace as', e.ev.touches k.job.id = false) →
      (∀ e ∈ ((fresh p).run as).trace as', ∀ spec : PruneSpec, e.ev = .op (.prune spec) .unit →
        spec.Selects k.job → spec.pruneBy = .maxAge age ∧ c ≤ e.now ∧ e.now < c + age) →
      k ∈ ((fresh p).run (as ++ as')).mem.jobs := by
  intro h
  have h1 := h false lateMem [⟨7202000000000, .op (.prune hourOld)⟩] ((fresh.run lateMem).mem.jobs.head (by decide))
    7201000000000 3600000000000 (List.head_mem _) (by decide) (by decide) ?_
  · revert h1; decide
  · intro e he spec hev _
    have : (fresh.run lateMem).trace [⟨7202000000000, .op (.prune hourOld)⟩] =
      [⟨7202000000000, .op (.prune hourOld) .unit⟩] := rfl
    rw [this, List.mem_singleton] at he
    subst he
    simp only [Ev.op.injEq, Op.prune.injEq, and_true] at hev
    subst hev
    exact ⟨rfl, by decide, by decide⟩

/-- The same as rows. -/
def latePg : List TPgAct :=
  [pgAct 0 (.plain sampleEnq), pgAct 7200000000000 (.stmt (.load "email")), pgAct 7201000000000 (.stmt (.complete 1))]

/-- **C140 fails on Postgres.** -/
theorem C140_violated_on_postgres :
    ¬ ∀ (hash : HashFn) (as as' : List TPgAct) (row : Row) (c : Time) (age : Delta),
      row ∈ (PgConc.run hash {} as).pg.rows → row.overSince = some c →
      (∀ e ∈ (PgConc.run hash {} as).history hash as', e.ev.touches row.id = false) →
      (∀ e ∈ (PgConc.run hash {} as).history hash as', ∀ spec : PruneSpec, e.ev = .stmt (.prune spec) .unit →
        spec.SelectsRow row → spec.pruneBy = .maxAge age ∧ c ≤ e.now ∧ e.now < c + age) →
      row ∈ (PgConc.run hash {} (as ++ as')).pg.rows := by
  intro h
  have h1 := h sampleHash latePg [pgAct 7202000000000 (.stmt (.prune hourOld))]
    ((PgConc.run sampleHash {} latePg).pg.rows.head (by decide))
    7201000000000 3600000000000 (List.head_mem _) (by decide) (by decide) ?_
  · revert h1; decide
  · intro e he spec hev _
    have : (PgConc.run sampleHash {} latePg).history sampleHash [pgAct 7202000000000 (.stmt (.prune hourOld))] =
      [⟨7202000000000, .stmt (.prune hourOld) .unit⟩] := rfl
    rw [this, List.mem_singleton] at he
    subst he
    simp only [PgEv.stmt.injEq, Op.prune.injEq, and_true] at hev
    subst hev
    exact ⟨rfl, by decide, by decide⟩

/-! ## What is left of it -/

/-- **C140, in memory, shortened by the lateness and the error of the clocks.** A job finished at the real time
`finished`, no more than `late` after the time it was scheduled for, both by clocks at most `d` off. Nobody touches it,
and every prune that selects it deletes jobs of age `age` or more. Then it is there until `age - late - 2d` after it
finished. -/
theorem C140_in_memory_partial (p : Bool) (as as' : List TAct) (k : KeyedJob) (c finished : Time) (age late d : Delta)
    (real : Nat → Time)
    (hk : k ∈ ((fresh p).run as).mem.jobs) (_hover : k.job.overSince = some c)
    (hc : finished - d ≤ c ∧ c ≤ finished + d) (hlate : c ≤ k.job.scheduledAt + late)
    (hearly : k.job.scheduledAt + 2 * d < c + age)
    (hreal : ∀ i, finished ≤ real i) (hclocks : Within d real (as'.map (·.now)))
    (hun : ∀ e ∈ ((fresh p).run as).trace as', e.ev.touches k.job.id = false)
    (hprunes : ∀ (i : Nat) e, (((fresh p).run as).trace as')[i]? = some e → ∀ spec : PruneSpec,
      e.ev = .op (.prune spec) .unit → spec.Selects k.job →
      (∃ d', spec.pruneBy = .maxAge d' ∧ age ≤ d') ∧ real i < finished + (age - late - 2 * d)) :
    k ∈ ((fresh p).run (as ++ as')).mem.jobs := by
  refine C128_kept_in_memory p as as' k hk hun ?_
  intro e he spec hev hsel
  obtain ⟨i, hi⟩ := List.mem_iff_getElem?.mp he
  obtain ⟨⟨d', hd', hle⟩, hr⟩ := hprunes i e hi spec hev hsel
  have hnow : (as'.map (·.now))[i]? = some e.now := by
    have : ∀ (s : Conc) (bs : List TAct), (s.trace bs).map (·.now) = bs.map (·.now) := by
      intro s bs
      induction bs generalizing s with
      | nil => rfl
      | cons b bs ih => simp only [Conc.trace, List.map_cons, ih]
    rw [← this ((fresh p).run as) as', List.getElem?_map, hi]; rfl
  have h1 := hclocks i e.now hnow
  have h2 := hreal i
  refine ⟨d', hd', ?_, ?_⟩ <;> (simp only [Time, Delta] at *; omega)

/-- **C140, on Postgres, shortened by the lateness and the error of the clocks**, and the microsecond times are
stored with. -/
theorem C140_on_postgres_partial (hash : HashFn) (as as' : List TPgAct) (row : Row) (c finished : Time)
    (age late d : Delta) (real : Nat → Time)
    (hrow : row ∈ (PgConc.run hash {} as).pg.rows) (hover : row.overSince = some c)
    (hc : finished - d ≤ c) (hlate : c ≤ row.scheduledAt + late)
    (hclocks : Within d real (as'.map (·.now)))
    (hun : ∀ e ∈ (PgConc.run hash {} as).history hash as', e.ev.touches row.id = false)
    (hprunes : ∀ (i : Nat) e, ((PgConc.run hash {} as).history hash as')[i]? = some e → ∀ spec : PruneSpec,
      e.ev = .stmt (.prune spec) .unit → spec.SelectsRow row →
      (∃ d', spec.pruneBy = .maxAge d' ∧ age ≤ d') ∧ real i + 1000 ≤ finished + (age - late - 2 * d)) :
    row ∈ (PgConc.run hash {} (as ++ as')).pg.rows := by
  have hfin : row.status = .complete ∨ row.status = .cancelled ∨ row.status = .discarded := by
    unfold Row.overSince at hover
    cases hst : row.status <;> simp_all
  refine C128_kept_on_postgres hash as as' row hfin hrow hun ?_
  intro e he spec hev hsel
  obtain ⟨i, hi⟩ := List.mem_iff_getElem?.mp he
  obtain ⟨⟨d', hd', hle⟩, hr⟩ := hprunes i e hi spec hev hsel
  have hnow : (as'.map (·.now))[i]? = some e.now := by
    have : ∀ (s : PgConc) (bs : List TPgAct), (s.history hash bs).map (·.now) = bs.map (·.now) := by
      intro s bs
      induction bs generalizing s with
      | nil => rfl
      | cons b bs ih => simp only [PgConc.history, List.map_cons, ih]
    rw [← this (PgConc.run hash {} as) as', List.getElem?_map, hi]; rfl
  have h1 := hclocks i e.now hnow
  refine ⟨d', hd', ?_⟩
  simp only [Time, Delta] at *; omega

/-- A job due at time 0 that is completed a minute later by clocks that are a second ahead. -/
def soonMem : List TAct :=
  [⟨0, .start sampleEnq⟩, ⟨0, .advance 0⟩, ⟨0, .advance 0⟩, ⟨0, .advance 0⟩,
    ⟨59000000000, .op (.load "email")⟩, ⟨60000000000, .op (.complete 0)⟩]

/-- `C140_in_memory_partial` applies: with a clock a second behind, the prune is made less than an hour but a minute
and two seconds after the job has finished. -/
example : (fresh.run soonMem).mem.jobs.head (by decide) ∈
    (fresh.run (soonMem ++ [⟨3590000000000, .op (.prune hourOld)⟩])).mem.jobs := by
  refine C140_in_memory_partial false soonMem [⟨3590000000000, .op (.prune hourOld)⟩] _ 60000000000 59000000000
    3600000000000 60000000000 1000000000 (fun _ => 3591000000000 - 1000000000) (List.head_mem _) (by decide)
    (by decide) (by decide) (by decide) (fun _ => by decide) ?_ (by decide) ?_
  · intro i t h
    match i with
    | 0 =>
      simp only [List.map_cons, List.getElem?_cons_zero, Option.some.injEq] at h
      subst h; decide
    | i + 1 => simp at h
  · intro i e hi spec hev _
    have : (fresh.run soonMem).trace [⟨3590000000000, .op (.prune hourOld)⟩] =
      [⟨3590000000000, .op (.prune hourOld) .unit⟩] := rfl
    rw [show (fresh false) = fresh from rfl, this] at hi
    have he := List.mem_of_getElem? hi
    rw [List.mem_singleton] at he
    subst he
    simp only [Ev.op.injEq, Op.prune.injEq, and_true] at hev
    subst hev
    exact ⟨⟨_, rfl, by decide⟩, by decide⟩

/-- The same as rows. -/
def soonPg : List TPgAct :=
  [pgAct 0 (.plain sampleEnq), pgAct 59000000000 (.stmt (.load "email")), pgAct 60000000000 (.stmt (.complete 1))]

/-- `C140_on_postgres_partial` applies. -/
example : (PgConc.run sampleHash {} soonPg).pg.rows.head (by decide) ∈
    (PgConc.run sampleHash {} (soonPg ++ [pgAct 3590000000000 (.stmt (.prune hourOld))])).pg.rows := by
  refine C140_on_postgres_partial sampleHash soonPg [pgAct 3590000000000 (.stmt (.prune hourOld))] _ 60000000000
    59000000000 3600000000000 60000000000 1000000000 (fun _ => 3590000000000) (List.head_mem _) (by decide)
    (by decide) (by decide) ?_ (by decide) ?_
  · intro i t h
    match i with
    | 0 =>
      simp only [List.map_cons, List.getElem?_cons_zero, Option.some.injEq, pgAct] at h
      subst h; decide
    | i + 1 => simp at h
  · intro i e hi spec hev _
    have : (PgConc.run sampleHash {} soonPg).history sampleHash [pgAct 3590000000000 (.stmt (.prune hourOld))] =
      [⟨3590000000000, .stmt (.prune hourOld) .unit⟩] := rfl
    rw [this] at hi
    have he := List.mem_of_getElem? hi
    rw [List.mem_singleton] at he
    subst he
    simp only [PgEv.stmt.injEq, Op.prune.injEq, and_true] at hev
    subst hev
    exact ⟨⟨_, rfl, by decide⟩, by decide⟩

end Rexecutor
