import Verif.Props.Pruner
import Verif.Props.PgPrune
import Verif.Props.Store
import Verif.Props.Progress
import Verif.Lemmas.PgRow
import Verif.Lemmas.Life

/-!
# C128: a finished job is kept as long as asked for, and then deleted

The loop of the pruner (rexecutor/src/pruner/runner.rs) together with what a prune call does to
the store.
-/

namespace Rexecutor

/-! ## The loop -/

private theorem turn_bounds {s : Schedule} {t : Time} {l : Lags} {y : PruneTurn} {g ℓ : Delta}
    (hticks : ∀ u, ∃ n, s.next u = some n ∧ n ≤ u + g) (hg : 10000000 ≤ g)
    (hl : ((l.reading + l.oversleep + l.enqueue + l.rest : Nat) : Int) ≤ ℓ) (hy : pruneTurn s t l = some y) :
    y.done ≤ t + (g - 10000000) + ℓ ∧ y.again ≤ y.at' + 10000000 + ℓ := by
  obtain ⟨n, hn, hle⟩ := hticks t
  unfold pruneTurn at hy
  rw [hn] at hy
  simp only [Option.some.injEq] at hy
  subst hy
  simp only [Time, Delta, ms] at *
  refine ⟨by omega, ?_⟩
  split <;> omega

private theorem loop_serves {s : Schedule} {g ℓ : Delta} (hticks : ∀ u, ∃ n, s.next u = some n ∧ n ≤ u + g)
    (hg : 10000000 ≤ g) (u : Time) (ls : List Lags) (t : Time)
    (hlags : ∀ l ∈ ls, ((l.reading + l.oversleep + l.enqueue + l.rest : Nat) : Int) ≤ ℓ)
    (ht : t ≤ u + 10000000 + ℓ) (hlong : ∃ x ∈ pruneLoop s t ls, u ≤ x.at') :
    ∃ x ∈ pruneLoop s t ls, u ≤ x.at' ∧ x.done ≤ u + g + 2 * ℓ := by
  induction ls generalizing t with
  | nil => simp [pruneLoop] at hlong
  | cons l ls ih =>
    simp only [pruneLoop] at hlong ⊢
    cases hy : pruneTurn s t l with
    | none => rw [hy] at hlong; simp at hlong
    | some y =>
      rw [hy] at hlong
      simp only at hlong ⊢
      have hb := turn_bounds hticks hg (hlags l List.mem_cons_self) hy
      by_cases hu : u ≤ y.at'
      · refine ⟨y, List.mem_cons_self, hu, ?_⟩
        have := hb.1
        simp only [Time, Delta] at *
        omega
      · obtain ⟨x, hx, hux⟩ := hlong
        rcases List.mem_cons.mp hx with rfl | hx
        · exact absurd hux hu
        · obtain ⟨z, hz, h1, h2⟩ := ih y.again (fun l hl => hlags l (List.mem_cons_of_mem _ hl))
            (by have := hb.2; simp only [Time, Delta] at *; omega) ⟨x, hx, hux⟩
          exact ⟨z, List.mem_cons_of_mem _ hz, h1, h2⟩

/-- **C128, how often the pruner runs.** For every schedule with a tick in every interval of length `g`
(at least 10 ms) and all lags that add up to at most `ℓ` in each turn: from every time `u` on that the
loop reaches, a whole run of the pruner begins and ends before `u + g + 2 ℓ`. -/
theorem C128_pruner_runs (s : Schedule) (g ℓ : Delta) (hticks : ∀ u, ∃ n, s.next u = some n ∧ n ≤ u + g)
    (hg : 10000000 ≤ g) (t u : Time) (ls : List Lags)
    (hlags : ∀ l ∈ ls, ((l.reading + l.oversleep + l.enqueue + l.rest : Nat) : Int) ≤ ℓ)
    (ht : t ≤ u) (hlong : ∃ x ∈ pruneLoop s t ls, u ≤ x.at') :
    ∃ x ∈ pruneLoop s t ls, u ≤ x.at' ∧ x.done ≤ u + g + 2 * ℓ := by
  refine loop_serves hticks hg u ls t hlags ?_ hlong
  obtain ⟨x, hx, -⟩ := hlong
  cases ls with
  | nil => simp [pruneLoop] at hx
  | cons l ls =>
    have := hlags l List.mem_cons_self
    simp only [Time, Delta] at *
    omega

/-- A run is under way for half a second every second; from second 2 on, the next whole run ends before
second 4.5. -/
example : ∃ x ∈ pruneLoop everySecond 0 (List.replicate 4 ⟨1, 2, 500000000, 3⟩),
    2000000000 ≤ x.at' ∧ x.done ≤ 2000000000 + 1000000000 + 2 * 500000006 := by decide

/-! ## Postgres -/

theorem pgTime_near (t : Time) : t - 1000 < pgTime t ∧ pgTime t < t + 1000 := by
  unfold pgTime
  generalize t - epoch2000 = x
  have h1 := Int.tmod_lt_of_pos x (show (0 : Int) < 1000 by decide)
  have h2 : -1000 < Int.tmod x 1000 := by
    have := Int.tmod_lt_of_pos (-x) (show (0 : Int) < 1000 by decide)
    rw [Int.neg_tmod] at this
    omega
  simp only [Time] at *
  omega

private theorem prune_from {c : PgConc} {hash : HashFn} {tie : Int → Nat} {now : Time} {a : PgAct} {spec : PruneSpec}
    {res : Res} (h : (c.step hash tie now a).1 = .stmt (.prune spec) res) :
    (c.step hash tie now a).2.pg = (c.pg.step tie now (.prune spec)).2 := by
  cases a with
  | handout x => simp [PgConc.step] at h
  | unique e uc => simp [PgConc.step] at h
  | abort i => simp only [PgConc.step] at h; split at h <;> simp at h
  | plain e => simp only [PgConc.step] at h; split at h <;> simp at h
  | stmt o =>
    cases o with
    | load x => simp [PgConc.step] at h
    | prune sp =>
      simp only [PgConc.step] at h ⊢
      split at h
      · simp at h
      · rename_i hb
        simp only [PgEv.stmt.injEq, Op.prune.injEq] at h
        obtain ⟨rfl, -⟩ := h
        rw [if_neg hb]
    | _ =>
      simp only [PgConc.step] at h
      split at h
      · simp at h
      · simp at h
  | advance i =>
    simp only [PgConc.step] at h
    split at h
    · simp at h
    · rename_i s hi
      cases s with
      | inserted e uc' row' => simp [PgConc.advance] at h
      | handout x => simp [PgConc.advance] at h
      | done r => simp [PgConc.advance] at h
      | looking x t snap => simp only [PgConc.advance] at h; split at h <;> simp at h
      | unique e uc t => simp only [PgConc.advance] at h; split at h <;> simp at h
      | holding e uc t => simp only [PgConc.advance] at h; split at h <;> simp at h
      | missing e uc t => simp only [PgConc.advance] at h; split at h <;> simp at h
      | found e uc id st =>
        simp only [PgConc.advance] at h
        split at h
        · split at h
          · split at h
            · simp at h
            · split at h <;> simp at h
          · simp at h
        · simp at h
      | replacing e uc rep id => simp [PgConc.advance] at h
      | locked x t id => simp only [PgConc.advance] at h; split at h <;> simp at h

/-- Once a row is not there, it does not come back. -/
private theorem stays_away {hash : HashFn} {as as' : List TPgAct} {id : Int}
    (hid : id ∈ pgInserted (PgConc.history hash {} as)) (hno : ∀ r ∈ (PgConc.run hash {} as).pg.rows, r.id ≠ id) :
    ∀ r ∈ (PgConc.run hash {} (as ++ as')).pg.rows, r.id ≠ id := by
  intro r hr e
  rw [PgConc.run_append] at hr
  exact follow_row (pgInv hash as) (pgHist hash as) hid (fun _ => False) (fun _ => True) (fun _ _ _ _ _ _ _ h => h) as'
    (fun _ _ => trivial) (fun r hr e => hno r hr e) r hr e

/-- A row nobody touches is as it was, if it is there at all. -/
private theorem row_as_was {hash : HashFn} {as as' : List TPgAct} {row : Row}
    (hrow : row ∈ (PgConc.run hash {} as).pg.rows)
    (hun : ∀ e ∈ (PgConc.run hash {} as).history hash as', e.ev.touches row.id = false) :
    ∀ r ∈ (PgConc.run hash {} (as ++ as')).pg.rows, r.id = row.id → r = row := by
  intro r hr e
  rw [PgConc.run_append] at hr
  refine follow_row (pgInv hash as) (pgHist hash as) ((pgHist hash as).ids row hrow) (fun r => r = row)
    (fun ev => ev.touches row.id = false) ?_ as' hun ?_ r hr e
  · intro now ev r r' _ hm hok h
    subst h
    exact hm.quiet hok
  · intro r hr e
    exact row_unique (pgInv hash as).nodup hr hrow e

/-- **C128, deleted in time, on Postgres.** In every interleaving of any calls of any number of clients,
with a pruner that deletes finished jobs of an age `d`: take a row the pruner selects and that nobody
touches again, and a time `u` not before the loop was started and at least a microsecond after the row is
`d` old. If the schedule has a tick in every interval of length `g`, the lags of a turn add up to at most
`ℓ`, and the prune calls of the runs between `u` and `u + g + 2 ℓ` are carried out, then the row is gone by
`u + g + 2 ℓ`, and whatever happens then, for good. -/
theorem C128_deleted_on_postgres (hash : HashFn) (as as' : List TPgAct) (row : Row) (spec : PruneSpec) (d : Delta)
    (s : Schedule) (g ℓ : Delta) (t u : Time) (ls : List Lags)
    (hspec : spec.pruneBy = .maxAge d) (hfin : spec.status = .complete ∨ spec.status = .cancelled ∨ spec.status = .discarded)
    (hrow : row ∈ (PgConc.run hash {} as).pg.rows) (hsel : spec.SelectsRow row)
    (hun : ∀ e ∈ (PgConc.run hash {} as).history hash as', e.ev.touches row.id = false)
    (hticks : ∀ u, ∃ n, s.next u = some n ∧ n ≤ u + g) (hg : 10000000 ≤ g)
    (hlags : ∀ l ∈ ls, ((l.reading + l.oversleep + l.enqueue + l.rest : Nat) : Int) ≤ ℓ)
    (ht : t ≤ u) (hold : row.scheduledAt + d + 1000 ≤ u) (hlong : ∃ x ∈ pruneLoop s t ls, u ≤ x.at')
    (hcalls : ∀ x ∈ pruneLoop s t ls, u ≤ x.at' → x.done ≤ u + g + 2 * ℓ →
      ∃ e ∈ (PgConc.run hash {} as).history hash as', x.at' ≤ e.now ∧ e.now ≤ x.done ∧ e.ev = .stmt (.prune spec) .unit) :
    ∃ as₁ a as₂, as' = as₁ ++ a :: as₂ ∧ u ≤ a.now ∧ a.now ≤ u + g + 2 * ℓ ∧
      ∀ bs, ∀ r ∈ (PgConc.run hash {} (as ++ as₁ ++ a :: bs)).pg.rows, r.id ≠ row.id := by
  obtain ⟨x, hx, h1, h2⟩ := C128_pruner_runs s g ℓ hticks hg t u ls hlags ht hlong
  obtain ⟨e, he, h3, h4, h5⟩ := hcalls x hx h1 h2
  obtain ⟨pre, post, hsplit⟩ := List.append_of_mem he
  obtain ⟨as₁, a, as₂, rfl, hpre, rfl, -⟩ := PgConc.history_split hsplit
  simp only at h3 h4 h5
  refine ⟨as₁, a, as₂, rfl, by simp only [Time] at *; omega, by simp only [Time, Delta] at *; omega, ?_⟩
  have hun₁ : ∀ e ∈ (PgConc.run hash {} as).history hash as₁, e.ev.touches row.id = false := by
    intro e he
    exact hun e (by rw [PgConc.history_append]; exact List.mem_append_left _ he)
  rw [← PgConc.run_append] at h5
  have hgone : ∀ r ∈ (PgConc.run hash {} (as ++ as₁ ++ [a])).pg.rows, r.id ≠ row.id := by
    intro r hr e
    rw [PgConc.run_append hash {} (as ++ as₁) [a]] at hr
    simp only [PgConc.run] at hr
    rw [prune_from h5] at hr
    have hn : ((PgConc.run hash {} (as ++ as₁)).pg.rows.map (·.id)).Nodup := (pgInv hash (as ++ as₁)).nodup
    obtain ⟨hm, hk⟩ := (C47_max_age a.tie a.now spec d _ hn hspec r).mp hr
    have := row_as_was hrow hun₁ r hm e
    subst this
    refine hk ⟨hsel, ?_⟩
    rw [if_pos (show spec.status.Finished from hfin)]
    have := (pgTime_near (a.now - d)).1
    simp only [Time, Delta] at *
    omega
  intro bs
  have : as ++ as₁ ++ a :: bs = (as ++ as₁ ++ [a]) ++ bs := by simp
  rw [this]
  refine stays_away ?_ hgone
  have := (pgHist hash as).ids row hrow
  rw [List.append_assoc, PgConc.history_append]
  unfold pgInserted at this ⊢
  rw [List.filterMap_append]
  exact List.mem_append_left _ this

theorem everySecond_ticks (u : Time) : ∃ n, everySecond.next u = some n ∧ n ≤ u + 1000000000 := by
  refine ⟨_, rfl, ?_⟩
  simp only [Time] at *
  omega

/-- deletes cancelled jobs a second old -/
def secondOld : PruneSpec := (Pruner.maxAge 1000000000 .cancelled).spec

/-- a row enqueued and cancelled -/
def retainedPg : List TPgAct := [pgAct 0 (.plain sampleEnq), pgAct 5 (.stmt (.cancelled 1 sampleErr))]

/-- `C128_deleted_on_postgres` applies: a pruner with a tick every second, and a row that has been due at
time 0 and is cancelled. The run just before second 4 deletes it. -/
example : ∃ as₁ a as₂, [pgAct 7 (.plain sampleEnq), pgAct 3990000000 (.stmt (.prune secondOld))] = as₁ ++ a :: as₂ ∧
    3000000000 ≤ a.now ∧ a.now ≤ 3000000000 + 1000000000 + 2 * 0 ∧
    ∀ bs, ∀ r ∈ (PgConc.run sampleHash {} (retainedPg ++ as₁ ++ a :: bs)).pg.rows, r.id ≠ 1 := by
  have key := C128_deleted_on_postgres sampleHash retainedPg
    [pgAct 7 (.plain sampleEnq), pgAct 3990000000 (.stmt (.prune secondOld))]
    ((PgConc.run sampleHash {} retainedPg).pg.rows.head (by decide)) secondOld 1000000000 everySecond 1000000000 0 0 3000000000
    (List.replicate 5 ⟨0, 0, 0, 0⟩) rfl (by decide) (List.head_mem _) (by decide) (by decide) everySecond_ticks (by decide)
    (by decide) (by decide) (by decide) (by decide) ?_
  · exact key
  · have hl : (pruneLoop everySecond 0 (List.replicate 5 ⟨0, 0, 0, 0⟩)).map (fun (x : PruneTurn) => (x.at', x.done)) =
      [(990000000, 990000000), (1990000000, 1990000000), (2990000000, 2990000000), (3990000000, 3990000000),
        (4990000000, 4990000000)] := by decide
    intro x hx h1 h2
    have := List.mem_map_of_mem (f := fun (x : PruneTurn) => (x.at', x.done)) hx
    rw [hl] at this
    simp only [List.mem_cons, Prod.mk.injEq, List.not_mem_nil, or_false] at this
    refine ⟨⟨3990000000, .stmt (.prune secondOld) .unit⟩, ?_, ?_, ?_, rfl⟩
    · exact List.mem_cons_of_mem _ (List.mem_singleton.mpr rfl)
    · simp only [Time] at *; omega
    · simp only [Time] at *; omega

/-- **C128, kept long enough, on Postgres.** In every interleaving: a finished row that nobody touches is
there as it was, as long as every prune call carried out in the meantime either does not select it or
deletes by age and comes at least a microsecond before the row has reached that age. -/
theorem C128_kept_on_postgres (hash : HashFn) (as as' : List TPgAct) (row : Row)
    (hfin : row.status = .complete ∨ row.status = .cancelled ∨ row.status = .discarded)
    (hrow : row ∈ (PgConc.run hash {} as).pg.rows)
    (hun : ∀ e ∈ (PgConc.run hash {} as).history hash as', e.ev.touches row.id = false)
    (hprunes : ∀ e ∈ (PgConc.run hash {} as).history hash as', ∀ spec : PruneSpec, e.ev = .stmt (.prune spec) .unit →
      spec.SelectsRow row → ∃ d, spec.pruneBy = .maxAge d ∧ e.now + 1000 ≤ row.scheduledAt + d) :
    row ∈ (PgConc.run hash {} (as ++ as')).pg.rows := by
  induction as' using snoc_induction with
  | nil => simpa using hrow
  | snoc as' a ih =>
    rw [PgConc.history_append] at hun hprunes
    have hk := ih (fun e he => hun e (List.mem_append_left _ he)) (fun e he => hprunes e (List.mem_append_left _ he))
    have hun' := hun ⟨a.now, _⟩ (List.mem_append_right _ (List.mem_singleton.mpr rfl))
    have hp' := hprunes ⟨a.now, _⟩ (List.mem_append_right _ (List.mem_singleton.mpr rfl))
    rw [← List.append_assoc, PgConc.run_append hash {} (as ++ as') [a]]
    rw [← PgConc.run_append] at hun' hp'
    simp only [PgConc.run] at hun' hp' ⊢
    rcases (table_step (pgInv hash (as ++ as')) hash a.tie a.now a.act).forth hk with ⟨spec, he⟩ | ⟨r', hr', -, hm⟩
    · rw [prune_from he]
      have hn : ((PgConc.run hash {} (as ++ as')).pg.rows.map (·.id)).Nodup := (pgInv hash (as ++ as')).nodup
      by_cases hsel : spec.SelectsRow row
      · obtain ⟨d, hd, hage⟩ := hp' spec he hsel
        refine (C47_max_age a.tie a.now spec d _ hn hd row).mpr ⟨hk, ?_⟩
        rintro ⟨-, h⟩
        have hf : spec.status.Finished := by rw [← hsel.1]; exact hfin
        rw [if_pos hf] at h
        have := (pgTime_near (a.now - d)).2
        simp only [Time, Delta] at *
        omega
      · exact (C47_frame a.tie a.now spec _ hn).2.1 row hk hsel
    · rw [hm.quiet hun'] at hr'
      exact hr'

/-- Of two prunes the first finds the cancelled row too young, the second deletes it. -/
example : ((PgConc.run sampleHash {} (retainedPg ++ [pgAct 990000000 (.stmt (.prune secondOld))])).pg.rows.map (·.id) = [1]) ∧
    ((PgConc.run sampleHash {} (retainedPg ++ [pgAct 990000000 (.stmt (.prune secondOld)),
      pgAct 1990000000 (.stmt (.prune secondOld))])).pg.rows.map (·.id) = []) ∧
    (∀ e ∈ (PgConc.run sampleHash {} retainedPg).history sampleHash [pgAct 990000000 (.stmt (.prune secondOld))],
      e.ev.touches 1 = false ∧ e.now + 1000 ≤ 0 + 1000000000) := by decide

/-! ## In memory -/

private theorem mem_history_split {as : List TAct} {c : Conc} {pre post : List TEv} {e : TEv}
    (h : c.trace as = pre ++ e :: post) :
    ∃ as₁ a as₂, as = as₁ ++ a :: as₂ ∧ e = ⟨a.now, ((c.run as₁).step a.now a.act).1⟩ := by
  induction pre generalizing c as with
  | nil =>
    cases as with
    | nil => simp [Conc.trace] at h
    | cons a as =>
      simp only [Conc.trace, List.nil_append, List.cons.injEq] at h
      exact ⟨[], a, as, rfl, h.1.symm⟩
  | cons p pre ih =>
    cases as with
    | nil => simp [Conc.trace] at h
    | cons a as =>
      simp only [Conc.trace, List.cons_append, List.cons.injEq] at h
      obtain ⟨as₁, b, as₂, rfl, h2⟩ := ih h.2
      exact ⟨a :: as₁, b, as₂, rfl, h2⟩

private theorem mem_prune_from {c : Conc} {now : Time} {a : Act} {spec : PruneSpec} {res : Res}
    (h : (c.step now a).1 = .op (.prune spec) res) : a = .op (.prune spec) := by
  cases a with
  | start e => simp [Conc.step] at h
  | op o =>
    simp only [Conc.step, Ev.op.injEq] at h
    rw [h.1]
  | advance i =>
    simp only [Conc.step] at h
    cases hc : c.calls[i]? with
    | none => rw [hc] at h; simp at h
    | some p =>
      rw [hc] at h
      cases p with
      | start e =>
        simp only [Mem.advance] at h
        split at h
        · simp at h
        · split at h <;> simp at h
      | noMatch e => simp [Mem.advance] at h
      | allocated id e => simp [Mem.advance] at h
      | pushed id e => simp [Mem.advance] at h
      | matched job => simp only [advance_matched_ev] at h; cases h
      | done r => simp [Mem.advance] at h

/-- Following one job through a schedule: what is left of it is as it was, as long as nobody touches it;
and once it is not there, it does not come back. -/
private theorem job_as_was {p : Bool} {as as' : List TAct} {id : Int} {P : KeyedJob → Prop}
    (hids : idsTaken ((fresh p).trace (as ++ as')) ≤ 4294967296)
    (hid : id ∈ insertedIds ((fresh p).trace as))
    (hP : ∀ k ∈ ((fresh p).run as).mem.jobs, k.job.id = id → P k)
    (hun : ∀ e ∈ ((fresh p).run as).trace as', e.ev.touches id = false ∨ ∀ k, ¬ P k) :
    ∀ k ∈ ((fresh p).run (as ++ as')).mem.jobs, k.job.id = id → P k := by
  revert hids hun
  refine snocInduction (P := fun as' => idsTaken ((fresh p).trace (as ++ as')) ≤ 4294967296 →
    (∀ e ∈ ((fresh p).run as).trace as', e.ev.touches id = false ∨ ∀ k, ¬ P k) →
    ∀ k ∈ ((fresh p).run (as ++ as')).mem.jobs, k.job.id = id → P k) ?_ ?_ as'
  · intro _ _; simpa using hP
  · intro as' a ih hids hun k' hk' hid'
    rw [← List.append_assoc] at hids hk'
    rw [Conc.trace_append] at hids hun
    have hids₁ : idsTaken ((fresh p).trace (as ++ as')) ≤ 4294967296 := by
      rw [idsTaken_append] at hids; omega
    have ih := ih hids₁ (fun e he => hun e (List.mem_append_left _ he))
    have H := histOk_run p (as ++ as') hids₁
    rw [Conc.run_append] at hk'
    simp only [Conc.run] at hk'
    have hin : id ∈ insertedIds ((fresh p).trace (as ++ as')) := by
      rw [Conc.trace_append, insertedIds_append]; exact List.mem_append_left _ hid
    cases step_job H.ids_nodup hk' with
    | new e hev hk =>
      rw [hid'] at hev
      exact absurd (inserted_waiting hev) (H.not_waiting hin)
    | old k hk hkey hj =>
      have hkid : k.job.id = id := by
        have := applyEv_id a.now (((fresh p).run (as ++ as')).step a.now a.act).1 k.job
        rw [← hj] at this
        rw [← this]; exact hid'
      have hPk := ih k hk hkid
      rcases hun ⟨a.now, _⟩ (List.mem_append_right _ (List.mem_singleton.mpr rfl)) with h | h
      · simp only at h
        rw [← Conc.run_append] at h
        have : k' = k := by
          cases k' with
          | mk key' job' =>
            cases k with
            | mk key job =>
              simp only at hj hkey h hkid
              subst hkey
              rw [hj, applyEv_of_not_touches (by rw [hkid]; exact h)]
        rw [this]; exact hPk
      · exact absurd hPk (h k)

/-- **C128, deleted in time, in memory.** The same for the in-memory backend, in every interleaving of the
steps of any number of calls up to 2^32 enqueues: a job the pruner selects and nobody touches again is gone
by `u + g + 2 ℓ` for every time `u`, not before the loop was started, at which it is `d` old. -/
theorem C128_deleted_in_memory (p : Bool) (as as' : List TAct) (k : KeyedJob) (spec : PruneSpec) (d : Delta)
    (s : Schedule) (g ℓ : Delta) (t u : Time) (ls : List Lags)
    (hids : idsTaken ((fresh p).trace (as ++ as')) ≤ 4294967296)
    (hspec : spec.pruneBy = .maxAge d)
    (hk : k ∈ ((fresh p).run as).mem.jobs) (hsel : spec.Selects k.job)
    (hun : ∀ e ∈ ((fresh p).run as).trace as', e.ev.touches k.job.id = false)
    (hticks : ∀ u, ∃ n, s.next u = some n ∧ n ≤ u + g) (hg : 10000000 ≤ g)
    (hlags : ∀ l ∈ ls, ((l.reading + l.oversleep + l.enqueue + l.rest : Nat) : Int) ≤ ℓ)
    (ht : t ≤ u) (hold : k.job.scheduledAt + d ≤ u) (hlong : ∃ x ∈ pruneLoop s t ls, u ≤ x.at')
    (hcalls : ∀ x ∈ pruneLoop s t ls, u ≤ x.at' → x.done ≤ u + g + 2 * ℓ →
      ∃ e ∈ ((fresh p).run as).trace as', x.at' ≤ e.now ∧ e.now ≤ x.done ∧ e.ev = .op (.prune spec) .unit) :
    ∃ as₁ a as₂, as' = as₁ ++ a :: as₂ ∧ u ≤ a.now ∧ a.now ≤ u + g + 2 * ℓ ∧
      ∀ bs, bs <+: as₂ → ∀ k' ∈ ((fresh p).run (as ++ as₁ ++ a :: bs)).mem.jobs, k'.job.id ≠ k.job.id := by
  obtain ⟨x, hx, h1, h2⟩ := C128_pruner_runs s g ℓ hticks hg t u ls hlags ht hlong
  obtain ⟨e, he, h3, h4, h5⟩ := hcalls x hx h1 h2
  obtain ⟨pre, post, hsplit⟩ := List.append_of_mem he
  obtain ⟨as₁, a, as₂, rfl, rfl⟩ := mem_history_split hsplit
  simp only at h3 h4 h5
  refine ⟨as₁, a, as₂, rfl, by simp only [Time] at *; omega, by simp only [Time, Delta] at *; omega, ?_⟩
  have less : ∀ {l m : List TAct}, l <+: m → idsTaken ((fresh p).trace m) ≤ 4294967296 →
      idsTaken ((fresh p).trace l) ≤ 4294967296 := by
    rintro l m ⟨n, rfl⟩ h
    rw [Conc.trace_append, idsTaken_append] at h
    omega
  have hids₁ : idsTaken ((fresh p).trace (as ++ as₁)) ≤ 4294967296 :=
    less ⟨a :: as₂, by simp⟩ hids
  have hin : k.job.id ∈ insertedIds ((fresh p).trace as) :=
    (histOk_run p as (less ⟨as₁ ++ a :: as₂, rfl⟩ hids)).mem_inserted hk
  have hnd := (histOk_run p as (less ⟨as₁ ++ a :: as₂, rfl⟩ hids)).ids_nodup
  have hwas := job_as_was (P := fun k' => k' = k) hids₁ hin (fun k' hk' e => eq_of_id hnd hk hk' e)
    (fun e he => .inl (hun e (by rw [Conc.trace_append]; exact List.mem_append_left _ he)))
  rw [← Conc.run_append] at h5
  have hact := mem_prune_from h5
  have hgone : ∀ k' ∈ ((fresh p).run (as ++ as₁ ++ [a])).mem.jobs, k'.job.id ≠ k.job.id := by
    intro k' hk' e
    rw [Conc.run_append] at hk'
    simp only [Conc.run] at hk'
    rw [hact] at hk'
    simp only [Conc.step] at hk'
    rw [C16_exactly a.now spec d _ hspec] at hk'
    obtain ⟨hm, hq⟩ := List.mem_filter.mp hk'
    have := hwas k' hm e
    subst this
    have hq := of_decide_eq_true hq
    refine hq ⟨hsel, .inl ?_⟩
    simp only [Time, Delta] at *
    omega
  rintro bs ⟨cs, rfl⟩
  have e1 : as ++ as₁ ++ a :: bs = (as ++ as₁ ++ [a]) ++ bs := by simp
  rw [e1]
  refine job_as_was (P := fun _ => False) (less ⟨cs, by simp⟩ hids) ?_ (fun k' hk' e => hgone k' hk' e)
    (fun _ _ => .inr fun _ => id)
  rw [List.append_assoc, Conc.trace_append, insertedIds_append]
  exact List.mem_append_left _ hin

/-- **C128, kept long enough, in memory.** In every interleaving of the steps of any calls: a job that
nobody touches is there as it was, as long as every prune call made in the meantime either does not select
it or deletes by age and comes when the job is less than that age away from its scheduled time. -/
theorem C128_kept_in_memory (p : Bool) (as as' : List TAct) (k : KeyedJob)
    (hk : k ∈ ((fresh p).run as).mem.jobs)
    (hun : ∀ e ∈ ((fresh p).run as).trace as', e.ev.touches k.job.id = false)
    (hprunes : ∀ e ∈ ((fresh p).run as).trace as', ∀ spec : PruneSpec, e.ev = .op (.prune spec) .unit →
      spec.Selects k.job → ∃ d, spec.pruneBy = .maxAge d ∧ e.now < k.job.scheduledAt + d ∧ k.job.scheduledAt < e.now + d) :
    k ∈ ((fresh p).run (as ++ as')).mem.jobs := by
  revert hun hprunes
  refine snocInduction (P := fun as' => (∀ e ∈ ((fresh p).run as).trace as', e.ev.touches k.job.id = false) →
    (∀ e ∈ ((fresh p).run as).trace as', ∀ spec : PruneSpec, e.ev = .op (.prune spec) .unit →
      spec.Selects k.job → ∃ d, spec.pruneBy = .maxAge d ∧ e.now < k.job.scheduledAt + d ∧ k.job.scheduledAt < e.now + d) →
    k ∈ ((fresh p).run (as ++ as')).mem.jobs) ?_ ?_ as'
  · intro _ _; simpa using hk
  · intro as' a ih hun hprunes
    rw [Conc.trace_append] at hun hprunes
    have hk' := ih (fun e he => hun e (List.mem_append_left _ he)) (fun e he => hprunes e (List.mem_append_left _ he))
    have hun' := hun ⟨a.now, _⟩ (List.mem_append_right _ (List.mem_singleton.mpr rfl))
    have hp' := hprunes ⟨a.now, _⟩ (List.mem_append_right _ (List.mem_singleton.mpr rfl))
    rw [← List.append_assoc, Conc.run_append]
    rw [← Conc.run_append] at hun' hp'
    simp only [Conc.run] at hun' hp' ⊢
    refine untouched_stays hk' hun' ?_
    intro spec hact
    by_cases hsel : spec.Selects k.job
    · obtain ⟨d, hd, h1, h2⟩ := hp' spec (by rw [hact]; rfl) hsel
      have := C16_exactly a.now spec d ((fresh p).run (as ++ as')).mem hd
      simp only [Mem.step] at this
      rw [this]
      refine List.mem_filter.mpr ⟨hk', decide_eq_true ?_⟩
      rintro ⟨-, h | h⟩ <;> simp only [Time, Delta] at * <;> omega
    · have := (C15_prune_frame a.now spec ((fresh p).run (as ++ as')).mem).2.2.1
      simp only [Mem.step] at this
      have hm : k ∈ ((fresh p).run (as ++ as')).mem.jobs.filter (fun k => ¬ spec.Selects k.job) :=
        List.mem_filter.mpr ⟨hk', decide_eq_true hsel⟩
      rw [← this] at hm
      exact (List.mem_filter.mp hm).1

/-- a job enqueued and cancelled -/
def retainedMem : List TAct :=
  [⟨0, .start sampleEnq⟩, ⟨0, .advance 0⟩, ⟨0, .advance 0⟩, ⟨0, .advance 0⟩, ⟨5, .op (.cancelled 0 sampleErr)⟩]

/-- `C128_deleted_in_memory` applies. -/
example : ∃ as₁ a as₂, [⟨7, .start sampleEnq⟩, ⟨3990000000, .op (.prune secondOld)⟩, ⟨3990000001, .advance 1⟩] = as₁ ++ a :: as₂ ∧
    3000000000 ≤ a.now ∧ a.now ≤ 3000000000 + 1000000000 + 2 * 0 ∧
    ∀ bs, bs <+: as₂ → ∀ k' ∈ (fresh.run (retainedMem ++ as₁ ++ a :: bs)).mem.jobs, k'.job.id ≠ 0 := by
  have key := C128_deleted_in_memory false retainedMem
    [⟨7, .start sampleEnq⟩, ⟨3990000000, .op (.prune secondOld)⟩, ⟨3990000001, .advance 1⟩]
    ((fresh.run retainedMem).mem.jobs.head (by decide)) secondOld 1000000000 everySecond 1000000000 0 0 3000000000
    (List.replicate 5 ⟨0, 0, 0, 0⟩) (by decide) rfl (List.head_mem _) (by decide) (by decide) everySecond_ticks (by decide)
    (by decide) (by decide) (by decide) (by decide) ?_
  · obtain ⟨as₁, a, as₂, h1, h2, h3, h4⟩ := key
    exact ⟨as₁, a, as₂, h1, h2, h3, fun bs hb k' hk' e => h4 bs hb k' hk' (e.trans (by decide))⟩
  · have hl : (pruneLoop everySecond 0 (List.replicate 5 ⟨0, 0, 0, 0⟩)).map (fun (x : PruneTurn) => (x.at', x.done)) =
      [(990000000, 990000000), (1990000000, 1990000000), (2990000000, 2990000000), (3990000000, 3990000000),
        (4990000000, 4990000000)] := by decide
    intro x hx h1 h2
    have := List.mem_map_of_mem (f := fun (x : PruneTurn) => (x.at', x.done)) hx
    rw [hl] at this
    simp only [List.mem_cons, Prod.mk.injEq, List.not_mem_nil, or_false] at this
    refine ⟨⟨3990000000, .op (.prune secondOld) .unit⟩, ?_, ?_, ?_, rfl⟩
    · exact List.mem_cons_of_mem _ List.mem_cons_self
    · simp only [Time] at *; omega
    · simp only [Time] at *; omega

/-- Of two prunes the first finds the cancelled job too young, the second deletes it. -/
example : ((fresh.run (retainedMem ++ [⟨999999999, .op (.prune secondOld)⟩])).mem.jobs.map (fun k => k.job.id) = [0]) ∧
    ((fresh.run (retainedMem ++ [⟨999999999, .op (.prune secondOld)⟩, ⟨1000000000, .op (.prune secondOld)⟩])).mem.jobs.map
      (fun k => k.job.id) = []) ∧
    (∀ e ∈ (fresh.run retainedMem).trace [⟨999999999, .op (.prune secondOld)⟩],
      e.ev.touches 0 = false ∧ e.now < 0 + 1000000000 ∧ 0 < e.now + 1000000000) := by decide

end Rexecutor
