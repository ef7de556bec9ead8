import Verif.Props.PgPrune
import Verif.Props.Store
import Verif.Lemmas.PgRow
import Verif.Model.Api
import Verif.Spec.Samples

/-! # C144: how many jobs a pruner by number leaves in the store -/

namespace Rexecutor

/-! ## On Postgres -/

/-- The event puts a row into this status: it inserts a row with it, or is a committed
statement that sets it. -/
def PgEv.reaches (st : JobStatus) : PgEv → Bool
  | .inserted row _ => row.status == st
  | .handedOut _ _ => st == .executing
  | .stmt (.complete _) .unit => st == .complete
  | .stmt (.retryable _ _ _) .unit => st == .retryable
  | .stmt (.discarded _ _) .unit => st == .discarded
  | .stmt (.cancelled _ _) .unit => st == .cancelled
  | .stmt (.snoozed _ _) .unit => st == .scheduled || st == .retryable
  | .stmt (.rerun _) .unit => st == .scheduled || st == .retryable
  | _ => false

/-- The number of rows the specification selects. -/
def PruneSpec.countRows (s : PruneSpec) (rows : List Row) : Nat := (rows.filter fun r => decide (s.SelectsRow r)).length

private theorem few_subset {l l' : List Int} (hn : l.Nodup) (hs : ∀ a ∈ l, a ∈ l') : l.length ≤ l'.length := by
  induction l generalizing l' with
  | nil => simp
  | cons a l ih =>
    rw [List.nodup_cons] at hn
    have ha : a ∈ l' := hs a List.mem_cons_self
    have := ih (l' := l'.erase a) hn.2 fun b hb => by
      have hne : b ≠ a := fun e => hn.1 (e ▸ hb)
      exact (List.mem_erase_of_ne hne).mpr (hs b (List.mem_cons_of_mem _ hb))
    rw [List.length_erase_of_mem ha] at this
    have := List.length_pos_of_mem ha
    simp only [List.length_cons]
    omega

private theorem few_selects {now : Time} {ev : PgEv} {r r' : Row} {s : PruneSpec} (h : RowMove now ev r r')
    (he : ev.reaches s.status = false) (hs : s.SelectsRow r') : s.SelectsRow r := by
  obtain ⟨h1, h2⟩ := hs
  cases h with
  | keep _ e => subst e; exact ⟨h1, h2⟩
  | handout x t res h hr e => subst h; subst e; rw [← h1] at he; simp [PgEv.reaches, Row.markExecuting] at he
  | replaced rep enq h e => subst e; exact ⟨h1, h2⟩
  | complete h e => subst h; subst e; rw [← h1] at he; simp [PgEv.reaches, Row.markComplete] at he
  | retryable next err h e => subst h; subst e; rw [← h1] at he; simp [PgEv.reaches, Row.markRetryable] at he
  | discarded err h e => subst h; subst e; rw [← h1] at he; simp [PgEv.reaches, Row.markDiscarded] at he
  | cancelled err h e => subst h; subst e; rw [← h1] at he; simp [PgEv.reaches, Row.markCancelled] at he
  | snoozed next h e =>
    subst h; subst e; rw [← h1] at he
    simp only [PgEv.reaches, Row.markSnoozed] at he
    split at he <;> simp at he
  | rerun h e =>
    subst h; subst e; rw [← h1] at he
    simp only [PgEv.reaches, Row.markRerunable] at he
    split at he <;> simp at he
  | update job hid h e => subst e; exact ⟨h1, h2⟩

private theorem few_map_le (s : PruneSpec) (f : Row → Row) : ∀ rows : List Row, (∀ r ∈ rows, s.SelectsRow (f r) → s.SelectsRow r) →
    s.countRows (rows.map f) ≤ s.countRows rows
  | [], _ => Nat.le_refl _
  | r :: rows, h => by
    have ih := few_map_le s f rows fun q hq => h q (List.mem_cons_of_mem _ hq)
    have hr := h r List.mem_cons_self
    simp only [PruneSpec.countRows, List.map_cons, List.filter_cons, decide_eq_true_eq] at *
    by_cases h1 : s.SelectsRow (f r)
    · simp only [h1, hr h1, if_true, List.length_cons]; omega
    · by_cases h2 : s.SelectsRow r <;> simp only [h1, h2, if_true, if_false, List.length_cons] <;> omega

private theorem few_update_le (s : PruneSpec) (id : Int) (f : Row → Row) : ∀ rows : List Row, (rowIds rows).Nodup →
    s.countRows (updateRows id f rows).1 ≤ s.countRows rows + 1
  | [], _ => Nat.zero_le _
  | r :: rows, hn => by
    have hn' : r.id ∉ rowIds rows ∧ (rowIds rows).Nodup := List.nodup_cons.mp hn
    have ih := few_update_le s id f rows hn'.2
    by_cases hr : r.id = id
    · have hsame : rows.map (fun r => if r.id = id then f r else r) = rows :=
        (List.map_congr_left fun q hq => if_neg fun h => hn'.1 (mem_rowIds.mpr ⟨q, hq, h.trans hr.symm⟩)).trans (List.map_id' _)
      simp only [PruneSpec.countRows, updateRows, List.map_cons, hsame, if_pos hr, List.filter_cons]
      split <;> split <;> (try simp only [List.length_cons]) <;> omega
    · simp only [PruneSpec.countRows, updateRows, List.map_cons, if_neg hr, List.filter_cons] at *
      split <;> (try simp only [List.length_cons]) <;> omega

private theorem few_step {c : PgConc} (H : PgInv c) (hash : HashFn) (tie : Int → Nat) (now : Time) (a : PgAct) (s : PruneSpec) :
    s.countRows (c.step hash tie now a).2.pg.rows ≤
      s.countRows c.pg.rows + if (c.step hash tie now a).1.reaches s.status then 1 else 0 := by
  have H' := H.step hash tie now a
  have h := table_step H hash tie now a
  generalize (c.step hash tie now a).1 = ev at *
  have hnd := H'.nodup
  generalize (c.step hash tie now a).2.pg.rows = rows' at *
  have hn := H.nodup
  generalize c.pg.rows = rows at *
  clear H H'
  cases h with
  | same _ ht hi => omega
  | insert row uc hm =>
    simp only [PruneSpec.countRows, List.filter_append, List.length_append, PgEv.reaches]
    by_cases hr : s.SelectsRow row
    · simp [hr.1, hr]
    · simp [hr]
  | change _ id f hm ht hi hf =>
    by_cases he : ev.reaches s.status = true
    · rw [if_pos he]; exact few_update_le s id f rows hn
    · simp only [he, if_false, Bool.false_eq_true, Nat.add_zero]
      refine few_map_le s _ rows fun r hr hsel => ?_
      split at hsel
      · rename_i hid
        exact few_selects (hf r hr hid) (by simpa using he) hsel
      · exact hsel
  | prune spec _ hs =>
    have : s.countRows rows' ≤ s.countRows rows := by
      have h1 : (rowIds (rows'.filter fun r => decide (s.SelectsRow r))).Nodup :=
        hnd.sublist (List.filter_sublist.map _)
      have h2 := few_subset (l' := rowIds (rows.filter fun r => decide (s.SelectsRow r))) h1 fun i hi => by
        obtain ⟨r, hr, rfl⟩ := mem_rowIds.mp hi
        have := List.mem_filter.mp hr
        exact mem_rowIds.mpr ⟨r, List.mem_filter.mpr ⟨hs r this.1, this.2⟩, rfl⟩
      simpa [rowIds, PruneSpec.countRows] using h2
    omega
  | ghost id hm => omega

/-- **C144, on Postgres.** Take any history of interleaved calls, a prune by number that is
carried out after it, and any history after that. At most the allowed number of the selected
jobs are stored, and as many more as jobs have reached the status since the prune. -/
theorem C144_on_postgres (hash : HashFn) (as₁ as₂ : List TPgAct) (tie : Int → Nat) (t : Time) (spec : PruneSpec) (n : Nat)
    (hs : spec.pruneBy = .maxLength n)
    (hdone : ((PgConc.run hash {} as₁).step hash tie t (.stmt (.prune spec))).1 ≠ .blocked) :
    ((PgConc.run hash ((PgConc.run hash {} as₁).step hash tie t (.stmt (.prune spec))).2 as₂).pg.rows.filter
        fun r => decide (spec.SelectsRow r)).length ≤
      n + (PgConc.history hash ((PgConc.run hash {} as₁).step hash tie t (.stmt (.prune spec))).2 as₂).countP
        fun e => e.ev.reaches spec.status := by
  obtain ⟨hn, hp⟩ := C47_interleaved hash as₁ tie t spec
  have H : PgInv ((PgConc.run hash {} as₁).step hash tie t (.stmt (.prune spec))).2 := (pgInv hash as₁).step ..
  have h0 : spec.countRows ((PgConc.run hash {} as₁).step hash tie t (.stmt (.prune spec))).2.pg.rows ≤ n := by
    rcases hp with hp | ⟨hp, -⟩
    · rw [hp]
      have := (C47_max_length tie t spec n (PgConc.run hash {} as₁).pg hn hs).1
      unfold PruneSpec.countRows
      omega
    · exact absurd hp hdone
  generalize ((PgConc.run hash {} as₁).step hash tie t (.stmt (.prune spec))).2 = c at *
  have main : ∀ (as : List TPgAct) (c : PgConc), PgInv c → spec.countRows (c.run hash as).pg.rows ≤
      spec.countRows c.pg.rows + (c.history hash as).countP fun e => e.ev.reaches spec.status := by
    intro as
    induction as with
    | nil => intro c _; exact Nat.le_add_right ..
    | cons a as ih =>
      intro c H
      have h1 := few_step H hash a.tie a.now a.act spec
      have h2 := ih _ (H.step hash a.tie a.now a.act)
      simp only [PgConc.run, PgConc.history, List.countP_cons]
      omega
  have := main as₂ c H
  unfold PruneSpec.countRows at *
  omega

/-- Two finished jobs, one of which is pruned, and a third that is finished afterwards. -/
example :
    let done := fun id => [pgAct 2000 (.stmt (.complete id))]
    let as₁ := [pgAct 0 (.plain sampleEnq), pgAct 0 (.plain sampleEnq), pgAct 0 (.plain sampleEnq)] ++ done 1 ++ done 2
    let spec : PruneSpec := ⟨.complete, .maxLength 1, .except []⟩
    let c := ((PgConc.run sampleHash {} as₁).step sampleHash (fun i => i.toNat) 3000 (.stmt (.prune spec))).2
    (PgConc.run sampleHash {} as₁).pg.rows.map (·.status) = [.complete, .complete, .scheduled] ∧
    c.pg.rows.length = 2 ∧ (PgConc.run sampleHash c (done 3)).pg.rows.map (·.status) = [.complete, .complete] ∧
    (PgConc.history sampleHash c (done 3)).countP (fun e => e.ev.reaches .complete) = 1 := by decide

/-! ## In memory -/

/-- `k` jobs are enqueued, then the specification is applied; `rounds` times. -/
def fillAndPrune (t : Time) (e : EnqueuableJob) (spec : PruneSpec) (k : Nat) : Nat → List TApi
  | 0 => []
  | rounds + 1 => List.replicate k ⟨t, .enqueue e⟩ ++ ⟨t, .op (.prune spec)⟩ :: fillAndPrune t e spec k rounds

private theorem mem_run_append (as bs : List TApi) : ∀ m : Mem, m.runApi (as ++ bs) = (m.runApi as).runApi bs := by
  induction as with
  | nil => intro m; rfl
  | cons a as ih => intro m; exact ih _

private theorem few_fill {t : Time} {e : EnqueuableJob} {spec : PruneSpec} (hc : e.criteria = none)
    (hsel : ∀ id, spec.Selects (e.intoJob t id).job) (k : Nat) : ∀ m : Mem,
    ((m.runApi (List.replicate k ⟨t, .enqueue e⟩)).jobs.filter fun q => spec.Selects q.job).length =
      (m.jobs.filter fun q => spec.Selects q.job).length + k := by
  induction k with
  | zero => intro m; rfl
  | succ k ih =>
    intro m
    rw [List.replicate_succ, Mem.runApi, ih]
    have : (m.api t (.enqueue e)).2.jobs = m.jobs ++ [e.intoJob t (wrapI32 m.allocated)] := by
      simp only [Mem.api, Mem.enqueue, hc, Mem.insertNew, Mem.notify]
      split <;> rfl
    rw [this, List.filter_append, List.length_append]
    simp only [List.filter_cons, hsel, decide_true, if_true, List.filter_nil, List.length_singleton]
    omega

/-- **C144, in memory, exactly.** From any store: let `k` selected jobs come in and a prune by
number with limit `n` follow, again and again. Each time the number of selected jobs changes
by the difference of `k` and `n`, down to none. So it grows for ever if more than `n` jobs
come in between two prunes, and all jobs are lost in the end if fewer do. -/
theorem C144_exactly_in_memory (m : Mem) (t : Time) (e : EnqueuableJob) (spec : PruneSpec) (n k rounds : Nat)
    (hs : spec.pruneBy = .maxLength n) (hc : e.criteria = none) (hsel : ∀ id, spec.Selects (e.intoJob t id).job) :
    ((m.runApi (fillAndPrune t e spec k rounds)).jobs.filter fun q => spec.Selects q.job).length =
      (m.jobs.filter fun q => spec.Selects q.job).length + rounds * (k - n) - rounds * (n - k) := by
  induction rounds generalizing m with
  | zero => simp [fillAndPrune, Mem.runApi]
  | succ rounds ih =>
    rw [fillAndPrune, mem_run_append, Mem.runApi, ih]
    simp only [Mem.api]
    rw [C17_max_length_partial t spec n _ hs, List.length_drop, few_fill hc hsel]
    rw [Nat.add_mul, Nat.add_mul]
    by_cases h : n ≤ k
    · rw [Nat.sub_eq_zero_of_le h, Nat.mul_zero]; omega
    · rw [Nat.sub_eq_zero_of_le (Nat.le_of_not_le h), Nat.mul_zero]; omega

/-- **C144 fails in memory**: whatever the limit, one job more than the limit coming in between
two prunes is enough for the number of stored jobs to exceed every bound right after a prune. -/
theorem C144_violated_in_memory (n bound : Nat) : ∃ (t : Time) (e : EnqueuableJob) (spec : PruneSpec) (rounds : Nat),
    spec.pruneBy = .maxLength n ∧
    bound < ((Mem.runApi {} (fillAndPrune t e spec (n + 1) rounds)).jobs.filter fun q => spec.Selects q.job).length := by
  refine ⟨0, sampleEnq, ⟨.scheduled, .maxLength n, .except []⟩, bound + 1, rfl, ?_⟩
  rw [C144_exactly_in_memory {} 0 sampleEnq _ n (n + 1) (bound + 1) rfl rfl (fun id => ⟨rfl, by simp⟩)]
  simp

/-- Three jobs come in for each prune that is to keep two; after three prunes three are left. -/
example : ((Mem.runApi {} (fillAndPrune 0 sampleEnq ⟨.scheduled, .maxLength 2, .only ["mail"]⟩ 3 3)).jobs.map fun q => q.job.id) = [6, 7, 8] ∧
    ∀ id, (⟨.scheduled, .maxLength 2, .only ["mail"]⟩ : PruneSpec).Selects (sampleEnq.intoJob 0 id).job :=
  ⟨by decide, fun _ => ⟨rfl, by simp [EnqueuableJob.intoJob, sampleEnq]⟩⟩

end Rexecutor
