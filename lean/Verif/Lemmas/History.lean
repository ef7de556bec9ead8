import Verif.Lemmas.ListLemmas
import Verif.Spec.History

/-! Lemmas about histories: what one event does to one job. -/

namespace Rexecutor

/-- What an event does to a stored job. -/
def applyEv (now : Time) : Ev → Job → Job
  | .op (.complete id) .unit, j => if j.id = id then j.markComplete now else j
  | .op (.retryable id t e) .unit, j => if j.id = id then j.markRetryable now t e else j
  | .op (.discarded id e) .unit, j => if j.id = id then j.markDiscarded now e else j
  | .op (.cancelled id e) .unit, j => if j.id = id then j.markCancelled now e else j
  | .op (.snoozed id t) .unit, j => if j.id = id then j.markSnoozed t else j
  | .op (.rerun id) .unit, j => if j.id = id then j.markRerunable now else j
  | .op (.update job) .unit, j => if j.id = job.id then job else j
  | .op (.load _) (.job (some job)), j => if j.id = job.id then j.markExecuting now else j
  | .wrote job .unit, j => if j.id = job.id then job else j
  | _, j => j

@[simp] theorem applyEv_id (now : Time) (ev : Ev) (j : Job) : (applyEv now ev j).id = j.id := by
  unfold applyEv
  split <;> (try split) <;> simp_all [Job.markComplete, Job.markRetryable, Job.markDiscarded,
    Job.markCancelled, Job.markSnoozed, Job.markRerunable, Job.markExecuting]

/-- ids of the stored jobs -/
def Mem.ids (m : Mem) : List Int := m.jobs.map fun k => k.job.id

/-- id taken but not yet inserted by an enqueue call -/
def Pending.waitingId : Pending → Option Int
  | .allocated id _ => some id
  | _ => none

/-- The ids touched by an event as a stored job. -/
def Ev.touches (id : Int) (e : Ev) : Bool :=
  e.handsOut id || e.finishes id || e.putsBack id

/-- All the ways an event can touch job `id`. -/
inductive Touch (id : Int) : Ev → Prop where
  | complete : Touch id (.op (.complete id) .unit)
  | retryable (t e) : Touch id (.op (.retryable id t e) .unit)
  | discarded (e) : Touch id (.op (.discarded id e) .unit)
  | cancelled (e) : Touch id (.op (.cancelled id e) .unit)
  | snoozed (t) : Touch id (.op (.snoozed id t) .unit)
  | rerun : Touch id (.op (.rerun id) .unit)
  | update (j : Job) (h : j.id = id) : Touch id (.op (.update j) .unit)
  | load (x) (j : Job) (h : j.id = id) : Touch id (.op (.load x) (.job (some j)))
  | wrote (j : Job) (h : j.id = id) : Touch id (.wrote j .unit)

theorem touch_of_touches {id : Int} {ev : Ev} (h : ev.touches id = true) : Touch id ev := by
  simp only [Ev.touches, Ev.putsBack, Bool.or_eq_true] at h
  rcases h with (h | h) | ((((h | h) | h) | h) | h)
  · unfold Ev.handsOut at h; split at h
    · exact .load _ _ (by simpa using h)
    · simp at h
  · unfold Ev.finishes at h; split at h
    · simp only [beq_iff_eq] at h; subst h; exact .complete
    · simp only [beq_iff_eq] at h; subst h; exact .discarded _
    · simp only [beq_iff_eq] at h; subst h; exact .cancelled _
    · simp at h
  · unfold Ev.retries at h; split at h
    · simp only [beq_iff_eq] at h; subst h; exact .retryable _ _
    · simp at h
  · unfold Ev.snoozes at h; split at h
    · simp only [beq_iff_eq] at h; subst h; exact .snoozed _
    · simp at h
  · unfold Ev.reruns at h; split at h
    · simp only [beq_iff_eq] at h; subst h; exact .rerun
    · simp at h
  · unfold Ev.updates at h; split at h
    · exact .update _ (by simpa using h)
    · simp at h
  · unfold Ev.conflicts at h; split at h
    · exact .wrote _ (by simpa using h)
    · simp at h

theorem not_touches {id : Int} {ev : Ev} (h : ev.touches id = false) :
    ev.handsOut id = false ∧ ev.finishes id = false ∧ ev.retries id = false ∧ ev.snoozes id = false ∧
    ev.reruns id = false ∧ ev.updates id = false ∧ ev.conflicts id = false ∧ ev.failureOf id = none := by
  simp only [Ev.touches, Ev.putsBack, Bool.or_eq_false_iff] at h
  obtain ⟨⟨h1, h2⟩, ⟨⟨⟨h3, h4⟩, h5⟩, h6⟩, h7⟩ := h
  refine ⟨h1, h2, h3, h4, h5, h6, h7, ?_⟩
  unfold Ev.failureOf
  split <;> simp_all [Ev.retries, Ev.finishes]

theorem applyEv_of_not_touches {now : Time} {ev : Ev} {j : Job} (h : ev.touches j.id = false) :
    applyEv now ev j = j := by
  unfold applyEv
  split <;> (try split) <;>
    simp_all [Ev.touches, Ev.handsOut, Ev.finishes, Ev.putsBack, Ev.retries, Ev.snoozes, Ev.reruns,
      Ev.updates, Ev.conflicts]

/-! ### By-id updates on stores with distinct ids -/

theorem mem_replaceAt {l r : List KeyedJob} {k k₂ x : KeyedJob}
    (hn : ((l ++ k :: r).map fun k => k.job.id).Nodup)
    (hx : x ∈ l ++ k₂ :: r) :
    (x ∈ l ++ k :: r ∧ x.job.id ≠ k.job.id) ∨ x = k₂ := by
  simp only [List.map_append, List.map_cons] at hn
  rw [List.nodup_append] at hn
  obtain ⟨h1, h2, h3⟩ := hn
  rw [List.nodup_cons] at h2
  rcases List.mem_append.mp hx with hx | hx
  · left
    refine ⟨by simp [hx], ?_⟩
    exact h3 _ (List.mem_map_of_mem hx) _ (by simp)
  · rcases List.mem_cons.mp hx with rfl | hx
    · exact Or.inr rfl
    · left
      refine ⟨by simp [hx], ?_⟩
      intro he
      exact h2.1 (he ▸ List.mem_map_of_mem hx)

/-- One step on a job that is in the store afterwards. -/
inductive StepJob (now : Time) (ev : Ev) (m : Mem) (k' : KeyedJob) : Prop where
  | new (e : EnqueuableJob) (hev : ev = .inserted k'.job.id e)
      (hk : k' = e.intoJob now k'.job.id)
  | old (k : KeyedJob) (hk : k ∈ m.jobs) (hkey : k'.key = k.key)
      (hjob : k'.job = applyEv now ev k.job)

theorem stepJob_onJob {now : Time} {ev : Ev} {m : Mem} {id : Int} {f : Job → Job} {w : Bool}
    {k' : KeyedJob} (hn : m.ids.Nodup)
    (hev : ∀ j : Job, (m.onJob id f w).1 = .unit → applyEv now ev j = if j.id = id then f j else j)
    (hev' : (m.onJob id f w).1 ≠ .unit → ∀ j, applyEv now ev j = j)
    (h : k' ∈ (m.onJob id f w).2.jobs) : StepJob now ev m k' := by
  rcases onJob_cases id f w m with ⟨hne, he⟩ | ⟨l, k, r, h1, h2, h3, h4, h5, -⟩
  · rw [he] at h hev'
    exact .old k' h rfl (hev' (by simp) _).symm
  · rw [h5] at h
    unfold Mem.ids at hn
    rw [h1] at hn
    rcases mem_replaceAt hn h with ⟨hm, hne⟩ | rfl
    · refine .old k' (h1 ▸ hm) rfl ?_
      rw [hev _ h4, if_neg (by rw [← h3]; exact hne)]
    · refine .old k (by rw [h1]; simp) rfl ?_
      rw [hev _ h4, if_pos h3]

theorem stepJob_same {now : Time} {ev : Ev} {m : Mem} {k' : KeyedJob}
    (hev : ∀ j, applyEv now ev j = j) (h : k' ∈ m.jobs) : StepJob now ev m k' :=
  .old k' h rfl (hev _).symm

theorem onJob_res (id : Int) (f : Job → Job) (w : Bool) (m : Mem) :
    (m.onJob id f w).1 = .unit ∨ (m.onJob id f w).1 = .err (.jobNotFound id) := by
  rcases onJob_cases id f w m with ⟨-, he⟩ | ⟨l, k, r, h1, h2, h3, h4, h5, -⟩
  · right; rw [he]
  · left; exact h4

theorem step_op_job {now : Time} {m : Mem} {o : Op} {k' : KeyedJob} (hn : m.ids.Nodup)
    (h : k' ∈ (m.step now o).2.jobs) : StepJob now (.op o (m.step now o).1) m k' := by
  cases o with
  | complete id =>
    refine stepJob_onJob hn ?_ ?_ h
    · intro j hu; simp only [Mem.step, Mem.markComplete]; rw [hu]; rfl
    · intro hu j
      have := onJob_res id (Job.markComplete now) false m
      simp only [Mem.step, Mem.markComplete]; rw [this.resolve_left hu]; rfl
  | retryable id t e =>
    refine stepJob_onJob hn ?_ ?_ h
    · intro j hu; simp only [Mem.step, Mem.markRetryable]; rw [hu]; rfl
    · intro hu j
      have := onJob_res id (Job.markRetryable now t e) true m
      simp only [Mem.step, Mem.markRetryable]; rw [this.resolve_left hu]; rfl
  | discarded id e =>
    refine stepJob_onJob hn ?_ ?_ h
    · intro j hu; simp only [Mem.step, Mem.markDiscarded]; rw [hu]; rfl
    · intro hu j
      have := onJob_res id (Job.markDiscarded now e) false m
      simp only [Mem.step, Mem.markDiscarded]; rw [this.resolve_left hu]; rfl
  | cancelled id e =>
    refine stepJob_onJob hn ?_ ?_ h
    · intro j hu; simp only [Mem.step, Mem.markCancelled]; rw [hu]; rfl
    · intro hu j
      have := onJob_res id (Job.markCancelled now e) false m
      simp only [Mem.step, Mem.markCancelled]; rw [this.resolve_left hu]; rfl
  | snoozed id t =>
    refine stepJob_onJob hn ?_ ?_ h
    · intro j hu; simp only [Mem.step, Mem.markSnoozed]; rw [hu]; rfl
    · intro hu j
      have := onJob_res id (Job.markSnoozed t) true m
      simp only [Mem.step, Mem.markSnoozed]; rw [this.resolve_left hu]; rfl
  | rerun id =>
    refine stepJob_onJob hn ?_ ?_ h
    · intro j hu; simp only [Mem.step, Mem.rerun]; rw [hu]; rfl
    · intro hu j
      have := onJob_res id (Job.markRerunable now) true m
      simp only [Mem.step, Mem.rerun]; rw [this.resolve_left hu]; rfl
  | update job =>
    refine stepJob_onJob hn ?_ ?_ h
    · intro j hu; simp only [Mem.step, Mem.update]; rw [hu]; rfl
    · intro hu j
      have := onJob_res job.id (fun _ => job) true m
      simp only [Mem.step, Mem.update]; rw [this.resolve_left hu]; rfl
  | prune spec => exact .old k' ((prune_sublist now spec m).subset h) rfl rfl
  | query q => exact .old k' h rfl rfl
  | subscribe x => exact .old k' h rfl rfl
  | notifyAll => exact .old k' h rfl rfl
  | load x =>
    simp only [Mem.step] at h ⊢
    rcases load_cases now x m with ⟨-, he⟩ | ⟨l, k, r, h1, h2, h3, h4, h5⟩
    · rw [he] at h ⊢
      exact .old k' h rfl rfl
    · rw [h5] at h ⊢
      unfold Mem.ids at hn
      rw [h1] at hn
      rcases mem_replaceAt hn h with ⟨hm, hne⟩ | rfl
      · refine .old k' (h1 ▸ hm) rfl ?_
        simp only [applyEv]
        rw [if_neg]; exact hne
      · refine .old k (by rw [h1]; simp) rfl ?_
        simp only [applyEv]
        rw [if_pos]; rfl

theorem advance_matched_ev (now : Time) (m : Mem) (job : Job) :
    (m.advance now (.matched job)).1 = .wrote job (m.update job).1 := by
  simp only [Mem.advance]; split <;> simp_all

theorem advance_matched_mem (now : Time) (m : Mem) (job : Job) :
    (m.advance now (.matched job)).2.2 = (m.update job).2 := by
  simp only [Mem.advance]; split <;> simp_all

theorem step_job {now : Time} {c : Conc} {a : Act} {k' : KeyedJob} (hn : c.mem.ids.Nodup)
    (h : k' ∈ (c.step now a).2.mem.jobs) : StepJob now (c.step now a).1 c.mem k' := by
  cases a with
  | start e => exact .old k' h rfl rfl
  | op o => exact step_op_job hn h
  | advance i =>
    simp only [Conc.step] at h ⊢
    cases hp : c.calls[i]? with
    | none => rw [hp] at h; exact .old k' h rfl rfl
    | some p =>
      simp only [hp] at h ⊢
      cases p with
      | start e =>
        simp only [Mem.advance] at h ⊢
        cases hc : e.criteria with
        | none => simp only [hc] at h ⊢; exact .old k' h rfl rfl
        | some u =>
          simp only [hc] at h ⊢
          split at h <;> exact .old k' h rfl rfl
      | noMatch e => exact .old k' h rfl rfl
      | allocated id e =>
        simp only [Mem.advance] at h ⊢
        rcases List.mem_append.mp h with h | h
        · exact .old k' h rfl rfl
        · have : k' = e.intoJob now id := by simpa using h
          subst this
          exact .new e rfl rfl
      | pushed id e =>
        simp only [Mem.advance, notify_jobs] at h ⊢
        exact .old k' h rfl rfl
      | matched job =>
        rw [advance_matched_ev]
        rw [advance_matched_mem] at h
        refine stepJob_onJob hn ?_ ?_ h
        · intro j hu; simp only [Mem.update]; rw [hu]; rfl
        · intro hu j
          have := onJob_res job.id (fun _ => job) true c.mem
          simp only [Mem.update]; rw [this.resolve_left hu]; rfl
      | done r => exact .old k' h rfl rfl

/-! ### Runs and traces -/

theorem Conc.run_append (c : Conc) (as bs : List TAct) :
    c.run (as ++ bs) = (c.run as).run bs := by
  induction as generalizing c with
  | nil => rfl
  | cons a as ih => simp [Conc.run, ih]

theorem Conc.trace_append (c : Conc) (as bs : List TAct) :
    c.trace (as ++ bs) = c.trace as ++ (c.run as).trace bs := by
  induction as generalizing c with
  | nil => rfl
  | cons a as ih => simp [Conc.run, Conc.trace, ih]

@[simp] theorem Conc.trace_length (c : Conc) (as : List TAct) : (c.trace as).length = as.length := by
  induction as generalizing c with
  | nil => rfl
  | cons a as ih => simp [Conc.trace, ih]

/-- A split of the trace comes from a split of the schedule. -/
theorem Conc.trace_split {c : Conc} {as : List TAct} {pre post : List TEv}
    (h : c.trace as = pre ++ post) :
    ∃ as₁ as₂, as = as₁ ++ as₂ ∧ c.trace as₁ = pre ∧ (c.run as₁).trace as₂ = post := by
  induction pre generalizing c as with
  | nil => exact ⟨[], as, rfl, rfl, h⟩
  | cons e pre ih =>
    cases as with
    | nil => simp [Conc.trace] at h
    | cons a as =>
      simp only [Conc.trace, List.cons_append, List.cons.injEq] at h
      obtain ⟨as₁, as₂, h1, h2, h3⟩ := ih h.2
      refine ⟨a :: as₁, as₂, by simp [h1], ?_, ?_⟩
      · simp [Conc.trace, h2, h.1]
      · simpa [Conc.run] using h3

theorem Conc.trace_cons {c : Conc} {as : List TAct} {e : TEv} {post : List TEv}
    (h : c.trace as = e :: post) :
    ∃ a as', as = a :: as' ∧ e = { now := a.now, ev := (c.step a.now a.act).1 } ∧
      (c.step a.now a.act).2.trace as' = post := by
  cases as with
  | nil => simp [Conc.trace] at h
  | cons a as =>
    simp only [Conc.trace, List.cons.injEq] at h
    exact ⟨a, as, rfl, h.1.symm, h.2⟩

/-- Induction over schedules, adding one action at the end. -/
theorem snocInduction {α : Type _} {P : List α → Prop} (nil : P []) (snoc : ∀ l a, P l → P (l ++ [a]))
    (l : List α) : P l := by
  rw [← List.reverse_reverse l]
  induction l.reverse with
  | nil => exact nil
  | cons a t ih => rw [List.reverse_cons]; exact snoc _ _ ih

end Rexecutor
