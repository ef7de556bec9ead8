import Verif.Lemmas.Life
import Verif.Spec.Samples
import Verif.Spec.Store
import Verif.Props.Dispatch

/-! # C07, C10, C14, C29, C51: what is recorded about a job -/

namespace Rexecutor

/-! ## C07, C10 -/

/-- The error list a history should have produced for job `id`: one entry per
retry, discard or cancel of the job, oldest first, with the given type and
message, the time of the call, and the job's attempt number at that moment
(hand-outs minus snoozes so far, as a 16-bit number). `seen` is the part of the
history already looked at. -/
def recordedFailures (id : Int) (seen : List TEv) : List TEv → List JobError
  | [] => []
  | e :: rest =>
    (match e.ev.failureOf id with
      | some f => [{ attempt := (((handouts id seen : Int) - snoozes id seen) % 65536).toNat
                     errorType := f.errorType, details := f.message, recordedAt := e.now }]
      | none => [])
    ++ recordedFailures id (seen ++ [e]) rest

private theorem recordedFailures_append (id : Int) (seen a b : List TEv) :
    recordedFailures id seen (a ++ b) = recordedFailures id seen a ++ recordedFailures id (seen ++ a) b := by
  induction a generalizing seen with
  | nil => simp [recordedFailures]
  | cons e a ih => simp [recordedFailures, ih]

private theorem untouched {id : Int} {h : List TEv} (hu : ∀ x ∈ h, x.ev.touches id = false) :
    handouts id h = 0 ∧ snoozes id h = 0 ∧ ∀ seen, recordedFailures id seen h = [] := by
  induction h with
  | nil => simp [handouts, snoozes, recordedFailures]
  | cons e h ih =>
    have he := hu e (by simp)
    obtain ⟨h1, h2, h3⟩ := ih (fun x hx => hu x (by simp [hx]))
    simp only [Ev.touches, Bool.or_eq_false_iff, Ev.putsBack] at he
    refine ⟨?_, ?_, ?_⟩
    · simp only [handouts, List.countP_cons] at *; simp [he, h1]
    · simp only [snoozes, List.countP_cons] at *; simp [he, h2]
    · intro seen
      simp only [recordedFailures, h3, List.append_nil]
      have : e.ev.failureOf id = none := by
        unfold Ev.failureOf
        split <;> simp_all [Ev.retries, Ev.finishes]
      rw [this]

private theorem handouts_snoc (id : Int) (h : List TEv) (e : TEv) :
    handouts id (h ++ [e]) = handouts id h + if e.ev.handsOut id then 1 else 0 := by
  simp [handouts, List.countP_append, List.countP_cons]

private theorem snoozes_snoc (id : Int) (h : List TEv) (e : TEv) :
    snoozes id (h ++ [e]) = snoozes id h + if e.ev.snoozes id then 1 else 0 := by
  simp [snoozes, List.countP_append, List.countP_cons]

/-- The counters of a stored job against its history. -/
private theorem counters (paused : Bool) (as : List TAct)
    (hb : idsTaken ((fresh paused).trace as) ≤ 4294967296) :
    ∀ k ∈ ((fresh paused).run as).mem.jobs,
      (∀ e ∈ (fresh paused).trace as, e.ev.edits k.job.id = false) →
      k.job.attempt = (handouts k.job.id ((fresh paused).trace as) : Int)
        - snoozes k.job.id ((fresh paused).trace as) ∧
      k.job.errors = recordedFailures k.job.id [] ((fresh paused).trace as) := by
  refine life_induction paused (fun h j => (∀ e ∈ h, e.ev.edits j.id = false) →
      j.attempt = (handouts j.id h : Int) - snoozes j.id h ∧
      j.errors = recordedFailures j.id [] h) ?_ ?_ as hb
  · intro h now id e hu _
    obtain ⟨h1, h2, h3⟩ := untouched hu
    simp only [intoJob_id]
    refine ⟨?_, ?_⟩
    · rw [handouts_snoc, snoozes_snoc, h1, h2]; simp [Ev.handsOut, Ev.snoozes, EnqueuableJob.intoJob]
    · rw [recordedFailures_append, h3]; simp [recordedFailures, Ev.failureOf, EnqueuableJob.intoJob]
  · intro h now ev j ih hed
    simp only [applyEv_id] at hed ⊢
    have hev := hed ⟨now, ev⟩ (by simp)
    obtain ⟨ha, he⟩ := ih (fun e he => hed e (by simp [he]))
    rw [handouts_snoc, snoozes_snoc, recordedFailures_append]
    simp only [List.nil_append, recordedFailures, List.append_nil]
    rw [← ha, ← he]
    simp only [Ev.edits, Bool.or_eq_false_iff] at hev
    cases ht : ev.touches j.id with
    | false =>
      obtain ⟨h1, -, -, h4, -, -, -, h8⟩ := not_touches ht
      rw [applyEv_of_not_touches ht]
      simp [h1, h4, h8, ha]
    | true =>
      revert hev
      cases touch_of_touches ht <;>
        simp_all [applyEv, Ev.handsOut, Ev.snoozes, Ev.failureOf, Ev.updates, Ev.conflicts,
          Job.markComplete, Job.markDiscarded, Job.markCancelled, Job.markExecuting,
          Job.markRetryable, Job.markSnoozed, Job.markRerunable, ExecError.intoJobError, asU16]
      all_goals omega

/-- **C07.** In every history, for every stored job that was never edited by
`update_job` or a uniqueness conflict: its attempt number is the number of
hand-outs minus the number of snoozes of that job. (So retry, discard, cancel,
complete and rerun leave it unchanged.) -/
theorem C07_attempt_counts_executions (paused : Bool) (as : List TAct) (k : KeyedJob)
    (hb : idsTaken ((fresh paused).trace as) ≤ 2 ^ 32)
    (hk : k ∈ ((fresh paused).run as).mem.jobs)
    (hed : ∀ e ∈ (fresh paused).trace as, e.ev.edits k.job.id = false) :
    k.job.attempt = (handouts k.job.id ((fresh paused).trace as) : Int)
      - snoozes k.job.id ((fresh paused).trace as) :=
  (counters paused as (by simpa using hb) k hk hed).1

/-- **C07, hand-outs.** The job a stream receives carries the attempt number
"hand-outs before, minus snoozes before, plus one". -/
theorem C07_handout_attempt (paused : Bool) (as : List TAct)
    (hb : idsTaken ((fresh paused).trace as) ≤ 2 ^ 32)
    (pre post : List TEv) (e : TEv) (x : String) (j : Job)
    (h : (fresh paused).trace as = pre ++ e :: post)
    (he : e.ev = .op (.load x) (.job (some j)))
    (hed : ∀ e ∈ pre, e.ev.edits j.id = false) :
    j.attempt = (handouts j.id pre : Int) - snoozes j.id pre + 1 := by
  obtain ⟨as₁, a, as₂, -, h1, h2, -, H, -, -⟩ := fresh_split h (by simpa using hb)
  rw [h2] at he
  obtain ⟨-, l, k, r, g1, -, -, -, g5, -⟩ := handout_cases he
  subst g5
  have hk : k ∈ ((fresh paused).run as₁).mem.jobs := by rw [g1]; simp
  have := (counters paused as₁ ?_ k hk ?_).1
  · rw [h1] at this
    simp only [Job.markExecuting]
    rw [this]
  · rw [h1]; rw [h] at hb; exact idsTaken_append_le (by simpa using hb)
  · rw [h1]; exact hed

/-- A job handed out three times and snoozed once. -/
def snoozedHistory : List TAct :=
  enqSteps 0 0 sampleEnq ++ [call 1 (.load "mail"), call 2 (.snoozed 0 3), call 4 (.load "mail"),
    call 5 (.retryable 0 6 sampleErr), call 7 (.load "mail"), call 8 (.cancelled 0 sampleErr)]

example : handouts 0 (fresh.trace snoozedHistory) = 3 ∧ snoozes 0 (fresh.trace snoozedHistory) = 1 ∧
    (∀ e ∈ fresh.trace snoozedHistory, e.ev.edits 0 = false) ∧
    (fresh.run snoozedHistory).mem.jobs.map (fun k => (k.job.id, k.job.attempt)) = [(0, 2)] := by decide

/-- **C10.** In every history, for every stored job that was never edited by
`update_job` or a uniqueness conflict: its errors are exactly the failures
reported for it (retries, discards, cancels), oldest first, each with the given
type, message, time and the attempt number of that moment. -/
theorem C10_error_history (paused : Bool) (as : List TAct) (k : KeyedJob)
    (hb : idsTaken ((fresh paused).trace as) ≤ 2 ^ 32)
    (hk : k ∈ ((fresh paused).run as).mem.jobs)
    (hed : ∀ e ∈ (fresh paused).trace as, e.ev.edits k.job.id = false) :
    k.job.errors = recordedFailures k.job.id [] ((fresh paused).trace as) :=
  (counters paused as (by simpa using hb) k hk hed).2

example : (fresh.run snoozedHistory).mem.jobs.map (fun k => k.job.errors) =
    [[{ attempt := 1, errorType := .other "oops", details := "it broke", recordedAt := 5 },
      { attempt := 2, errorType := .other "oops", details := "it broke", recordedAt := 8 }]] := by decide

/-- **C10, append-only.** In every continuation of every history without
`update_job` and uniqueness conflicts of that job, the errors a job had are still
there, unchanged, as the beginning of its error list. -/
theorem C10_append_only (paused : Bool) (before after : List TAct) (k k' : KeyedJob)
    (hb : idsTaken ((fresh paused).trace (before ++ after)) ≤ 2 ^ 32)
    (hk : k ∈ ((fresh paused).run before).mem.jobs)
    (hk' : k' ∈ ((fresh paused).run (before ++ after)).mem.jobs) (hid : k'.job.id = k.job.id)
    (hc : ∀ e ∈ ((fresh paused).run before).trace after, e.ev.edits k.job.id = false) :
    k.job.errors <+: k'.job.errors := by
  have hb0 : ((fresh paused).run (before ++ after)).mem.allocated ≤ 4294967296 := by
    rw [← trace_taken]; simpa [fresh, Mem.init] using hb
  rw [Conc.run_append] at hb0 hk'
  have H := histOk_run paused before
    (by rw [Conc.trace_append] at hb; exact idsTaken_append_le (by simpa using hb))
  refine (follow_job H (H.mem_inserted hk) (fun j => k.job.errors <+: j.errors)
    (fun ev => ev.edits k.job.id = false) ?_ after hb0 hc ?_).2 k' hk' hid
  · intro now ev j hev hj hp
    cases ht : ev.touches j.id with
    | false => rw [applyEv_of_not_touches ht]; exact hp
    | true =>
      rw [← hj] at hev
      simp only [Ev.edits, Bool.or_eq_false_iff] at hev
      have app : ∀ x, k.job.errors <+: j.errors ++ [x] := fun x => hp.trans (List.prefix_append _ _)
      revert hev
      cases touch_of_touches ht <;> intro hev <;>
        simp_all [applyEv, Ev.updates, Ev.conflicts, Job.markComplete, Job.markDiscarded,
          Job.markCancelled, Job.markExecuting, Job.markRetryable, Job.markSnoozed, Job.markRerunable]
  · intro k₂ hk₂ hid₂
    rw [eq_of_id H.ids_nodup hk hk₂ hid₂]
    exact List.prefix_refl _

/-! ## C29 -/

/-- **C29.** Take any history whose last event hands out job `j`. In every
continuation in which nobody calls complete, retry, discard, cancel, snooze, rerun
or update for the job and no uniqueness conflict hits it (its outcome is never
recorded), it is never handed out again and, unless pruned, it is still stored
exactly as it was handed out: Executing, with the attempt used. -/
theorem C29_crash (paused : Bool) (as : List TAct)
    (hb : idsTaken ((fresh paused).trace as) ≤ 2 ^ 32)
    (pre post : List TEv) (e : TEv) (x : String) (j : Job)
    (h : (fresh paused).trace as = pre ++ e :: post)
    (he : e.ev = .op (.load x) (.job (some j)))
    (hc : ∀ e ∈ post, e.ev.finishes j.id = false ∧ e.ev.putsBack j.id = false) :
    (∀ e ∈ post, e.ev.handsOut j.id = false) ∧
    (∀ k ∈ ((fresh paused).run as).mem.jobs, k.job.id = j.id → k.job = j) ∧ j.status = .executing := by
  obtain ⟨as₁, a, as₂, rfl, h1, h2, htr, H, H', hb'⟩ := fresh_split h (by simpa using hb)
  have hnh : ∀ e ∈ post, e.ev.handsOut j.id = false := by
    intro e₂ he₂
    cases hho : e₂.ev.handsOut j.id with
    | false => rfl
    | true =>
      obtain ⟨mid, post', rfl⟩ := List.append_of_mem he₂
      obtain ⟨e₃, h3, h4⟩ := C06_no_double_handout paused _ j.id hb pre mid post' e e₂
        (by simpa using h) (by rw [he]; simp [Ev.handsOut]) hho
      rw [(hc e₃ (by simp [h3])).2] at h4; simp at h4
  rw [h2] at he
  obtain ⟨-, l, k, r, g1, -, -, -, g5, g6⟩ := handout_cases he
  refine ⟨hnh, ?_, by rw [g5]; rfl⟩
  have hjid : j.id = k.job.id := by rw [g5]; rfl
  have hid : j.id ∈ insertedIds (pre ++ [e]) := by
    rw [insertedIds_append, hjid]
    exact List.mem_append_left _ (H.mem_inserted (k := k) (by rw [g1]; simp))
  rw [Conc.run_append]
  refine (follow_job H' hid (fun j' => j' = j) (fun ev => ev.touches j.id = false) ?_ as₂ hb' ?_ ?_).2
  · intro now ev j' hev hj hp
    rw [applyEv_of_not_touches (by rw [hj]; exact hev)]; exact hp
  · rw [htr]
    intro e he
    simp [Ev.touches, hnh e he, hc e he]
  · intro k' hk' hk'id
    have hn := H.ids_nodup
    unfold Mem.ids at hn
    rw [g6] at hk'
    rw [g1] at hn
    rcases mem_replaceAt hn hk' with ⟨-, hne⟩ | rfl
    · exact absurd (hk'id.trans hjid) hne
    · exact g5.symm

example : (fresh.trace (enqSteps 0 0 sampleEnq ++ [call 1 (.load "mail"), call 5 (.load "mail"),
    call 1000000000000 (.load "mail")])).map (fun e => e.ev.handsOut 0)
    = [false, false, false, false, true, false, false] ∧
  (fresh.run (enqSteps 0 0 sampleEnq ++ [call 1 (.load "mail"), call 5 (.load "mail"),
    call 1000000000000 (.load "mail")])).mem.jobs.map (fun k => (k.job.status, k.job.attempt))
    = [(.executing, 1)] := by decide

/-! ## C14 -/

/-- The agreement between the status of a job and its timestamps. -/
structure StampsAgree (j : Job) : Prop where
  complete : j.status = .complete → j.completedAt.isSome
  cancelled : j.status = .cancelled → j.cancelledAt.isSome
  discarded : j.status = .discarded → j.discardedAt.isSome
  executing : j.status = .executing → j.attemptedAt.isSome

instance (j : Job) : Decidable (StampsAgree j) :=
  decidable_of_iff ((j.status = .complete → j.completedAt.isSome) ∧ (j.status = .cancelled → j.cancelledAt.isSome)
      ∧ (j.status = .discarded → j.discardedAt.isSome) ∧ (j.status = .executing → j.attemptedAt.isSome))
    ⟨fun ⟨a, b, c, d⟩ => ⟨a, b, c, d⟩, fun ⟨a, b, c, d⟩ => ⟨a, b, c, d⟩⟩

private theorem agree_replace {e : EnqueuableJob} {j : Job} (h : StampsAgree j) : StampsAgree (j.replace e) := by
  unfold Job.replace
  split
  · split
    · exact ⟨h.1, h.2, h.3, h.4⟩
    · exact h
  · exact h

private theorem agree_apply {now : Time} {ev : Ev} {j : Job} (h : StampsAgree j)
    (hu : ev.updates j.id = false) (hw : ∀ job r, ev = .wrote job r → StampsAgree job) :
    StampsAgree (applyEv now ev j) := by
  cases ht : ev.touches j.id with
  | false => rw [applyEv_of_not_touches ht]; exact h
  | true =>
    revert hu hw
    cases touch_of_touches ht <;> intro hu hw
    case update j' hj' => simp [Ev.updates, hj'] at hu
    case wrote j' hj' => simp only [applyEv, hj', if_true]; exact hw _ _ rfl
    case snoozed t =>
      simp only [applyEv, if_true, Job.markSnoozed]
      constructor <;> (simp only; split <;> simp)
    case rerun =>
      simp only [applyEv, if_true, Job.markRerunable]
      constructor <;> (simp only; split <;> simp)
    case load x j' hj' =>
      simp only [applyEv, hj', if_true, Job.markExecuting]
      constructor <;> simp
    all_goals
      simp only [applyEv, if_true, Job.markComplete, Job.markRetryable, Job.markDiscarded, Job.markCancelled]
      constructor <;> simp

/-- jobs copied by enqueue calls in progress -/
private def matchedJob : Pending → Option Job
  | .matched j => some j
  | _ => none

private theorem step_matched {now : Time} {c : Conc} {a : Act} (P : Job → Prop)
    (hP : ∀ e j, P j → P (Job.replace e j))
    (hj : ∀ k ∈ c.mem.jobs, P k.job) (hm : ∀ j, Pending.matched j ∈ c.calls → P j) :
    (∀ j, Pending.matched j ∈ (c.step now a).2.calls → P j) ∧
    ∀ job r, (c.step now a).1 = .wrote job r → P job := by
  cases a with
  | start e =>
    refine ⟨?_, by simp [Conc.step]⟩
    intro j hj'; simp [Conc.step] at hj'; exact hm j hj'
  | op o => exact ⟨hm, by simp [Conc.step]⟩
  | advance i =>
    simp only [Conc.step]
    cases hp : c.calls[i]? with
    | none => exact ⟨hm, by simp⟩
    | some p =>
      simp only
      have hpm := List.mem_of_getElem? hp
      have set_case : ∀ q : Pending, (∀ j, q = .matched j → P j) →
          ∀ j, Pending.matched j ∈ c.calls.set i q → P j := by
        intro q hq j hj'
        rcases List.mem_or_eq_of_mem_set hj' with h | h
        · exact hm j h
        · exact hq j h.symm
      cases p with
      | start e =>
        simp only [Mem.advance]
        split
        · exact ⟨set_case _ (by simp), by simp⟩
        · split
          · exact ⟨set_case _ (by simp), by simp⟩
          · rename_i k ks heq
            refine ⟨set_case _ ?_, by simp⟩
            intro j hj'
            simp only [Pending.matched.injEq] at hj'
            subst hj'
            refine hP _ _ (hj k ?_)
            have : k ∈ c.mem.jobs.filter fun k => e.matches now k := by rw [heq]; simp
            exact (List.mem_filter.mp this).1
      | matched job =>
        refine ⟨set_case _ ?_, ?_⟩
        · intro j hj'
          simp only [Mem.advance] at hj'
          split at hj' <;> simp at hj'
        · intro job' r hw
          rw [advance_matched_ev] at hw
          simp only [Ev.wrote.injEq] at hw
          rw [← hw.1]; exact hm job hpm
      | noMatch e => exact ⟨set_case _ (by simp [Mem.advance]), by simp [Mem.advance]⟩
      | allocated id e => exact ⟨set_case _ (by simp [Mem.advance]), by simp [Mem.advance]⟩
      | pushed id e => exact ⟨set_case _ (by simp [Mem.advance]), by simp [Mem.advance]⟩
      | done r => exact ⟨set_case _ (by simp [Mem.advance]), by simp [Mem.advance]⟩

/-- **C14.** In every history without `update_job` (uniqueness conflicts allowed), a
stored Complete job has a completion time, a Cancelled job a cancellation time, a
Discarded job a discard time and an Executing job an attempt time. -/
theorem C14_status_timestamps (paused : Bool) (as : List TAct)
    (hb : idsTaken ((fresh paused).trace as) ≤ 2 ^ 32)
    (hu : ∀ e ∈ (fresh paused).trace as, ∀ id, e.ev.updates id = false) :
    ∀ k ∈ ((fresh paused).run as).mem.jobs, StampsAgree k.job := by
  have : (∀ k ∈ ((fresh paused).run as).mem.jobs, StampsAgree k.job) ∧
      ∀ j, Pending.matched j ∈ ((fresh paused).run as).calls → StampsAgree j := by
    revert hb hu
    refine snocInduction (P := fun as => idsTaken ((fresh paused).trace as) ≤ 2 ^ 32 →
      (∀ e ∈ (fresh paused).trace as, ∀ id, e.ev.updates id = false) →
      (∀ k ∈ ((fresh paused).run as).mem.jobs, StampsAgree k.job) ∧
      ∀ j, Pending.matched j ∈ ((fresh paused).run as).calls → StampsAgree j) ?_ ?_ as
    · intro _ _; simp [Conc.run, fresh, Mem.init]
    · intro as a ih hb hu
      rw [Conc.trace_append] at hb hu
      have hb1 := idsTaken_append_le hb
      have H := histOk_run paused as (by simpa using hb1)
      obtain ⟨i1, i2⟩ := ih hb1 (fun e he => hu e (List.mem_append_left _ he))
      rw [Conc.run_append]
      simp only [Conc.run]
      have hs := step_matched (now := a.now) (a := a.act) StampsAgree (fun e j => agree_replace) i1 i2
      refine ⟨?_, hs.1⟩
      intro k hk
      cases step_job H.ids_nodup hk with
      | new e hev hke => rw [hke]; constructor <;> simp [EnqueuableJob.intoJob]
      | old k₀ hk₀ _ hj =>
        rw [hj]
        refine agree_apply (i1 k₀ hk₀) ?_ hs.2
        exact hu ⟨a.now, _⟩ (List.mem_append_right _ (by simp [Conc.trace])) _
  exact this.1

/-- **C14, untouched jobs.** In every history, a stored job that was never handed
out, completed, cancelled, discarded, updated or hit by a uniqueness conflict has
none of these times. -/
theorem C14_untouched (paused : Bool) (as : List TAct) (k : KeyedJob)
    (hb : idsTaken ((fresh paused).trace as) ≤ 2 ^ 32)
    (hk : k ∈ ((fresh paused).run as).mem.jobs)
    (hu : ∀ e ∈ (fresh paused).trace as, e.ev.handsOut k.job.id = false ∧
      e.ev.finishes k.job.id = false ∧ e.ev.edits k.job.id = false) :
    k.job.attemptedAt = none ∧ k.job.completedAt = none ∧ k.job.cancelledAt = none ∧
      k.job.discardedAt = none := by
  revert hu
  refine life_induction paused (fun h j => (∀ e ∈ h, e.ev.handsOut j.id = false ∧
      e.ev.finishes j.id = false ∧ e.ev.edits j.id = false) →
    j.attemptedAt = none ∧ j.completedAt = none ∧ j.cancelledAt = none ∧ j.discardedAt = none)
    ?_ ?_ as (by simpa using hb) k hk
  · intro h now id e _ _; exact ⟨rfl, rfl, rfl, rfl⟩
  · intro h now ev j ih hu
    simp only [applyEv_id] at hu
    have hev := hu ⟨now, ev⟩ (by simp)
    have ih := ih (fun e he => hu e (by simp [he]))
    cases ht : ev.touches j.id with
    | false => rw [applyEv_of_not_touches ht]; exact ih
    | true =>
      revert hev
      cases touch_of_touches ht <;>
        simp_all [applyEv, Ev.handsOut, Ev.finishes, Ev.edits, Ev.updates, Ev.conflicts,
          Job.markRetryable, Job.markSnoozed, Job.markRerunable]

example : (∀ e ∈ fresh.trace snoozedHistory, e.ev.updates 0 = false) ∧
    (fresh.run snoozedHistory).mem.jobs.map (fun k => (k.job.status, k.job.cancelledAt, k.job.attemptedAt))
      = [(.cancelled, some 8, some 7)] := by decide

/-! ## C51, first half -/

/-- **C51, first half.** A job cancelled before it was ever handed out is never
handed out in any continuation, unless it is put back (rerun, retried, snoozed,
updated or hit by a uniqueness conflict) after the cancellation. -/
theorem C51_cancel_before_start (paused : Bool) (as : List TAct) (id : Int)
    (hb : idsTaken ((fresh paused).trace as) ≤ 2 ^ 32)
    (pre post : List TEv) (e : TEv) (err : ExecError)
    (h : (fresh paused).trace as = pre ++ e :: post)
    (he : e.ev = .op (.cancelled id err) .unit)
    (hpre : ∀ e ∈ pre, e.ev.handsOut id = false)
    (hc : ∀ e ∈ post, e.ev.putsBack id = false) :
    ∀ e ∈ (fresh paused).trace as, e.ev.handsOut id = false := by
  obtain ⟨as₁, a, as₂, rfl, h1, h2, htr, H, H', hb'⟩ := fresh_split h (by simpa using hb)
  rw [h]
  intro e' he'
  rcases List.mem_append.mp he' with he' | he'
  · exact hpre e' he'
  rcases List.mem_cons.mp he' with rfl | he'
  · rw [he]; rfl
  rw [h2] at he
  simp only at he
  have hact : a.act = .op (.cancelled id err) := by
    cases hact : a.act with
    | op o =>
      rw [hact] at he
      simp only [Conc.step, Ev.op.injEq] at he
      rw [he.1]
    | start e => rw [hact] at he; simp [Conc.step] at he
    | advance i =>
      exfalso
      rw [hact] at he
      simp only [Conc.step] at he
      cases hp : ((fresh paused).run as₁).calls[i]? with
      | none => simp [hp] at he
      | some p =>
        simp only [hp] at he
        cases p with
        | start e =>
          simp only [Mem.advance] at he
          split at he
          · simp at he
          · split at he <;> simp at he
        | matched job => rw [advance_matched_ev] at he; simp at he
        | _ => simp [Mem.advance] at he
  have hmem : id ∈ ((fresh paused).run as₁).mem.ids := by
    rw [hact] at he
    simp only [Conc.step, Mem.step, Mem.markCancelled, Ev.op.injEq, true_and] at he
    exact onJob_mem he
  obtain ⟨k, hk, hkid⟩ : ∃ k ∈ (((fresh paused).run as₁).step a.now a.act).2.mem.jobs, k.job.id = id := by
    have : id ∈ (((fresh paused).run as₁).step a.now a.act).2.mem.ids := by
      rw [hact]
      simp only [Conc.step, Mem.step, Mem.markCancelled]
      rw [onJob_ids (by intro j hj; exact hj)]; exact hmem
    obtain ⟨k, hk, hkid⟩ := List.mem_map.mp this
    exact ⟨k, hk, hkid⟩
  have hst : k.job.status = .cancelled := by
    cases step_job H.ids_nodup hk with
    | new e hev _ => rw [he] at hev; simp at hev
    | old k₀ hk₀ _ hj =>
      have hid0 : k₀.job.id = id := by
        have := applyEv_id a.now (((fresh paused).run as₁).step a.now a.act).1 k₀.job
        rw [← hj] at this; rw [← this]; exact hkid
      rw [hj, he]; simp [applyEv, hid0, Job.markCancelled]
  have hrun : (((fresh paused).run as₁).step a.now a.act).2 = (fresh paused).run (as₁ ++ [a]) := by
    rw [Conc.run_append]; rfl
  rw [hrun] at hk htr
  have := C09_finished_not_rerun paused (as₁ ++ [a]) as₂ k (by simpa using hb) hk (Or.inr (Or.inl hst))
    (by rw [htr, hkid]; exact hc)
  rw [htr, hkid] at this
  exact this e' he'

example : (fresh.trace (enqSteps 0 0 sampleEnq ++ [call 1 (.cancelled 0 sampleErr), call 2 (.load "mail"),
      call 1000000000 (.load "mail")])).map (fun e => (e.ev.handsOut 0, e.ev.putsBack 0, e.ev.finishes 0))
    = [(false, false, false), (false, false, false), (false, false, false), (false, false, false),
       (false, false, true), (false, false, false), (false, false, false)] := by decide

end Rexecutor
