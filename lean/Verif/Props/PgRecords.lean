import Verif.Lemmas.PgRow
import Verif.Spec.Samples
import Verif.Spec.Store
import Verif.Props.PgDispatch

/-! # C62 - C67, C70: what is recorded about a job on Postgres -/

namespace Rexecutor

private theorem handouts_append (id : Int) (h : List TPgEv) (e : TPgEv) :
    pgHandouts id (h ++ [e]) = pgHandouts id h + if e.ev.handsOut id then 1 else 0 := by
  simp [pgHandouts, List.countP_append, List.countP_cons]

private theorem snoozes_append (id : Int) (h : List TPgEv) (e : TPgEv) :
    pgSnoozes id (h ++ [e]) = pgSnoozes id h + if e.ev.snoozes id then 1 else 0 := by
  simp [pgSnoozes, List.countP_append, List.countP_cons]

private theorem untouched_counts {id : Int} {h : List TPgEv} (hu : ∀ x ∈ h, x.ev.touches id = false) :
    pgHandouts id h = 0 ∧ pgSnoozes id h = 0 := by
  simp only [pgHandouts, pgSnoozes, List.countP_eq_zero]
  refine ⟨fun e he => ?_, fun e he => ?_⟩ <;>
  · have := hu e he
    simp only [PgEv.touches, Bool.or_eq_false_iff] at this
    simp [this]

/-! ## C62 -/

/-- **C62.** In every history of the database, a stored job's attempt number is the
number of times it was handed out minus the number of times it was snoozed. -/
theorem C62_attempt_counts_executions (hash : HashFn) (as : List TPgAct) :
    ∀ r ∈ (PgConc.run hash {} as).pg.rows,
      r.attempt = (pgHandouts r.id (PgConc.history hash {} as) : Int) - pgSnoozes r.id (PgConc.history hash {} as) := by
  refine row_induction (fun h r => r.attempt = (pgHandouts r.id h : Int) - pgSnoozes r.id h) ?_ ?_ ?_ as
  · intro h e t id key hu
    have := untouched_counts hu
    simp only [EnqueuableJob.toRow, this]; rfl
  · intro h row uc now hp
    simpa [handouts_append, snoozes_append, PgEv.handsOut, PgEv.snoozes] using hp
  · intro h now ev r r' _ hm hp
    rw [handouts_append, snoozes_append, hm.id_eq]
    cases hm with
    | keep ht e => subst e; obtain ⟨h1, -, h3, -⟩ := touches_split ht; simpa [h1, h3] using hp
    | handout x t res h hr e =>
      subst h e
      simp only [PgEv.handsOut, PgEv.snoozes, Row.markExecuting, beq_self_eq_true, if_true]
      simp only [hp, Bool.false_eq_true, if_false]; omega
    | replaced rep enq h e => subst h e; simpa [PgEv.handsOut, PgEv.snoozes, Row.replace] using hp
    | complete h e => subst h e; simpa [PgEv.handsOut, PgEv.snoozes, Row.markComplete] using hp
    | retryable next err h e => subst h e; simpa [PgEv.handsOut, PgEv.snoozes, Row.markRetryable] using hp
    | discarded err h e => subst h e; simpa [PgEv.handsOut, PgEv.snoozes, Row.markDiscarded] using hp
    | cancelled err h e => subst h e; simpa [PgEv.handsOut, PgEv.snoozes, Row.markCancelled] using hp
    | snoozed next h e =>
      subst h e
      simp only [PgEv.handsOut, PgEv.snoozes, Row.markSnoozed, beq_self_eq_true, if_true, hp, Bool.false_eq_true, if_false]
      omega
    | rerun h e => subst h e; simpa [PgEv.handsOut, PgEv.snoozes, Row.markRerunable] using hp
    | update job hid h e => subst h e; simpa [PgEv.handsOut, PgEv.snoozes, Row.update] using hp

/-- **C62.** What is handed out carries the number of this execution: one more than the
hand-outs minus snoozes before it. -/
theorem C62_handout_attempt (hash : HashFn) (as : List TPgAct) (pre post : List TPgEv) (now : Time) (row : Row) (res : Res)
    (h : PgConc.history hash {} as = pre ++ ⟨now, .handedOut row res⟩ :: post) :
    row.attempt = (pgHandouts row.id pre : Int) - pgSnoozes row.id pre + 1 := by
  obtain ⟨as₁, a, as₂, rfl, h1, h2, -⟩ := PgConc.history_split h
  have he : ((PgConc.run hash {} as₁).step hash a.tie a.now a.act).1 = .handedOut row res := (congrArg TPgEv.ev h2).symm
  obtain ⟨-, -, -, hmem, -⟩ := handedOut_mem (pgInv hash as₁) he
  have := C62_attempt_counts_executions hash (as₁ ++ [a]) row (by simpa [PgConc.run_append, PgConc.run] using hmem)
  rw [this, PgConc.history_append, h1]
  simp only [PgConc.history, handouts_append, snoozes_append, he, PgEv.handsOut, PgEv.snoozes, beq_self_eq_true, if_true]
  simp; omega

/-- A history with two hand-outs and a snooze of job 1, in which its attempt is 1. -/
def snoozeHistory : List TPgAct :=
  [pgAct 5000 (.plain sampleEnq), pgAct 5000 (.handout "mail"), pgAct 6000 (.advance 0), pgAct 6000 (.advance 0),
    pgAct 6000 (.advance 0), pgAct 7000 (.stmt (.snoozed 1 8000)), pgAct 9000 (.handout "mail"),
    pgAct 9000 (.advance 1), pgAct 9000 (.advance 1), pgAct 9000 (.advance 1),
    pgAct 10000 (.stmt (.retryable 1 11000 sampleErr)), pgAct 12000 (.stmt (.cancelled 1 sampleErr))]

example : ((PgConc.run sampleHash {} snoozeHistory).pg.rows.map fun r => (r.id, r.attempt)) = [(1, 1)] ∧
    pgHandouts 1 (PgConc.history sampleHash {} snoozeHistory) = 2 ∧
    pgSnoozes 1 (PgConc.history sampleHash {} snoozeHistory) = 1 := by decide

/-! ## C63 -/

private theorem errorLog_append (id : Int) (seen a b : List TPgEv) :
    pgErrorLog id seen (a ++ b) = pgErrorLog id seen a ++ pgErrorLog id (seen ++ a) b := by
  induction a generalizing seen with
  | nil => simp [pgErrorLog]
  | cons e a ih => simp [pgErrorLog, ih]

private theorem failure_of_touch {ev : PgEv} {id : Int} (h : ev.touches id = false) : ev.failureOf id = none := by
  obtain ⟨-, h2, -, -, -, h6⟩ := touches_split h
  unfold PgEv.failureOf
  split
  · simp only [PgEv.retries, beq_eq_false_iff_ne] at h2; simp [h2]
  · simp only [PgEv.finishes, beq_eq_false_iff_ne] at h6; simp [h6]
  · simp only [PgEv.finishes, beq_eq_false_iff_ne] at h6; simp [h6]
  · rfl

private theorem errorLog_untouched {id : Int} {h : List TPgEv} (hu : ∀ x ∈ h, x.ev.touches id = false)
    (seen : List TPgEv) : pgErrorLog id seen h = [] := by
  induction h generalizing seen with
  | nil => rfl
  | cons e h ih =>
    simp [pgErrorLog, failure_of_touch (hu e (by simp)), ih (fun x hx => hu x (by simp [hx]))]

private theorem toText_name (t : ErrorType) : t.toText = errorName t := by cases t <;> rfl

private theorem errors_and_attempt (hash : HashFn) (as : List TPgAct) :
    ∀ r ∈ (PgConc.run hash {} as).pg.rows,
      r.attempt = (pgHandouts r.id (PgConc.history hash {} as) : Int) - pgSnoozes r.id (PgConc.history hash {} as) ∧
      r.errors = pgErrorLog r.id [] (PgConc.history hash {} as) := by
  refine row_induction (fun h r => r.attempt = (pgHandouts r.id h : Int) - pgSnoozes r.id h ∧
    r.errors = pgErrorLog r.id [] h) ?_ ?_ ?_ as
  · intro h e t id key hu
    have := untouched_counts hu
    exact ⟨by simp only [EnqueuableJob.toRow, this]; rfl, by simp only [EnqueuableJob.toRow, errorLog_untouched hu]⟩
  · rintro h row uc now ⟨hp, hq⟩
    exact ⟨by simpa [handouts_append, snoozes_append, PgEv.handsOut, PgEv.snoozes] using hp,
      by simpa [errorLog_append, pgErrorLog, PgEv.failureOf] using hq⟩
  · rintro h now ev r r' _ hm ⟨hp, hq⟩
    rw [handouts_append, snoozes_append, errorLog_append, hm.id_eq]
    simp only [List.nil_append]
    cases hm with
    | keep ht e =>
      subst e; obtain ⟨h1, -, h3, -⟩ := touches_split ht
      exact ⟨by simpa [h1, h3] using hp, by simpa [pgErrorLog, failure_of_touch ht] using hq⟩
    | handout x t res h hr e =>
      subst h e
      refine ⟨?_, by simpa [pgErrorLog, PgEv.failureOf, Row.markExecuting] using hq⟩
      simp only [PgEv.handsOut, PgEv.snoozes, Row.markExecuting, beq_self_eq_true, if_true]
      simp only [hp, Bool.false_eq_true, if_false]; omega
    | replaced rep enq h e =>
      subst h e
      exact ⟨by simpa [PgEv.handsOut, PgEv.snoozes, Row.replace] using hp,
        by simpa [pgErrorLog, PgEv.failureOf, Row.replace] using hq⟩
    | complete h e =>
      subst h e
      exact ⟨by simpa [PgEv.handsOut, PgEv.snoozes, Row.markComplete] using hp,
        by simpa [pgErrorLog, PgEv.failureOf, Row.markComplete] using hq⟩
    | retryable next err h e =>
      subst h e
      refine ⟨by simpa [PgEv.handsOut, PgEv.snoozes, Row.markRetryable] using hp, ?_⟩
      simp only [Row.markRetryable, pgErrorLog, PgEv.failureOf, if_true, hq, ExecError.toRaw, hp, toText_name,
        List.append_nil]
    | discarded err h e =>
      subst h e
      refine ⟨by simpa [PgEv.handsOut, PgEv.snoozes, Row.markDiscarded] using hp, ?_⟩
      simp only [Row.markDiscarded, pgErrorLog, PgEv.failureOf, if_true, hq, ExecError.toRaw, hp, toText_name,
        List.append_nil]
    | cancelled err h e =>
      subst h e
      refine ⟨by simpa [PgEv.handsOut, PgEv.snoozes, Row.markCancelled] using hp, ?_⟩
      simp only [Row.markCancelled, pgErrorLog, PgEv.failureOf, if_true, hq, ExecError.toRaw, hp, toText_name,
        List.append_nil]
    | snoozed next h e =>
      subst h e
      refine ⟨?_, by simpa [pgErrorLog, PgEv.failureOf, Row.markSnoozed] using hq⟩
      simp only [PgEv.handsOut, PgEv.snoozes, Row.markSnoozed, beq_self_eq_true, if_true, hp, Bool.false_eq_true, if_false]
      omega
    | rerun h e =>
      subst h e
      exact ⟨by simpa [PgEv.handsOut, PgEv.snoozes, Row.markRerunable] using hp,
        by simpa [pgErrorLog, PgEv.failureOf, Row.markRerunable] using hq⟩
    | update job hid h e =>
      subst h e
      exact ⟨by simpa [PgEv.handsOut, PgEv.snoozes, Row.update] using hp,
        by simpa [pgErrorLog, PgEv.failureOf, Row.update] using hq⟩

/-- **C63.** In every history of the database, a stored job's errors are exactly the
failures reported for it, oldest first. -/
theorem C63_error_history (hash : HashFn) (as : List TPgAct) :
    ∀ r ∈ (PgConc.run hash {} as).pg.rows, r.errors = pgErrorLog r.id [] (PgConc.history hash {} as) :=
  fun r hr => (errors_and_attempt hash as r hr).2

/-- **C63.** Errors are never removed, reordered or edited: what was in the list stays
at the front of it for as long as the job is stored. -/
theorem C63_append_only (hash : HashFn) (as bs : List TPgAct) (r r' : Row)
    (hr : r ∈ (PgConc.run hash {} as).pg.rows) (hr' : r' ∈ (PgConc.run hash {} (as ++ bs)).pg.rows) (hid : r.id = r'.id) :
    r.errors <+: r'.errors := by
  rw [C63_error_history hash as r hr, C63_error_history hash (as ++ bs) r' hr', PgConc.history_append, errorLog_append, hid]
  exact List.prefix_append _ _

example : ((PgConc.run sampleHash {} snoozeHistory).pg.rows.map fun r => r.errors) =
    [[{ attempt := 1, errorType := "oops", details := "it broke", recordedAt := 10000 },
      { attempt := 1, errorType := "oops", details := "it broke", recordedAt := 12000 }]] := by decide

/-! ## C64 -/

private theorem lastSays_append (f : TPgEv → Option α) (h : List TPgEv) (e : TPgEv) :
    lastSays f (h ++ [e]) = (f e).or (lastSays f h) := by
  simp only [lastSays, List.reverse_append, List.reverse_cons, List.reverse_nil, List.nil_append,
    List.singleton_append, List.findSome?_cons]
  cases f e <;> rfl

private theorem lastSays_none {f : TPgEv → Option α} {h : List TPgEv} (hf : ∀ e ∈ h, f e = none) : lastSays f h = none := by
  simp only [lastSays, List.findSome?_eq_none_iff, List.mem_reverse]
  exact hf

/-- The last attempt time with which row `id` was handed out. -/
def lastAttemptAt (id : Int) (h : List TPgEv) : Option Time :=
  (lastSays (fun e => match e.ev with
    | .handedOut row _ => if row.id = id then some row.attemptedAt else none
    | _ => none) h).join

/-- What C64 says about a row. -/
structure StatusRecorded (h : List TPgEv) (r : Row) : Prop where
  never : lastFate r.id h = none → r.status = .scheduled
  handout : ∀ ev, lastFate r.id h = some ev → ev.handsOut r.id = true → r.status = .executing
  complete : ∀ ev, lastFate r.id h = some ev → ev.completes r.id = true → r.status = .complete
  discard : ∀ ev, lastFate r.id h = some ev → ev.discards r.id = true → r.status = .discarded
  cancel : ∀ ev, lastFate r.id h = some ev → ev.cancels r.id = true → r.status = .cancelled
  retry : ∀ ev, lastFate r.id h = some ev → ev.retries r.id = true → r.status = .retryable
  waiting : ∀ ev, lastFate r.id h = some ev → ev.snoozes r.id = true ∨ ev.reruns r.id = true →
    r.status = .scheduled ∨ r.status = .retryable

private theorem lastFate_append (id : Int) (h : List TPgEv) (e : TPgEv) :
    lastFate id (h ++ [e]) =
      if e.ev.handsOut id || e.ev.retries id || e.ev.snoozes id || e.ev.reruns id || e.ev.finishes id then some e.ev
      else lastFate id h := by
  rw [lastFate, lastSays_append]
  split <;> rfl

private theorem lastFate_keep {id : Int} {h : List TPgEv} {e : TPgEv}
    (h' : (e.ev.handsOut id || e.ev.retries id || e.ev.snoozes id || e.ev.reruns id || e.ev.finishes id) = false) :
    lastFate id (h ++ [e]) = lastFate id h := by
  rw [lastFate_append, h']; rfl

private theorem StatusRecorded.congr {h h' : List TPgEv} {r r' : Row} (H : StatusRecorded h r) (hid : r'.id = r.id)
    (hs : r'.status = r.status) (hf : lastFate r.id h' = lastFate r.id h) : StatusRecorded h' r' := by
  obtain ⟨h1, h2, h3, h4, h5, h6, h7⟩ := H
  constructor <;> rw [hid, hf, hs] <;> assumption

private theorem StatusRecorded.new {h : List TPgEv} {now : Time} {ev : PgEv} {r' : Row}
    (hf : (ev.handsOut r'.id || ev.retries r'.id || ev.snoozes r'.id || ev.reruns r'.id || ev.finishes r'.id) = true)
    (hs : (ev.handsOut r'.id = true → r'.status = .executing) ∧ (ev.completes r'.id = true → r'.status = .complete) ∧
      (ev.discards r'.id = true → r'.status = .discarded) ∧ (ev.cancels r'.id = true → r'.status = .cancelled) ∧
      (ev.retries r'.id = true → r'.status = .retryable) ∧
      (ev.snoozes r'.id = true ∨ ev.reruns r'.id = true → r'.status = .scheduled ∨ r'.status = .retryable)) :
    StatusRecorded (h ++ [⟨now, ev⟩]) r' := by
  have hl : lastFate r'.id (h ++ [⟨now, ev⟩]) = some ev := by rw [lastFate_append]; simp only [hf, if_true]
  obtain ⟨h1, h2, h3, h4, h5, h6⟩ := hs
  constructor <;> rw [hl]
  · intro h; cases h
  all_goals (intro ev' he; cases he; assumption)

/-- **C64.** In every history of the database, a stored job's status says what last
happened to it: waiting as `Scheduled` if nothing did, `Executing` after a hand-out,
`Complete`, `Discarded`, `Cancelled` or `Retryable` after the call of that name,
waiting again after a snooze or rerun. -/
theorem C64_status (hash : HashFn) (as : List TPgAct) :
    ∀ r ∈ (PgConc.run hash {} as).pg.rows, StatusRecorded (PgConc.history hash {} as) r := by
  refine row_induction StatusRecorded ?_ ?_ ?_ as
  · intro h e t id key hu
    have : lastFate id h = none := by
      refine lastSays_none (fun x hx => ?_)
      obtain ⟨h1, h2, h3, h4, -, h6⟩ := touches_split (hu x hx)
      simp [h1, h2, h3, h4, h6]
    constructor <;> simp only [EnqueuableJob.toRow, this] <;> simp
  · intro h row uc now hp
    exact hp.congr rfl rfl (lastFate_keep rfl)
  · intro h now ev r r' _ hm hp
    have hid := hm.id_eq
    cases hm with
    | keep ht e =>
      subst e
      obtain ⟨h1, h2, h3, h4, -, h6⟩ := touches_split ht
      exact hp.congr rfl rfl (lastFate_keep (by simp [h1, h2, h3, h4, h6]))
    | replaced rep enq h e => subst h e; exact hp.congr rfl rfl (lastFate_keep rfl)
    | update job hid h e => subst h e; exact hp.congr rfl rfl (lastFate_keep rfl)
    | handout x t res h hr e =>
      subst h
      refine .new (by simp [PgEv.handsOut]) ?_
      simp [PgEv.handsOut, PgEv.completes, PgEv.discards, PgEv.cancels, PgEv.retries, PgEv.snoozes, PgEv.reruns]
      rw [e]; rfl
    | complete h e =>
      subst h e
      exact .new (by simp [PgEv.finishes, Row.markComplete])
        (by simp [PgEv.handsOut, PgEv.completes, PgEv.discards, PgEv.cancels, PgEv.retries, PgEv.snoozes, PgEv.reruns,
              Row.markComplete])
    | retryable next err h e =>
      subst h e
      exact .new (by simp [PgEv.retries, Row.markRetryable])
        (by simp [PgEv.handsOut, PgEv.completes, PgEv.discards, PgEv.cancels, PgEv.retries, PgEv.snoozes, PgEv.reruns,
              Row.markRetryable])
    | discarded err h e =>
      subst h e
      exact .new (by simp [PgEv.finishes, Row.markDiscarded])
        (by simp [PgEv.handsOut, PgEv.completes, PgEv.discards, PgEv.cancels, PgEv.retries, PgEv.snoozes, PgEv.reruns,
              Row.markDiscarded])
    | cancelled err h e =>
      subst h e
      exact .new (by simp [PgEv.finishes, Row.markCancelled])
        (by simp [PgEv.handsOut, PgEv.completes, PgEv.discards, PgEv.cancels, PgEv.retries, PgEv.snoozes, PgEv.reruns,
              Row.markCancelled])
    | snoozed next h e =>
      subst h e
      refine .new (by simp [PgEv.snoozes, Row.markSnoozed]) ?_
      simp only [PgEv.handsOut, PgEv.completes, PgEv.discards, PgEv.cancels, PgEv.retries, PgEv.snoozes, PgEv.reruns,
              Row.markSnoozed]
      split <;> simp
    | rerun h e =>
      subst h e
      refine .new (by simp [PgEv.reruns, Row.markRerunable]) ?_
      simp only [PgEv.handsOut, PgEv.completes, PgEv.discards, PgEv.cancels, PgEv.retries, PgEv.snoozes, PgEv.reruns,
              Row.markRerunable]
      split <;> simp

/-- What C64 says about the time stamps of a row. -/
structure TimesRecorded (h : List TPgEv) (r : Row) : Prop where
  attempted : r.attemptedAt = lastAttemptAt r.id h
  completed : r.completedAt = stamp r.id (PgEv.completes r.id) h
  cancelled : r.cancelledAt = stamp r.id (PgEv.cancels r.id) h
  discarded : r.discardedAt = stamp r.id (PgEv.discards r.id) h

private theorem stamp_append (id : Int) (sets : PgEv → Bool) (h : List TPgEv) (e : TPgEv) :
    stamp id sets (h ++ [e]) =
      if sets e.ev then some (pgTime e.now) else if e.ev.reruns id then none else stamp id sets h := by
  rw [stamp, lastSays_append]
  split
  · rfl
  · split <;> rfl

private theorem lastAttemptAt_append (id : Int) (h : List TPgEv) (e : TPgEv) :
    lastAttemptAt id (h ++ [e]) =
      match e.ev with
      | .handedOut row _ => if row.id = id then row.attemptedAt else lastAttemptAt id h
      | _ => lastAttemptAt id h := by
  rw [lastAttemptAt, lastSays_append]
  cases e.ev with
  | handedOut row res => simp only; split <;> rfl
  | _ => rfl

private theorem TimesRecorded.same {h : List TPgEv} {now : Time} {ev : PgEv} {r r' : Row} (H : TimesRecorded h r)
    (hid : r'.id = r.id)
    (hs : r'.attemptedAt = r.attemptedAt ∧ r'.completedAt = r.completedAt ∧ r'.cancelledAt = r.cancelledAt ∧
      r'.discardedAt = r.discardedAt)
    (he : ev.handsOut r.id = false ∧ ev.completes r.id = false ∧ ev.cancels r.id = false ∧ ev.discards r.id = false ∧
      ev.reruns r.id = false) : TimesRecorded (h ++ [⟨now, ev⟩]) r' := by
  obtain ⟨h1, h2, h3, h4⟩ := H
  obtain ⟨s1, s2, s3, s4⟩ := hs
  obtain ⟨e1, e2, e3, e4, e5⟩ := he
  constructor
  · rw [lastAttemptAt_append, s1, h1, hid]
    cases ev <;> first | rfl | skip
    simp only [PgEv.handsOut, beq_eq_false_iff_ne] at e1
    simp [e1]
  · rw [stamp_append, s2, h2, hid]; simp [e2, e5]
  · rw [stamp_append, s3, h3, hid]; simp [e3, e5]
  · rw [stamp_append, s4, h4, hid]; simp [e4, e5]

private theorem finishes_split {ev : PgEv} {id : Int} (h : ev.finishes id = false) :
    ev.completes id = false ∧ ev.cancels id = false ∧ ev.discards id = false := by
  unfold PgEv.completes PgEv.cancels PgEv.discards
  refine ⟨?_, ?_, ?_⟩ <;> split <;> first | rfl | exact h

/-- **C64.** In every history of the database, the completion, cancellation and discard
times of a stored job are those of the last complete, cancel and discard since it was
last rerun, if any, and its attempt time is that of its last hand-out. -/
theorem C64_timestamps (hash : HashFn) (as : List TPgAct) :
    ∀ r ∈ (PgConc.run hash {} as).pg.rows, TimesRecorded (PgConc.history hash {} as) r := by
  refine row_induction TimesRecorded ?_ ?_ ?_ as
  · intro h e t id key hu
    constructor <;> simp only [EnqueuableJob.toRow]
    · rw [lastAttemptAt, lastSays_none]
      · rfl
      · intro x hx
        have := (touches_split (hu x hx)).1
        split
        · rename_i row res he
          rw [he] at this
          simp only [PgEv.handsOut, beq_eq_false_iff_ne] at this
          simp [this]
        · rfl
    all_goals
      rw [stamp, lastSays_none]
      · rfl
      · intro x hx
        obtain ⟨-, -, -, h4, -, h6⟩ := touches_split (hu x hx)
        have := finishes_split h6
        simp [h4, this]
  · intro h row uc now hp
    exact hp.same rfl ⟨rfl, rfl, rfl, rfl⟩ ⟨rfl, rfl, rfl, rfl, rfl⟩
  · intro h now ev r r' _ hm hp
    have hid := hm.id_eq
    cases hm with
    | keep ht e =>
      subst e
      obtain ⟨h1, h2, h3, h4, -, h6⟩ := touches_split ht
      have := finishes_split h6
      exact hp.same rfl ⟨rfl, rfl, rfl, rfl⟩ ⟨h1, this.1, this.2.1, this.2.2, h4⟩
    | replaced rep enq h e => subst h e; exact hp.same rfl ⟨rfl, rfl, rfl, rfl⟩ ⟨rfl, rfl, rfl, rfl, rfl⟩
    | update job hid h e => subst h e; exact hp.same rfl ⟨rfl, rfl, rfl, rfl⟩ ⟨rfl, rfl, rfl, rfl, rfl⟩
    | retryable next err h e => subst h e; exact hp.same rfl ⟨rfl, rfl, rfl, rfl⟩ ⟨rfl, rfl, rfl, rfl, rfl⟩
    | snoozed next h e => subst h e; exact hp.same rfl ⟨rfl, rfl, rfl, rfl⟩ ⟨rfl, rfl, rfl, rfl, rfl⟩
    | handout x t res h hr e =>
      obtain ⟨h1, h2, h3, h4⟩ := hp
      rw [h]
      constructor
      · simp [lastAttemptAt_append]
      · rw [stamp_append, hid]; simp only [PgEv.completes, PgEv.reruns]; rw [e]; exact h2
      · rw [stamp_append, hid]; simp only [PgEv.cancels, PgEv.reruns]; rw [e]; exact h3
      · rw [stamp_append, hid]; simp only [PgEv.discards, PgEv.reruns]; rw [e]; exact h4
    | complete h e =>
      obtain ⟨h1, h2, h3, h4⟩ := hp
      rw [h]
      constructor
      · rw [lastAttemptAt_append, hid, e]; exact h1
      · rw [stamp_append, hid, e]; simp [PgEv.completes, Row.markComplete]
      · rw [stamp_append, hid, e]; exact h3
      · rw [stamp_append, hid, e]; exact h4
    | discarded err h e =>
      obtain ⟨h1, h2, h3, h4⟩ := hp
      rw [h]
      constructor
      · rw [lastAttemptAt_append, hid, e]; exact h1
      · rw [stamp_append, hid, e]; exact h2
      · rw [stamp_append, hid, e]; exact h3
      · rw [stamp_append, hid, e]; simp [PgEv.discards, Row.markDiscarded]
    | cancelled err h e =>
      obtain ⟨h1, h2, h3, h4⟩ := hp
      rw [h]
      constructor
      · rw [lastAttemptAt_append, hid, e]; exact h1
      · rw [stamp_append, hid, e]; exact h2
      · rw [stamp_append, hid, e]; simp [PgEv.cancels, Row.markCancelled]
      · rw [stamp_append, hid, e]; exact h4
    | rerun h e =>
      obtain ⟨h1, h2, h3, h4⟩ := hp
      rw [h]
      constructor
      · rw [lastAttemptAt_append, hid, e]; exact h1
      all_goals
        rw [stamp_append, hid, e]; simp [PgEv.completes, PgEv.cancels, PgEv.discards, PgEv.reruns, Row.markRerunable]

/-- In the schedule `as`, the statement of session `i` began at time `t`. -/
private def BeganAt (hash : HashFn) (as : List TPgAct) (i : Nat) (t : Time) : Prop :=
  ∃ p b q x, as = p ++ b :: q ∧ b.act = .advance i ∧ (PgConc.run hash {} p).sessions[i]? = some (.handout x) ∧ b.now = t

private theorem BeganAt.grow {hash : HashFn} {as : List TPgAct} {i : Nat} {t : Time} (a : TPgAct) (h : BeganAt hash as i t) :
    BeganAt hash (as ++ [a]) i t := by
  obtain ⟨p, b, q, x, rfl, h⟩ := h
  exact ⟨p, b, q ++ [a], x, by simp, h⟩

/-- The clock reading of a hand-out statement. -/
private def clockOf : Session → Option Time
  | .looking _ t _ => some t
  | .locked _ t _ => some t
  | _ => none

private theorem clock_began (hash : HashFn) (as : List TPgAct) : ∀ (i : Nat) (s : Session) (t : Time),
    (PgConc.run hash {} as).sessions[i]? = some s → clockOf s = some t → BeganAt hash as i t := by
  induction as using snoc_induction with
  | nil => intro i s t h; simp [PgConc.run] at h
  | snoc as a ih =>
    intro i s t h hc
    rw [PgConc.run_append] at h
    simp only [PgConc.run] at h
    obtain ⟨now, tie, act⟩ := a
    cases act with
    | handout x =>
      simp only [PgConc.step] at h
      rcases List.getElem?_append .. ▸ h with h
      split at h
      · exact (ih i s t h hc).grow _
      · have := List.mem_of_getElem? h
        simp only [List.mem_singleton] at this
        subst this; cases hc
    | unique e uc =>
      simp only [PgConc.step] at h
      rcases List.getElem?_append .. ▸ h with h
      split at h
      · exact (ih i s t h hc).grow _
      · have := List.mem_of_getElem? h
        simp only [List.mem_singleton] at this
        subst this; cases hc
    | plain e =>
      simp only [PgConc.step] at h
      split at h <;> exact (ih i s t h hc).grow _
    | stmt o =>
      have : (PgConc.step hash tie now (PgConc.run hash {} as) (.stmt o)).2.sessions = (PgConc.run hash {} as).sessions := by
        cases o <;> simp only [PgConc.step] <;> first | rfl | (split <;> rfl)
      simp only [this] at h
      exact (ih i s t h hc).grow _
    | abort k =>
      simp only [PgConc.step] at h
      split at h
      · exact (ih i s t h hc).grow _
      · exact (ih i s t h hc).grow _
      · by_cases hk : k = i
        · subst hk
          simp only [List.getElem?_set_self'] at h
          rename_i s' _ hs'
          rw [hs'] at h
          cases h; cases hc
        · rw [List.getElem?_set_ne hk] at h
          exact (ih i s t h hc).grow _
    | advance k =>
      simp only [PgConc.step] at h
      split at h
      · exact (ih i s t h hc).grow _
      · rename_i s' hs'
        by_cases hk : k = i
        · subst hk
          simp only [List.getElem?_set_self', hs'] at h
          cases h
          cases s' with
          | handout x =>
            cases hc
            exact ⟨as, _, [], x, rfl, rfl, hs', rfl⟩
          | looking x t' snap =>
            refine (ih k _ t hs' ?_).grow _
            simp only [PgConc.advance] at hc
            split at hc
            · cases hc
            · exact hc
          | locked x t' id => simp only [PgConc.advance] at hc; split at hc <;> cases hc
          | unique e uc t' => simp only [PgConc.advance] at hc; split at hc <;> cases hc
          | holding e uc t' => simp only [PgConc.advance] at hc; split at hc <;> cases hc
          | missing e uc t' => simp only [PgConc.advance] at hc; split at hc <;> cases hc
          | inserted e uc row => cases hc
          | found e uc id st =>
            simp only [PgConc.advance] at hc
            split at hc
            · split at hc
              · split at hc
                · cases hc
                · split at hc <;> cases hc
              · cases hc
            · cases hc
          | replacing e uc rep id => cases hc
          | done r => cases hc
        · rw [List.getElem?_set_ne hk] at h
          exact (ih i s t h hc).grow _

/-- **C64, the time of an attempt.** What is handed out carries the time at which the hand-out
statement began, whatever happened to the job before. -/
theorem C64_attempt_time (hash : HashFn) (as : List TPgAct) (a : TPgAct) (row : Row) (res : Res)
    (h : ((PgConc.run hash {} as).step hash a.tie a.now a.act).1 = .handedOut row res) :
    ∃ i p b q x, as = p ++ b :: q ∧ a.act = .advance i ∧ b.act = .advance i ∧
      (PgConc.run hash {} p).sessions[i]? = some (.handout x) ∧ row.attemptedAt = some (pgTime b.now) := by
  obtain ⟨now, tie, act⟩ := a
  cases act with
  | advance i =>
    simp only [PgConc.step] at h
    split at h
    · cases h
    · rename_i s hs
      cases s with
      | locked x t id =>
        obtain ⟨p, b, q, y, e1, e2, e3, e4⟩ := clock_began hash as i _ t hs rfl
        refine ⟨i, p, b, q, y, e1, rfl, e2, e3, ?_⟩
        simp only [PgConc.advance] at h
        split at h
        · cases h
        · simp only [PgEv.handedOut.injEq] at h
          rw [← h.1, e4]
          rfl
      | looking x t' snap => simp only [PgConc.advance] at h; split at h <;> cases h
      | unique e uc t' => simp only [PgConc.advance] at h; split at h <;> cases h
      | holding e uc t' => simp only [PgConc.advance] at h; split at h <;> cases h
      | missing e uc t' => simp only [PgConc.advance] at h; split at h <;> cases h
      | found e uc id st =>
        simp only [PgConc.advance] at h
        split at h
        · split at h
          · split at h
            · cases h
            · split at h <;> cases h
          · cases h
        · cases h
      | _ => cases h
  | handout x => cases h
  | unique e uc => cases h
  | abort k => simp only [PgConc.step] at h; split at h <;> cases h
  | plain e => simp only [PgConc.step] at h; split at h <;> cases h
  | stmt o => cases o <;> simp only [PgConc.step] at h <;> first | (split at h <;> cases h) | cases h

example : ((PgConc.run sampleHash {} snoozeHistory).pg.rows.map fun r =>
    (r.status, r.attemptedAt, r.completedAt, r.cancelledAt, r.discardedAt)) =
    [(.cancelled, some 9000, none, some 12000, none)] ∧
    stamp 1 (PgEv.cancels 1) (PgConc.history sampleHash {} snoozeHistory) = some 12000 ∧
    lastAttemptAt 1 (PgConc.history sampleHash {} snoozeHistory) = some 9000 := by decide

/-- The second hand-out of the job, by a statement that began at 9000. -/
example : (match ((PgConc.run sampleHash {} (snoozeHistory.take 9)).step sampleHash Int.toNat 9500 (.advance 1)).1 with
    | .handedOut row _ => (row.id, row.attempt, row.attemptedAt) | _ => (0, 0, none)) = (1, 1, some 9000) := by decide

/-! ## C65 -/

private theorem finished_after {c : PgConc} (H : PgInv c) {hash : HashFn} {tie : Int → Nat} {now : Time} {a : PgAct}
    {id : Int} (h : (c.step hash tie now a).1.finishes id = true) :
    ∀ r ∈ (c.step hash tie now a).2.pg.rows, r.id = id → r.status.Finished := by
  intro r' hr' hid
  rcases (table_step H hash tie now a).back hr' with ⟨uc, he, -⟩ | ⟨r, hr, hrid, hm, -⟩
  · rw [he] at h; cases h
  · have hri : r.id = id := by rw [hrid, hid]
    cases hm with
    | keep ht e => rw [hri] at ht; have := (touches_split ht).2.2.2.2.2; rw [this] at h; cases h
    | handout x t res he hr e => rw [he] at h; cases h
    | replaced rep enq he e => rw [he] at h; cases h
    | complete he e => rw [e]; exact .inl rfl
    | retryable next err he e => rw [he] at h; cases h
    | discarded err he e => rw [e]; exact .inr (.inr rfl)
    | cancelled err he e => rw [e]; exact .inr (.inl rfl)
    | snoozed next he e => rw [he] at h; cases h
    | rerun he e => rw [he] at h; cases h
    | update job hid he e => rw [he] at h; cases h

private theorem finishes_touches {ev : PgEv} {id : Int} (h : ev.finishes id = true) : ev.touches id = true := by
  simp [PgEv.touches, h]

/-- **C65.** Once a job was completed, cancelled or discarded on Postgres, no node is
handed the job again until it is retried, snoozed or rerun; edits do not revive it. -/
theorem C65_finished_not_handed_out (hash : HashFn) (as : List TPgAct) (id : Int) (pre mid post : List TPgEv)
    (e₁ e₂ : TPgEv) (h : PgConc.history hash {} as = pre ++ e₁ :: (mid ++ e₂ :: post))
    (h₁ : e₁.ev.finishes id = true) (hmid : ∀ e ∈ mid, e.ev.putsBack id = false) : e₂.ev.handsOut id = false := by
  obtain ⟨as₁, a, as₂, rfl, h1, h2, h3⟩ := PgConc.history_split h
  have H := pgInv hash as₁
  have I := pgHist hash as₁
  have H' := H.step hash a.tie a.now a.act
  have I' := I.step H hash a.tie a.now a.act
  obtain ⟨bs₁, b, bs₂, rfl, g1, g2, -⟩ := PgConc.history_split h3
  rw [h2] at h₁
  have hf := finished_after H h₁
  have hin := I'.touched ⟨a.now, _⟩ (by simp) id (finishes_touches h₁)
  have hall := follow_row (hash := hash) H' I' hin (fun r => r.status.Finished) (fun ev => ev.putsBack id = false)
    ?_ bs₁ (by rw [g1]; exact hmid) hf
  · cases hh : e₂.ev.handsOut id with
    | false => rfl
    | true =>
      exfalso
      have g3 := congrArg TPgEv.ev g2
      cases hev : e₂.ev with
      | handedOut row res =>
        rw [hev] at hh g3
        simp only [PgEv.handsOut, beq_iff_eq] at hh
        obtain ⟨r, hr, hrid, -, x, t, -, hrd, -⟩ := handedOut_mem (H'.run hash bs₁) g3.symm
        have hs := not_waiting_of_finished (hall r hr (by rw [hrid, hh]))
        rcases (ready_iff'.mp hrd).waiting with h | h
        · exact hs.1 h
        · exact hs.2 h
      | _ => rw [hev] at hh; cases hh
  · intro now ev r r' hid hm hok hp
    cases hm with
    | keep ht e => rw [e]; exact hp
    | handout x t res he hr e =>
      exfalso
      have hs := not_waiting_of_finished hp
      rcases (ready_iff'.mp hr).waiting with h | h
      · exact hs.1 h
      · exact hs.2 h
    | replaced rep enq he e => rw [e]; exact hp
    | complete he e => rw [e]; exact .inl rfl
    | retryable next err he e => rw [he, ← hid] at hok; simp [PgEv.putsBack] at hok
    | discarded err he e => rw [e]; exact .inr (.inr rfl)
    | cancelled err he e => rw [e]; exact .inr (.inl rfl)
    | snoozed next he e => rw [he, ← hid] at hok; simp [PgEv.putsBack] at hok
    | rerun he e => rw [he, ← hid] at hok; simp [PgEv.putsBack] at hok
    | update job hid he e => rw [e]; exact hp

/-- A history in which job 1 is cancelled, edited, and asked for in vain. -/
def cancelHistory : List TPgAct :=
  [pgAct 5000 (.plain sampleEnq), pgAct 6000 (.stmt (.cancelled 1 sampleErr)),
    pgAct 7000 (.stmt (.update (sampleJob 1))), pgAct 8000 (.handout "mail"), pgAct 8000 (.advance 0),
    pgAct 8000 (.advance 0), pgAct 9000 (.stmt (.rerun 1)), pgAct 9000 (.handout "mail"), pgAct 9000 (.advance 1),
    pgAct 9000 (.advance 1), pgAct 9000 (.advance 1)]

example : ((PgConc.history sampleHash {} cancelHistory).map fun e => (e.ev.finishes 1, e.ev.putsBack 1, e.ev.handsOut 1)) =
    [(false, false, false), (true, false, false), (false, false, false), (false, false, false), (false, false, false),
      (false, false, false), (false, true, false), (false, false, false), (false, false, false), (false, false, false),
      (false, false, true)] := by decide

/-! ## C66 -/

/-- **C66.** No two rows are ever inserted with the same id, not even one after the
other is pruned; ids are positive, and every stored job was inserted. -/
theorem C66_ids_unique (hash : HashFn) (as : List TPgAct) :
    (pgInserted (PgConc.history hash {} as)).Nodup ∧
    (∀ id ∈ pgInserted (PgConc.history hash {} as), 0 < id) ∧
    ((PgConc.run hash {} as).pg.rows.map (·.id)).Nodup ∧
    ∀ r ∈ (PgConc.run hash {} as).pg.rows, r.id ∈ pgInserted (PgConc.history hash {} as) := by
  have I := pgHist hash as
  exact ⟨I.nodup, fun id h => by have := (I.low id h).1; omega, (pgInv hash as).nodup, I.ids⟩

/-- Two nodes enqueue at the same time, a job is pruned, another is enqueued. -/
def pruneHistory : List TPgAct :=
  [pgAct 5000 (.unique sampleEnq { key := none, executor := true, duration := none, statuses := [.complete], onConflict := .doNothing }),
    pgAct 5000 (.advance 0), pgAct 5000 (.advance 0), pgAct 5000 (.advance 0), pgAct 5000 (.plain sampleEnq),
    pgAct 5000 (.advance 0), pgAct 6000 (.stmt (.complete 2)),
    pgAct 7000 (.stmt (.prune { status := .complete, executors := .except [], pruneBy := .maxLength 0 })),
    pgAct 8000 (.plain sampleEnq)]

example : pgInserted (PgConc.history sampleHash {} pruneHistory) = [2, 1, 3] ∧
    ((PgConc.run sampleHash {} pruneHistory).pg.rows.map (·.id)) = [1, 3] := by decide

/-! ## C67 -/

/-- **C67.** A by-id call on Postgres waits, changing nothing, only while another
transaction has the row locked. Otherwise it returns `JobNotFound` with the id exactly
when no row has it, changing nothing; else it succeeds and changes no row but that. -/
theorem C67_by_id (hash : HashFn) (as : List TPgAct) (tie : Int → Nat) (now : Time) (o : Op) (id : Int)
    (ho : o.target = some id) :
    let c := PgConc.run hash {} as
    let s := c.step hash tie now (.stmt o)
    (s.1 = .blocked ∧ s.2 = c ∧ ∃ x ∈ c.sessions, x.rowLock = some id) ∨
    ((∀ r ∈ c.pg.rows, r.id ≠ id) ∧ s.1 = .stmt o (.err (.jobNotFound id)) ∧ s.2 = c) ∨
    ((∃ r ∈ c.pg.rows, r.id = id) ∧ s.1 = .stmt o .unit ∧ s.2.sessions = c.sessions ∧ s.2.pg.seq = c.pg.seq ∧
      s.2.pg.rows.length = c.pg.rows.length ∧
      ∀ (k : Nat) (r r' : Row), c.pg.rows[k]? = some r → s.2.pg.rows[k]? = some r' →
        r'.id = r.id ∧ (r.id ≠ id → r' = r)) := by
  intro c s
  have H := pgInv hash as
  have hneeds : o.needs tie now c.pg.rows = [id] := by
    cases o <;> simp only [Op.target, Option.some.injEq, reduceCtorEq] at ho <;> subst ho <;> rfl
  have hex : ∃ f : Row → Row, (∀ r, (f r).id = r.id) ∧ c.pg.step tie now o = c.pg.onRow id f := by
    cases o <;> simp only [Op.target, Option.some.injEq, reduceCtorEq] at ho <;> subst ho <;>
      (refine ⟨_, ?_, rfl⟩; intro r; rfl)
  have hstep : s = if (o.needs tie now c.pg.rows).any c.rowLocked then (.blocked, c)
        else (.stmt o (c.pg.step tie now o).1, { c with pg := (c.pg.step tie now o).2 }) := by
    show c.step hash tie now (.stmt o) = _
    cases o <;> first | (simp [Op.target] at ho; done) | (simp only [PgConc.step])
  rw [hneeds] at hstep
  obtain ⟨f, hf, hop⟩ := hex
  split at hstep
  · rename_i hb
    left
    rw [hstep]
    simp only [List.any_cons, List.any_nil, Bool.or_false, PgConc.rowLocked, List.any_eq_true, beq_iff_eq] at hb
    exact ⟨rfl, rfl, hb⟩
  · right
    rw [hop] at hstep
    rcases onRow_cases id f c.pg H.nodup with ⟨h1, h2⟩ | ⟨h1, h2⟩
    · left
      rw [hstep, h2]
      exact ⟨fun r hr e => h1 (mem_rowIds.mpr ⟨r, hr, e⟩), rfl, rfl⟩
    · right
      rw [hstep, h2]
      refine ⟨mem_rowIds.mp h1, rfl, rfl, rfl, by simp [updateRows], ?_⟩
      intro k r r' hr hr'
      simp only [updateRows, List.getElem?_map, hr, Option.map_some, Option.some.injEq] at hr'
      subst hr'
      split
      · exact ⟨hf r, fun h => absurd (by assumption) h⟩
      · exact ⟨rfl, fun _ => rfl⟩

example : ((PgConc.run sampleHash {} cancelHistory).step sampleHash Int.toNat 10000 (.stmt (.complete 7))).1 matches
    .stmt (.complete 7) (.err (.jobNotFound 7)) := by decide

example : ((PgConc.run sampleHash {} (cancelHistory.take 10)).step sampleHash Int.toNat 10000 (.stmt (.complete 1))).1 matches
    .blocked := by decide

/-! ## C70 -/

/-- The event retries or snoozes row `id` until time `t`. -/
def PgEv.delays (id : Int) (t : Time) : PgEv → Prop
  | .stmt (.retryable i next _) .unit => i = id ∧ next = t
  | .stmt (.snoozed i next) .unit => i = id ∧ next = t
  | _ => False

/-- The clock does not run backwards. -/
def ClockOk (as : List TPgAct) : Prop := (as.map (·.now)).Pairwise (· ≤ ·)

private theorem tmod_1000 (x : Int) : Int.tmod x 1000 = if 0 ≤ x then x % 1000 else - ((-x) % 1000) := by
  split
  · rename_i h; exact Int.tmod_eq_emod_of_nonneg h
  · rename_i h
    have : Int.tmod (-x) 1000 = (-x) % 1000 := Int.tmod_eq_emod_of_nonneg (by omega)
    rw [Int.neg_tmod] at this
    omega

theorem pgTime_mono {a b : Time} (h : a ≤ b) : pgTime a ≤ pgTime b := by
  simp only [pgTime, tmod_1000]
  generalize epoch2000 = k
  simp only [Time] at *
  split <;> split <;> omega

/-- A hand-out in progress began at the time of some event. -/
private theorem session_times (hash : HashFn) (as : List TPgAct) :
    (∀ x t snap, Session.looking x t snap ∈ (PgConc.run hash {} as).sessions →
      ∃ e ∈ PgConc.history hash {} as, e.now = t) ∧
    (∀ x t id, Session.locked x t id ∈ (PgConc.run hash {} as).sessions →
      ∃ e ∈ PgConc.history hash {} as, e.now = t) := by
  refine pg_history (hash := hash) (fun h c =>
    (∀ x t snap, Session.looking x t snap ∈ c.sessions → ∃ e ∈ h, e.now = t) ∧
    (∀ x t id, Session.locked x t id ∈ c.sessions → ∃ e ∈ h, e.now = t)) (by simp) ?_ as
  rintro h c a H ⟨I1, I2⟩
  have up : ∀ {e' : TPgEv} {t : Time}, (∃ e ∈ h, e.now = t) → ∃ e ∈ h ++ [e'], e.now = t := by
    rintro e' t ⟨e, he, ht⟩; exact ⟨e, by simp [he], ht⟩
  refine ⟨?_, ?_⟩
  · intro x t snap hm
    rcases session_back hm with hm | ⟨-, ht⟩
    · exact up (I1 _ _ _ hm)
    · exact ⟨_, List.mem_append_right _ List.mem_cons_self, ht.symm⟩
  · intro x t id hm
    rcases session_back hm with hm | ⟨snap, hm⟩
    · exact up (I2 _ _ _ hm)
    · exact up (I1 _ _ _ hm)

private theorem history_times (hash : HashFn) (c : PgConc) (as : List TPgAct) :
    (c.history hash as).map (·.now) = as.map (·.now) := by
  induction as generalizing c with
  | nil => rfl
  | cons a as ih => simp [PgConc.history, ih]

private theorem delayed_after {c : PgConc} (H : PgInv c) {hash : HashFn} {tie : Int → Nat} {now : Time} {a : PgAct}
    {id : Int} {t : Time} (h : (c.step hash tie now a).1.delays id t) :
    (c.step hash tie now a).1.touches id = true ∧
    ∀ r ∈ (c.step hash tie now a).2.pg.rows, r.id = id → r.scheduledAt = pgTime t := by
  have ht : (c.step hash tie now a).1.touches id = true := by
    generalize (c.step hash tie now a).1 = ev at h
    unfold PgEv.delays at h
    split at h
    · simp [PgEv.touches, PgEv.retries, h.1]
    · simp [PgEv.touches, PgEv.snoozes, h.1]
    · exact h.elim
  refine ⟨ht, ?_⟩
  intro r' hr' hid
  rcases (table_step H hash tie now a).back hr' with ⟨uc, he, -⟩ | ⟨r, hr, hrid, hm, -⟩
  · rw [he] at h; exact h.elim
  · have hri : r.id = id := by rw [hrid, hid]
    cases hm with
    | keep ht' e => rw [hri, ht] at ht'; cases ht'
    | handout x t res he hr e => rw [he] at h; exact h.elim
    | replaced rep enq he e => rw [he] at h; exact h.elim
    | complete he e => rw [he] at h; exact h.elim
    | retryable next err he e => rw [he] at h; rw [e]; simp [Row.markRetryable, h.2]
    | discarded err he e => rw [he] at h; exact h.elim
    | cancelled err he e => rw [he] at h; exact h.elim
    | snoozed next he e => rw [he] at h; rw [e]; simp [Row.markSnoozed, h.2]
    | rerun he e => rw [he] at h; exact h.elim
    | update job hid he e => rw [he] at h; exact h.elim

/-- A hand-out statement began at an earlier moment, and the row handed out was due then. -/
theorem handed_out_due_at (hash : HashFn) (as : List TPgAct) (pre post : List TPgEv) (e₂ : TPgEv) (row : Row) (res : Res)
    (h : PgConc.history hash {} as = pre ++ e₂ :: post) (h₂ : e₂.ev = .handedOut row res) :
    ∃ e ∈ pre, row.scheduledAt < pgTime e.now + 100000000 := by
  obtain ⟨as₀, b₀, as₃, has, k1, k2, -⟩ := PgConc.history_split h
  have g3 := congrArg TPgEv.ev k2
  rw [h₂] at g3
  obtain ⟨r, hr, hrid, -, x, τ, hl, hrd, hrow⟩ := handedOut_mem (pgInv hash _) g3.symm
  have hdue := (ready_iff'.mp hrd).due
  obtain ⟨e, he, hτ⟩ := (session_times hash _).2 x τ _ hl
  rw [k1] at he
  refine ⟨e, he, ?_⟩
  rw [hτ, hrow]
  exact hdue

/-- The same without any assumption about the clock: the hand-out statement began at an
earlier moment, at which the clock showed more than `t - 100 ms`. -/
theorem not_early_at (hash : HashFn) (as : List TPgAct) (id : Int) (t : Time)
    (pre mid post : List TPgEv) (e₁ e₂ : TPgEv)
    (h : PgConc.history hash {} as = pre ++ e₁ :: (mid ++ e₂ :: post))
    (h₁ : e₁.ev.delays id t) (hmid : ∀ e ∈ mid, e.ev.putsBack id = false ∧ e.ev.edits id = false)
    (h₂ : e₂.ev.handsOut id = true) : ∃ e ∈ pre ++ e₁ :: mid, pgTime t - 100000000 < pgTime e.now := by
  have h' : PgConc.history hash {} as = (pre ++ e₁ :: mid) ++ e₂ :: post := by simpa using h
  obtain ⟨as₀, b₀, as₃, has, k1, k2, -⟩ := PgConc.history_split h'
  obtain ⟨as₁, a, as₂, rfl, h1, h2, h3⟩ := PgConc.history_split (k1.trans rfl)
  have H := pgInv hash as₁
  have I := pgHist hash as₁
  have H' := H.step hash a.tie a.now a.act
  have I' := I.step H hash a.tie a.now a.act
  rw [h2] at h₁
  obtain ⟨ht, hd⟩ := delayed_after H h₁
  have hin := I'.touched ⟨a.now, _⟩ (by simp) id ht
  have hall := follow_row (hash := hash) H' I' hin (fun r => r.scheduledAt = pgTime t)
    (fun ev => ev.putsBack id = false ∧ ev.edits id = false) ?_ as₂ (by rw [h3]; exact hmid) hd
  · have g3 := congrArg TPgEv.ev k2
    cases hev : e₂.ev with
    | handedOut row res =>
      rw [hev] at h₂ g3
      simp only [PgEv.handsOut, beq_iff_eq] at h₂
      obtain ⟨r, hr, hrid, -, x, τ, hl, hrd, -⟩ := handedOut_mem (pgInv hash _) g3.symm
      have hs := hall r (by simpa [PgConc.run_append, PgConc.run] using hr) (by rw [hrid, h₂])
      have hdue := (ready_iff'.mp hrd).due
      obtain ⟨e, he, hτ⟩ := (session_times hash _).2 x τ _ hl
      rw [k1] at he
      refine ⟨e, he, ?_⟩
      rw [hs] at hdue
      rw [hτ]
      simp only [Time] at *
      omega
    | _ => rw [hev] at h₂; cases h₂
  · intro now ev r r' hid hm hok hp
    obtain ⟨hb, he'⟩ := hok
    cases hm with
    | keep ht e => rw [e]; exact hp
    | handout x t res he hr e => rw [e]; exact hp
    | replaced rep enq he e => rw [he, ← hid] at he'; simp [PgEv.edits] at he'
    | complete he e => rw [e]; exact hp
    | retryable next err he e => rw [he, ← hid] at hb; simp [PgEv.putsBack] at hb
    | discarded err he e => rw [e]; exact hp
    | cancelled err he e => rw [e]; exact hp
    | snoozed next he e => rw [he, ← hid] at hb; simp [PgEv.putsBack] at hb
    | rerun he e => rw [he, ← hid] at hb; simp [PgEv.putsBack] at hb
    | update job hjid he e => rw [he, ← hid] at he'; simp [PgEv.edits, hjid] at he'

/-- **C70.** After a job is retried or snoozed until time `t` on Postgres, a hand-out of
it, if nothing retries, snoozes, reruns or edits the job in between, happens when the
clock shows more than `t - 100 ms` (to the microsecond, since the table has
microseconds). -/
theorem C70_not_early (hash : HashFn) (as : List TPgAct) (hclock : ClockOk as) (id : Int) (t : Time)
    (pre mid post : List TPgEv) (e₁ e₂ : TPgEv)
    (h : PgConc.history hash {} as = pre ++ e₁ :: (mid ++ e₂ :: post))
    (h₁ : e₁.ev.delays id t) (hmid : ∀ e ∈ mid, e.ev.putsBack id = false ∧ e.ev.edits id = false)
    (h₂ : e₂.ev.handsOut id = true) : pgTime t - 100000000 < pgTime e₂.now := by
  have hc : ((PgConc.history hash {} as).map (·.now)).Pairwise (· ≤ ·) := by rw [history_times]; exact hclock
  obtain ⟨e, he, hlt⟩ := not_early_at hash as id t pre mid post e₁ e₂ h h₁ hmid h₂
  have h' : PgConc.history hash {} as = (pre ++ e₁ :: mid) ++ e₂ :: post := by simpa using h
  rw [h', List.map_append, List.pairwise_append] at hc
  have := pgTime_mono (hc.2.2 _ (List.mem_map.mpr ⟨e, he, rfl⟩) e₂.now (by simp))
  simp only [Time] at *
  omega

example : ClockOk snoozeHistory ∧ (PgConc.history sampleHash {} snoozeHistory)[5]?.map (fun e => decide (e.ev.snoozes 1)) = some true ∧
    (PgConc.history sampleHash {} snoozeHistory)[9]?.map (fun e => e.ev.handsOut 1) = some true := by
  refine ⟨?_, by decide, by decide⟩
  simp only [ClockOk]; decide

end Rexecutor
