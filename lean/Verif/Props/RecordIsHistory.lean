import Verif.Lemmas.Life
import Verif.Lemmas.PgRow
import Verif.Spec.Samples
import Verif.Props.Records
import Verif.Props.PgRecords

/-! # C104: the record of a job is its history -/

namespace Rexecutor

/-! ## In memory -/

/-- The last event of a history of which `f` has something to say, and what it says. -/
def lastWord (f : TEv → Option α) (h : List TEv) : Option α := h.reverse.findSome? f

/-- A successful complete of job `id`. -/
def Ev.completes (id : Int) : Ev → Bool
  | .op (.complete i) .unit => i == id
  | _ => false

/-- A successful discard of job `id`. -/
def Ev.discards (id : Int) : Ev → Bool
  | .op (.discarded i _) .unit => i == id
  | _ => false

/-- A successful cancel of job `id`. -/
def Ev.cancels (id : Int) : Ev → Bool
  | .op (.cancelled i _) .unit => i == id
  | _ => false

/-- The time for which the event schedules the stored job `id`: the time asked for by a
retry or a snooze, the moment of a rerun. -/
def TEv.schedules (id : Int) : TEv → Option Time
  | ⟨_, .op (.retryable i t _) .unit⟩ => if i = id then some t else none
  | ⟨_, .op (.snoozed i t) .unit⟩ => if i = id then some t else none
  | ⟨now, .op (.rerun i) .unit⟩ => if i = id then some now else none
  | _ => none

/-- The status in which the event leaves job `id`, whose attempt number afterwards is
`attempt`. -/
def Ev.leaves (id attempt : Int) (ev : Ev) : Option JobStatus :=
  if ev.handsOut id then some .executing
  else if ev.completes id then some .complete
  else if ev.discards id then some .discarded
  else if ev.cancels id then some .cancelled
  else if ev.retries id then some .retryable
  else if ev.snoozes id then some (if attempt = 0 then .scheduled else .retryable)
  else if ev.reruns id then some (if attempt = 1 then .scheduled else .retryable)
  else none

/-- The time of the last event of kind `sets` that came after the last rerun of `id`. -/
def lastSince (id : Int) (sets : Ev → Bool) (h : List TEv) : Option Time :=
  (lastWord (fun e => if sets e.ev then some (some e.now) else if e.ev.reruns id then some none else none) h).join

/-- The job `j` is what the history `h` says: its insertion and, for every field that
changes, the last event that has a bearing on it. -/
structure ToldBy (h : List TEv) (j : Job) : Prop where
  /-- what was enqueued, when, and for how many attempts and for when it is now -/
  origin : ∃ t e, ⟨t, .inserted j.id e⟩ ∈ h ∧ j.executor = e.executor ∧ j.data = e.data ∧ j.metadata = e.metadata ∧
    j.tags = e.tags ∧ j.priority = e.priority ∧ j.insertedAt = t ∧
    j.maxAttempts = e.maxAttempts + (h.countP fun x => x.ev.reruns j.id) ∧
    j.scheduledAt = (lastWord (TEv.schedules j.id) h).getD e.scheduledAt
  status : j.status = (lastWord (fun x => x.ev.leaves j.id j.attempt) h).getD .scheduled
  attempted : j.attemptedAt = lastWord (fun x => if x.ev.handsOut j.id then some x.now else none) h
  completed : j.completedAt = lastSince j.id (Ev.completes j.id) h
  cancelled : j.cancelledAt = lastSince j.id (Ev.cancels j.id) h
  discarded : j.discardedAt = lastSince j.id (Ev.discards j.id) h

private theorem lastWord_snoc (f : TEv → Option α) (h : List TEv) (e : TEv) :
    lastWord f (h ++ [e]) = (f e).or (lastWord f h) := by
  simp only [lastWord, List.reverse_append, List.reverse_cons, List.reverse_nil, List.nil_append,
    List.singleton_append, List.findSome?_cons]
  cases f e <;> rfl

private theorem lastWord_none {f : TEv → Option α} {h : List TEv} (hf : ∀ e ∈ h, f e = none) : lastWord f h = none := by
  simp only [lastWord, List.findSome?_eq_none_iff, List.mem_reverse]
  exact hf

private theorem lastSince_snoc (id : Int) (sets : Ev → Bool) (h : List TEv) (e : TEv) :
    lastSince id sets (h ++ [e]) =
      if sets e.ev then some e.now else if e.ev.reruns id then none else lastSince id sets h := by
  rw [lastSince, lastWord_snoc]
  split
  · rfl
  · split <;> rfl

private theorem ends_of_finishes {id : Int} {ev : Ev} (h : ev.finishes id = false) :
    ev.completes id = false ∧ ev.discards id = false ∧ ev.cancels id = false := by
  refine ⟨?_, ?_, ?_⟩ <;>
  · simp only [Ev.completes, Ev.discards, Ev.cancels]
    split
    · simpa [Ev.finishes] using h
    · rfl

private theorem quiet {id : Int} {e : TEv} (h : e.ev.touches id = false) :
    e.ev.handsOut id = false ∧ e.ev.completes id = false ∧ e.ev.discards id = false ∧ e.ev.cancels id = false ∧
    e.ev.reruns id = false ∧ (∀ a, e.ev.leaves id a = none) ∧ e.schedules id = none := by
  obtain ⟨h1, h2, h3, h4, h5, -⟩ := not_touches h
  obtain ⟨g1, g2, g3⟩ := ends_of_finishes h2
  refine ⟨h1, g1, g2, g3, h5, fun a => by simp [Ev.leaves, *], ?_⟩
  unfold TEv.schedules
  split <;> simp_all [Ev.retries, Ev.snoozes, Ev.reruns]

private theorem reruns_snoc (id : Int) (h : List TEv) (e : TEv) :
    ((h ++ [e]).countP fun x => x.ev.reruns id) = (h.countP fun x => x.ev.reruns id) + if e.ev.reruns id then 1 else 0 := by
  simp [List.countP_append, List.countP_cons]

private theorem ToldBy.step {h : List TEv} {j j' : Job} {now : Time} {ev : Ev} (H : ToldBy h j) (hid : j'.id = j.id)
    (same : j'.executor = j.executor ∧ j'.data = j.data ∧ j'.metadata = j.metadata ∧ j'.tags = j.tags ∧
      j'.priority = j.priority ∧ j'.insertedAt = j.insertedAt)
    (hm : j'.maxAttempts = j.maxAttempts + if ev.reruns j.id then 1 else 0)
    (hs : j'.scheduledAt = (TEv.schedules j.id ⟨now, ev⟩).getD j.scheduledAt)
    (hl : ev.leaves j.id j'.attempt = some j'.status ∨
      (ev.leaves j.id j'.attempt = none ∧ j'.attempt = j.attempt ∧ j'.status = j.status))
    (ha : j'.attemptedAt = if ev.handsOut j.id then some now else j.attemptedAt)
    (hc : j'.completedAt = if ev.completes j.id then some now else if ev.reruns j.id then none else j.completedAt)
    (hx : j'.cancelledAt = if ev.cancels j.id then some now else if ev.reruns j.id then none else j.cancelledAt)
    (hd : j'.discardedAt = if ev.discards j.id then some now else if ev.reruns j.id then none else j.discardedAt) :
    ToldBy (h ++ [⟨now, ev⟩]) j' := by
  obtain ⟨⟨t, e, o1, o2, o3, o4, o5, o6, o7, o8, o9⟩, i2, i3, i4, i5, i6⟩ := H
  obtain ⟨s1, s2, s3, s4, s5, s6⟩ := same
  refine ⟨⟨t, e, by simp [hid, o1], s1 ▸ o2, s2 ▸ o3, s3 ▸ o4, s4 ▸ o5, s5 ▸ o6, s6 ▸ o7, ?_, ?_⟩, ?_, ?_, ?_, ?_, ?_⟩ <;>
    rw [hid]
  · rw [hm, reruns_snoc, o8]; simp only
    split <;> omega
  · rw [hs, lastWord_snoc, o9]; cases TEv.schedules j.id ⟨now, ev⟩ <;> rfl
  · rw [lastWord_snoc]; simp only
    rcases hl with hl | ⟨hl, hat, hst⟩
    · rw [hl]; rfl
    · rw [hl, hat, hst]; simpa using i2
  · rw [ha, lastWord_snoc, i3]; simp only
    split <;> rfl
  · rw [hc, lastSince_snoc, i4]
  · rw [hx, lastSince_snoc, i5]
  · rw [hd, lastSince_snoc, i6]

private theorem told (paused : Bool) (as : List TAct)
    (hb : idsTaken ((fresh paused).trace as) ≤ 4294967296) :
    ∀ k ∈ ((fresh paused).run as).mem.jobs,
      (∀ e ∈ (fresh paused).trace as, e.ev.edits k.job.id = false) →
      ToldBy ((fresh paused).trace as) k.job := by
  refine life_induction paused (fun h j => (∀ e ∈ h, e.ev.edits j.id = false) → ToldBy h j) ?_ ?_ as hb
  · intro h now id e hu _
    have hc : (h.countP fun x => x.ev.reruns id) = 0 := by
      simp only [List.countP_eq_zero]
      intro x hx; simp [(quiet (hu x hx)).2.2.2.2.1]
    have hw : lastWord (TEv.schedules id) h = none := lastWord_none fun x hx => (quiet (hu x hx)).2.2.2.2.2.2
    have hl : lastWord (fun x => x.ev.leaves id 0) h = none :=
      lastWord_none fun x hx => (quiet (hu x hx)).2.2.2.2.2.1 _
    have ha : lastWord (fun x => if x.ev.handsOut id then some x.now else none) h = none :=
      lastWord_none fun x hx => by simp [(quiet (hu x hx)).1]
    have hs : ∀ sets : Ev → Bool, (∀ x ∈ h, sets x.ev = false) → lastSince id sets h = none := by
      intro sets hf
      rw [lastSince, lastWord_none]
      · rfl
      · intro x hx; simp [hf x hx, (quiet (hu x hx)).2.2.2.2.1]
    refine ⟨⟨now, e, by simp [EnqueuableJob.intoJob], rfl, rfl, rfl, rfl, rfl, rfl, ?_, ?_⟩, ?_, ?_, ?_, ?_, ?_⟩ <;>
      rw [intoJob_id]
    · rw [reruns_snoc, hc]; simp [EnqueuableJob.intoJob, Ev.reruns]
    · rw [lastWord_snoc, hw]; rfl
    · rw [lastWord_snoc]
      show JobStatus.scheduled = (Option.or _ (lastWord (fun x => x.ev.leaves id 0) h)).getD _
      rw [hl]; rfl
    · rw [lastWord_snoc, ha]; rfl
    · rw [lastSince_snoc, hs _ fun x hx => (quiet (hu x hx)).2.1]; rfl
    · rw [lastSince_snoc, hs _ fun x hx => (quiet (hu x hx)).2.2.2.1]; rfl
    · rw [lastSince_snoc, hs _ fun x hx => (quiet (hu x hx)).2.2.1]; rfl
  · intro h now ev j ih hed
    simp only [applyEv_id] at hed
    have hev := hed ⟨now, ev⟩ (by simp)
    have H := ih (fun e he => hed e (by simp [he]))
    simp only [Ev.edits, Bool.or_eq_false_iff] at hev
    cases ht : ev.touches j.id with
    | false =>
      obtain ⟨q1, q2, q3, q4, q5, q6, q7⟩ := quiet (e := ⟨now, ev⟩) ht
      rw [applyEv_of_not_touches ht]
      simp only at q1 q2 q3 q4 q5 q6
      refine H.step rfl ⟨rfl, rfl, rfl, rfl, rfl, rfl⟩ ?_ ?_ (.inr ⟨q6 _, rfl, rfl⟩) ?_ ?_ ?_ ?_
      all_goals simp [q1, q2, q3, q4, q5, q7]
    | true =>
      generalize hid : j.id = id at ht hev
      cases touch_of_touches ht with
      | update u hu => simp [Ev.updates, hu] at hev
      | wrote u hu => simp [Ev.conflicts, hu] at hev
      | _ =>
        refine H.step (applyEv_id ..) ?_ ?_ ?_ ?_ ?_ ?_ ?_ ?_ <;>
          simp [applyEv, TEv.schedules, Int.sub_eq_zero, Ev.leaves, Ev.handsOut,
            Ev.completes, Ev.discards, Ev.cancels, Ev.retries, Ev.snoozes, Ev.reruns, *,
            Job.markComplete, Job.markDiscarded, Job.markCancelled, Job.markExecuting,
            Job.markRetryable, Job.markSnoozed, Job.markRerunable]

/-- The `enqueue` call whose job an unfinished `enqueue` call holds. -/
private def jobOf : Pending → Option EnqueuableJob
  | .start e => some e
  | .noMatch e => some e
  | .allocated _ e => some e
  | .pushed _ e => some e
  | _ => none

private theorem calls_started (p : Bool) (as : List TAct) :
    ∀ c ∈ ((fresh p).run as).calls, ∀ e, jobOf c = some e → ∃ b ∈ as, b.act = .start e := by
  refine snocInduction (P := fun as => ∀ c ∈ ((fresh p).run as).calls, ∀ e, jobOf c = some e →
    ∃ b ∈ as, b.act = .start e) ?_ ?_ as
  · intro c hc; simp [Conc.run, fresh] at hc
  · intro as a ih c hc e he
    have grow : (∃ b ∈ as, b.act = .start e) → ∃ b ∈ as ++ [a], b.act = .start e :=
      fun ⟨b, hb, h⟩ => ⟨b, by simp [hb], h⟩
    rw [Conc.run_append] at hc
    simp only [Conc.run] at hc
    obtain ⟨now, act⟩ := a
    cases act with
    | start e' =>
      simp only [Conc.step, List.mem_append, List.mem_singleton] at hc
      rcases hc with hc | rfl
      · exact grow (ih c hc e he)
      · cases he
        exact ⟨⟨now, .start e⟩, by simp, rfl⟩
    | op o => exact grow (ih c (by simpa [Conc.step] using hc) e he)
    | advance i =>
      simp only [Conc.step] at hc
      split at hc
      · exact grow (ih c hc e he)
      · rename_i q hq
        have hq := List.mem_of_getElem? hq
        rcases List.mem_or_eq_of_mem_set hc with hc | rfl
        · exact grow (ih c hc e he)
        · refine grow (ih q hq e ?_)
          cases q with
          | start e' =>
            simp only [Mem.advance] at he
            split at he
            · exact he
            · split at he
              · exact he
              · cases he
          | noMatch e' => exact he
          | allocated id e' => exact he
          | pushed id e' => cases he
          | matched j => simp only [Mem.advance] at he; split at he <;> cases he
          | done r => cases he

private theorem inserted_started (p : Bool) (as : List TAct) :
    ∀ x ∈ (fresh p).trace as, ∀ id e, x.ev = .inserted id e → ∃ b ∈ as, b.act = .start e := by
  refine snocInduction (P := fun as => ∀ x ∈ (fresh p).trace as, ∀ id e, x.ev = .inserted id e →
    ∃ b ∈ as, b.act = .start e) ?_ ?_ as
  · intro x hx; simp [Conc.trace] at hx
  · intro as a ih x hx id e he
    rw [Conc.trace_append] at hx
    simp only [Conc.trace, List.mem_append, List.mem_singleton] at hx
    have grow : (∃ b ∈ as, b.act = .start e) → ∃ b ∈ as ++ [a], b.act = .start e :=
      fun ⟨b, hb, h⟩ => ⟨b, by simp [hb], h⟩
    rcases hx with hx | rfl
    · exact grow (ih x hx id e he)
    · obtain ⟨now, act⟩ := a
      cases act with
      | start e' => cases he
      | op o => cases he
      | advance i =>
        simp only [Conc.step] at he
        split at he
        · cases he
        · rename_i q hq
          have hq := List.mem_of_getElem? hq
          cases q with
          | allocated id' e' =>
            cases he
            exact grow (calls_started p as _ hq e rfl)
          | start e' =>
            simp only [Mem.advance] at he
            split at he
            · cases he
            · split at he <;> cases he
          | noMatch e' => cases he
          | pushed id e' => cases he
          | matched j => simp only [Mem.advance] at he; split at he <;> cases he
          | done r => cases he

/-- **C104, in memory.** In every history, for every stored job that was never edited by
`update_job` or a uniqueness conflict, the record is exactly its history: executor, data,
metadata, tags and priority are those of an `enqueue` call, `inserted_at` is when that call
stored it, `max_attempts` is what was asked for plus one per rerun, the schedule is what the
last retry or snooze asked for or when the last rerun was made, the status is what the last
event left, the attempt time that of the last hand-out, and the completion, cancellation and
discard times those of the last such call since the last rerun. -/
theorem C104_in_memory (paused : Bool) (as : List TAct) (k : KeyedJob)
    (hb : idsTaken ((fresh paused).trace as) ≤ 2 ^ 32)
    (hk : k ∈ ((fresh paused).run as).mem.jobs)
    (hed : ∀ e ∈ (fresh paused).trace as, e.ev.edits k.job.id = false) :
    ToldBy ((fresh paused).trace as) k.job ∧
    ∀ t e, ⟨t, .inserted k.job.id e⟩ ∈ (fresh paused).trace as → ∃ b ∈ as, b.act = .start e :=
  ⟨told paused as (by simpa using hb) k hk hed, fun _ e h => inserted_started paused as _ h _ e rfl⟩

/-- Job 0 is snoozed, retried, cancelled, rerun and completed. -/
def fullLife : List TAct := snoozedHistory ++ [call 9 (.rerun 0), call 10 (.load "mail"), call 11 (.complete 0)]

example : (∀ e ∈ fresh.trace fullLife, e.ev.edits 0 = false) ∧
    (fresh.run fullLife).mem.jobs.map (fun k => (k.job.id, k.job.status, k.job.attempt)) = [(0, .complete, 3)] ∧
    (fresh.run fullLife).mem.jobs.map (fun k => (k.job.scheduledAt, k.job.attemptedAt, k.job.completedAt, k.job.cancelledAt)) =
      [(9, some 10, some 11, none)] ∧
    (fresh.run fullLife).mem.jobs.map (fun k => k.job.maxAttempts) = [(sampleEnq.maxAttempts : Int) + 1] := by decide

/-! ## On Postgres -/

/-- The time for which the event schedules the stored row `id`: the time asked for by a
retry or a snooze, the moment of a rerun. -/
def TPgEv.schedules (id : Int) : TPgEv → Option Time
  | ⟨_, .stmt (.retryable i t _) .unit⟩ => if i = id then some (pgTime t) else none
  | ⟨_, .stmt (.snoozed i t) .unit⟩ => if i = id then some (pgTime t) else none
  | ⟨now, .stmt (.rerun i) .unit⟩ => if i = id then some (pgTime now) else none
  | _ => none

/-- The status in which the event leaves row `id`, whose attempt number afterwards is
`attempt`. -/
def PgEv.leaves (id attempt : Int) (ev : PgEv) : Option JobStatus :=
  if ev.handsOut id then some .executing
  else if ev.completes id then some .complete
  else if ev.discards id then some .discarded
  else if ev.cancels id then some .cancelled
  else if ev.retries id then some .retryable
  else if ev.snoozes id then some (if attempt = 0 then .scheduled else .retryable)
  else if ev.reruns id then some (if attempt = 1 then .scheduled else .retryable)
  else none

/-- What the history `h` says of the row `r`, inserted as `row`. -/
structure RowToldBy (h : List TPgEv) (row r : Row) : Prop where
  same : r.executor = row.executor ∧ r.insertedAt = row.insertedAt ∧ r.uniquenessKey = row.uniquenessKey
  unedited : (∀ x ∈ h, x.ev.edits r.id = false) → r.data = row.data ∧ r.metadata = row.metadata ∧ r.tags = row.tags ∧
    r.priority = row.priority ∧ r.maxAttempts = row.maxAttempts + (h.countP fun x => x.ev.reruns r.id) ∧
    r.scheduledAt = (lastSays (TPgEv.schedules r.id) h).getD row.scheduledAt
  status : r.status = (lastSays (fun x => x.ev.leaves r.id r.attempt) h).getD .scheduled

private theorem lastSays_snoc (f : TPgEv → Option α) (h : List TPgEv) (e : TPgEv) :
    lastSays f (h ++ [e]) = (f e).or (lastSays f h) := by
  simp only [lastSays, List.reverse_append, List.reverse_cons, List.reverse_nil, List.nil_append,
    List.singleton_append, List.findSome?_cons]
  cases f e <;> rfl

private theorem lastSays_silent {f : TPgEv → Option α} {h : List TPgEv} (hf : ∀ e ∈ h, f e = none) : lastSays f h = none := by
  simp only [lastSays, List.findSome?_eq_none_iff, List.mem_reverse]
  exact hf

private theorem pgReruns_snoc (id : Int) (h : List TPgEv) (e : TPgEv) :
    ((h ++ [e]).countP fun x => x.ev.reruns id) = (h.countP fun x => x.ev.reruns id) + if e.ev.reruns id then 1 else 0 := by
  simp [List.countP_append, List.countP_cons]

private theorem pgQuiet {id : Int} {e : TPgEv} (h : e.ev.touches id = false) :
    e.ev.reruns id = false ∧ (∀ a, e.ev.leaves id a = none) ∧ e.schedules id = none ∧ e.ev.edits id = false := by
  obtain ⟨h1, h2, h3, h4, h5, h6⟩ := touches_split h
  have g : e.ev.completes id = false ∧ e.ev.discards id = false ∧ e.ev.cancels id = false := by
    refine ⟨?_, ?_, ?_⟩ <;>
    · simp only [PgEv.completes, PgEv.discards, PgEv.cancels]
      split
      · rename_i he; rw [he] at h6; simpa [PgEv.finishes] using h6
      · rfl
  refine ⟨h4, fun a => by simp [PgEv.leaves, *], ?_, h5⟩
  unfold TPgEv.schedules
  split <;> simp_all [PgEv.retries, PgEv.snoozes, PgEv.reruns]

/-- Induction over what has been done to the rows, from the event that inserts them. -/
private theorem row_induction_inserted {hash : HashFn} (P : List TPgEv → Row → Prop)
    (hnew : ∀ (h : List TPgEv) (e : EnqueuableJob) (t : Time) (id : Int) (key : Option Int) (uc : Option Criteria) (now : Time),
      (∀ x ∈ h, x.ev.touches id = false) →
      P (h ++ [⟨now, .inserted (EnqueuableJob.toRow t e id key) uc⟩]) (EnqueuableJob.toRow t e id key))
    (hmove : ∀ (h : List TPgEv) (now : Time) (ev : PgEv) (r r' : Row), RowMove now ev r r' → P h r → P (h ++ [⟨now, ev⟩]) r')
    (as : List TPgAct) : ∀ r ∈ (PgConc.run hash {} as).pg.rows, P (PgConc.history hash {} as) r := by
  have := pg_history (hash := hash) (fun h c => PgHist h c ∧ ∀ r ∈ c.pg.rows, P h r) ⟨PgHist.init, by simp⟩ ?_ as
  · exact this.2
  · rintro h c a H ⟨I, IH⟩
    refine ⟨I.step H hash a.tie a.now a.act, ?_⟩
    intro r' hr'
    have T := table_step H hash a.tie a.now a.act
    rcases T.back hr' with ⟨uc, he, hn⟩ | ⟨r, hr, hid, hm, hi⟩
    · obtain ⟨e, t, key, hrow⟩ := inserted_fresh I he
      rw [he]
      have := hnew h e t r'.id key uc a.now ?_
      · rwa [← hrow] at this
      intro x hx
      by_cases ht : x.ev.touches r'.id = true
      · exfalso
        have hm := I.touched x hx _ ht
        rcases inserted_from he with ⟨e, uc', -, hs⟩ | ⟨e, -, -, -, hrow, -⟩
        · exact I.fresh _ _ _ hs hm
        · have hid : r'.id = ((c.pg.seq + 1 : Nat) : Int) := by rw [hrow]; rfl
          have := (I.low _ hm).2
          omega
      · simpa using ht
    · exact hmove h a.now _ r r' hm (IH r hr)

private theorem RowToldBy.step {h : List TPgEv} {row r r' : Row} {now : Time} {ev : PgEv} (H : RowToldBy h row r)
    (hid : r'.id = r.id)
    (same : r'.executor = r.executor ∧ r'.insertedAt = r.insertedAt ∧ r'.uniquenessKey = r.uniquenessKey)
    (un : ev.edits r.id = false → r'.data = r.data ∧ r'.metadata = r.metadata ∧ r'.tags = r.tags ∧
      r'.priority = r.priority ∧ r'.maxAttempts = r.maxAttempts + (if ev.reruns r.id then 1 else 0) ∧
      r'.scheduledAt = (TPgEv.schedules r.id ⟨now, ev⟩).getD r.scheduledAt)
    (hl : ev.leaves r.id r'.attempt = some r'.status ∨
      (ev.leaves r.id r'.attempt = none ∧ r'.attempt = r.attempt ∧ r'.status = r.status)) :
    RowToldBy (h ++ [⟨now, ev⟩]) row r' := by
  obtain ⟨⟨o1, o2, o3⟩, u, st⟩ := H
  obtain ⟨s1, s2, s3⟩ := same
  refine ⟨⟨s1 ▸ o1, s2 ▸ o2, s3 ▸ o3⟩, ?_, ?_⟩ <;> rw [hid]
  · intro hed
    obtain ⟨a1, a2, a3, a4, a5, a6⟩ := u fun x hx => hed x (by simp [hx])
    obtain ⟨b1, b2, b3, b4, b5, b6⟩ := un (hed ⟨now, ev⟩ (by simp))
    refine ⟨b1 ▸ a1, b2 ▸ a2, b3 ▸ a3, b4 ▸ a4, ?_, ?_⟩
    · rw [b5, pgReruns_snoc, a5]; simp only
      split <;> omega
    · rw [b6, lastSays_snoc, a6]; cases TPgEv.schedules r.id ⟨now, ev⟩ <;> rfl
  · rw [lastSays_snoc]; simp only
    rcases hl with hl | ⟨hl, hat, hst⟩
    · rw [hl]; rfl
    · rw [hl, hat, hst]; simpa using st

private theorem row_told (hash : HashFn) (as : List TPgAct) :
    ∀ r ∈ (PgConc.run hash {} as).pg.rows, ∃ t row uc,
      ⟨t, .inserted row uc⟩ ∈ PgConc.history hash {} as ∧ row.id = r.id ∧ RowToldBy (PgConc.history hash {} as) row r := by
  refine row_induction_inserted (fun h r => ∃ t row uc, ⟨t, .inserted row uc⟩ ∈ h ∧ row.id = r.id ∧ RowToldBy h row r) ?_ ?_ as
  · intro h e t id key uc now hu
    refine ⟨now, _, uc, by simp, rfl, ⟨rfl, rfl, rfl⟩, ?_, ?_⟩
    · intro _
      have hc : (h.countP fun x => x.ev.reruns id) = 0 := by
        simp only [List.countP_eq_zero]
        intro x hx; simp [(pgQuiet (hu x hx)).1]
      refine ⟨rfl, rfl, rfl, rfl, ?_, ?_⟩ <;> simp only [EnqueuableJob.toRow]
      · rw [pgReruns_snoc, hc]; simp [PgEv.reruns]
      · rw [lastSays_snoc, lastSays_silent fun x hx => (pgQuiet (hu x hx)).2.2.1]; rfl
    · simp only [EnqueuableJob.toRow]
      rw [lastSays_snoc, lastSays_silent fun x hx => (pgQuiet (hu x hx)).2.1 _]; rfl
  · rintro h now ev r r' hm ⟨t, row, uc, hin, hid, H⟩
    refine ⟨t, row, uc, by simp [hin], hid.trans hm.id_eq.symm, H.step hm.id_eq ?_ ?_ ?_⟩
    all_goals
      cases hm with
      | keep ht e =>
        subst e
        obtain ⟨q1, q2, q3, -⟩ := pgQuiet (e := ⟨now, ev⟩) ht
        simp only at q1 q2
        simp [q1, q2, q3]
      | handout x t res hev hr e =>
        have : ev = .handedOut (r.markExecuting t) res := by rw [hev, e]
        subst e
        subst this
        simp [PgEv.handsOut, PgEv.leaves, PgEv.reruns, TPgEv.schedules, Row.markExecuting]
      | _ =>
        rename_i hev e
        subst hev e
        simp [*, PgEv.edits, TPgEv.schedules, PgEv.leaves, PgEv.handsOut, PgEv.completes, PgEv.discards, PgEv.cancels,
          PgEv.retries, PgEv.snoozes, PgEv.reruns, Int.sub_eq_zero, Row.replace, Row.update, Row.markComplete,
          Row.markDiscarded, Row.markCancelled, Row.markRetryable, Row.markSnoozed, Row.markRerunable]
        try rfl

/-- The `.unique` call and the beginning of the transaction of a session. -/
private def uniqueOf (hash : HashFn) : Session → Option (EnqueuableJob × Criteria × (Time → Prop))
  | .unique e uc t => some (e, uc, (t = ·))
  | .holding e uc t => some (e, uc, (t = ·))
  | .missing e uc t => some (e, uc, (t = ·))
  | .inserted e uc row => some (e, uc, fun t => row = e.toRow t row.id (some (uc.identifier hash e.executor)))
  | _ => none

private theorem sessions_called (hash : HashFn) (as : List TPgAct) :
    ∀ s ∈ (PgConc.run hash {} as).sessions, ∀ e uc T, uniqueOf hash s = some (e, uc, T) →
      ∃ b ∈ as, b.act = .unique e uc ∧ T b.now := by
  induction as using snoc_induction with
  | nil => intro s h; simp [PgConc.run] at h
  | snoc as a ih =>
    intro s h e uc T hs
    have grow : (∃ b ∈ as, b.act = .unique e uc ∧ T b.now) → ∃ b ∈ as ++ [a], b.act = .unique e uc ∧ T b.now :=
      fun ⟨b, hb, h⟩ => ⟨b, by simp [hb], h⟩
    rw [PgConc.run_append] at h
    simp only [PgConc.run] at h
    obtain ⟨now, tie, act⟩ := a
    cases act with
    | handout x =>
      simp only [PgConc.step, List.mem_append, List.mem_singleton] at h
      rcases h with h | rfl
      · exact grow (ih s h _ _ _ hs)
      · cases hs
    | unique e' uc' =>
      simp only [PgConc.step, List.mem_append, List.mem_singleton] at h
      rcases h with h | rfl
      · exact grow (ih s h _ _ _ hs)
      · cases hs
        exact ⟨⟨now, tie, .unique e uc⟩, by simp, rfl, rfl⟩
    | plain e' =>
      simp only [PgConc.step] at h
      split at h <;> exact grow (ih s h _ _ _ hs)
    | stmt o =>
      have : (PgConc.step hash tie now (PgConc.run hash {} as) (.stmt o)).2.sessions = (PgConc.run hash {} as).sessions := by
        cases o <;> simp only [PgConc.step] <;> first | rfl | (split <;> rfl)
      simp only [this] at h
      exact grow (ih s h _ _ _ hs)
    | abort k =>
      simp only [PgConc.step] at h
      split at h
      · exact grow (ih s h _ _ _ hs)
      · exact grow (ih s h _ _ _ hs)
      · rcases List.mem_or_eq_of_mem_set h with h | rfl
        · exact grow (ih s h _ _ _ hs)
        · cases hs
    | advance k =>
      simp only [PgConc.step] at h
      split at h
      · exact grow (ih s h _ _ _ hs)
      · rename_i s' hs'
        have hm := List.mem_of_getElem? hs'
        rcases List.mem_or_eq_of_mem_set h with h | rfl
        · exact grow (ih s h _ _ _ hs)
        · cases s' with
          | handout x => cases hs
          | looking x t' snap => simp only [PgConc.advance] at hs; split at hs <;> cases hs
          | locked x t' id => simp only [PgConc.advance] at hs; split at hs <;> cases hs
          | unique e' uc' t' =>
            refine grow (ih _ hm _ _ _ ?_)
            simp only [PgConc.advance] at hs
            split at hs <;> exact hs
          | holding e' uc' t' =>
            refine grow (ih _ hm _ _ _ ?_)
            simp only [PgConc.advance] at hs
            split at hs
            · exact hs
            · cases hs
          | missing e' uc' t' =>
            simp only [PgConc.advance] at hs
            split at hs
            · cases hs
            · cases hs
              obtain ⟨b, hb, h1, h2⟩ := ih _ hm _ _ _ rfl
              exact grow ⟨b, hb, h1, by rw [← h2]; rfl⟩
          | inserted e' uc' row => cases hs
          | found e' uc' id st =>
            simp only [PgConc.advance] at hs
            split at hs
            · split at hs
              · split at hs
                · cases hs
                · split at hs <;> cases hs
              · cases hs
            · cases hs
          | replacing e' uc' rep id => cases hs
          | done r => cases hs

/-- The row is what the `enqueue` call `b` of the schedule asks for. -/
structure AskedFor (hash : HashFn) (b : TPgAct) (row : Row) : Prop where
  asked : ∃ e, row.executor = e.executor ∧ row.data = e.data ∧ row.metadata = e.metadata ∧ row.tags = e.tags ∧
    row.priority = e.priority ∧ row.maxAttempts = e.maxAttempts ∧ row.scheduledAt = pgTime e.scheduledAt ∧
    (b.act = .plain e ∧ row.uniquenessKey = none ∨
      ∃ uc, b.act = .unique e uc ∧ row.uniquenessKey = some (uc.identifier hash e.executor))
  at_ : row.insertedAt = pgTime b.now

private theorem inserted_asked (hash : HashFn) (as : List TPgAct) :
    ∀ x ∈ PgConc.history hash {} as, ∀ row uc, x.ev = .inserted row uc → ∃ b ∈ as, AskedFor hash b row := by
  induction as using snoc_induction with
  | nil => intro x hx; simp [PgConc.history] at hx
  | snoc as a ih =>
    intro x hx row uc he
    have grow : (∃ b ∈ as, AskedFor hash b row) → ∃ b ∈ as ++ [a], AskedFor hash b row :=
      fun ⟨b, hb, h⟩ => ⟨b, by simp [hb], h⟩
    rw [PgConc.history_append] at hx
    simp only [PgConc.history, List.mem_append, List.mem_singleton] at hx
    rcases hx with hx | rfl
    · exact grow (ih x hx _ _ he)
    · rcases inserted_from he with ⟨e, uc', -, hm⟩ | ⟨e, ha, -, -, hrow, -⟩
      · obtain ⟨b, hb, h1, h2⟩ := sessions_called hash as _ hm _ _ _ rfl
        refine grow ⟨b, hb, ⟨e, ?_⟩, ?_⟩
        · rw [h2]; exact ⟨rfl, rfl, rfl, rfl, rfl, rfl, rfl, .inr ⟨uc', h1, rfl⟩⟩
        · rw [h2]; rfl
      · refine ⟨a, by simp, ⟨e, ?_⟩, ?_⟩
        · rw [hrow]; exact ⟨rfl, rfl, rfl, rfl, rfl, rfl, rfl, .inl ⟨ha, rfl⟩⟩
        · rw [hrow]; rfl

/-- **C104, on Postgres.** In every history of the database, every stored job is what its
history says. It was inserted as one of the `enqueue` calls asked for, at the time that call
began. Its executor, `inserted_at` and uniqueness key are still the same. If it was never
edited by `update_job` or a replacement, neither have data, metadata, tags and priority
changed, `max_attempts` has grown by one per rerun, and the schedule is what the last retry
or snooze asked for or when the last rerun was made. Its status is what the last event left. -/
theorem C104_on_postgres (hash : HashFn) (as : List TPgAct) :
    ∀ r ∈ (PgConc.run hash {} as).pg.rows, ∃ t row uc b, b ∈ as ∧ AskedFor hash b row ∧
      ⟨t, .inserted row uc⟩ ∈ PgConc.history hash {} as ∧ row.id = r.id ∧ RowToldBy (PgConc.history hash {} as) row r := by
  intro r hr
  obtain ⟨t, row, uc, h1, h2, h3⟩ := row_told hash as r hr
  obtain ⟨b, hb, h4⟩ := inserted_asked hash as _ h1 _ _ rfl
  exact ⟨t, row, uc, b, hb, h4, h1, h2, h3⟩

/-- The same on Postgres: job 1 is snoozed, retried, cancelled and rerun. -/
example : (∀ x ∈ PgConc.history sampleHash {} (snoozeHistory ++ [pgAct 13000 (.stmt (.rerun 1))]), x.ev.edits 1 = false) ∧
    ((PgConc.run sampleHash {} (snoozeHistory ++ [pgAct 13000 (.stmt (.rerun 1))])).pg.rows.map fun r =>
      (r.id, r.status, r.attempt, r.scheduledAt, r.insertedAt)) = [(1, .scheduled, 1, 13000, 5000)] ∧
    ((PgConc.run sampleHash {} (snoozeHistory ++ [pgAct 13000 (.stmt (.rerun 1))])).pg.rows.map fun r => r.maxAttempts) =
      [(sampleEnq.maxAttempts : Int) + 1] := by decide

end Rexecutor
