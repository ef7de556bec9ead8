import Verif.Lemmas.Life
import Verif.Props.Query
import Verif.Spec.Samples
import Verif.Spec.Store

/-! # C04, C05, C06, C09, C12: which jobs are handed out -/

namespace Rexecutor

private theorem ready_eligible {now : Time} {x : String} {j : Job} :
    readyFor now x j = true ↔ Eligible now x j := by
  rw [readyFor_iff]
  constructor
  · rintro ⟨a, b, c⟩; exact ⟨a, c, by simp only [ms, Time] at *; omega⟩
  · rintro ⟨a, b, c⟩; exact ⟨a, by simp only [ms, Time] at *; omega, b⟩

/-! ## C04 -/

/-- **C04.** For every store, executor and clock reading: if a stream of the
executor is handed a job, that job was stored and eligible (right executor,
waiting, due), what is handed out and stored is that job with one attempt more
and status executing, and no other position of the store changes; and if any
stored job is eligible, some job is handed out. -/
theorem C04_only_due_jobs (now : Time) (x : String) (m : Mem) :
    (∀ j, (m.load now x).1 = some j →
      ∃ (i : Nat) (k : KeyedJob), m.jobs[i]? = some k ∧ Eligible now x k.job ∧
        j = handedOut now k.job ∧
        (m.load now x).2 = { m with jobs := m.jobs.set i { k with job := j } }) ∧
    ((∃ k ∈ m.jobs, Eligible now x k.job) → ∃ j, (m.load now x).1 = some j) ∧
    ((m.load now x).1 = none → (m.load now x).2 = m) := by
  rcases load_cases now x m with ⟨hne, he⟩ | ⟨l, k, r, h1, h2, h3, h4, h5⟩
  · rw [he]
    refine ⟨by simp, ?_, fun _ => rfl⟩
    rintro ⟨k, hk, hel⟩
    have := ready_eligible.mpr hel
    rw [hne k hk] at this; simp at this
  · rw [h5]
    refine ⟨?_, fun _ => ⟨_, rfl⟩, by simp⟩
    intro j hj
    simp only [Option.some.injEq] at hj
    subst hj
    refine ⟨l.length, k, by rw [h1]; simp, ready_eligible.mp h2, rfl, ?_⟩
    simp [h1]

example : Eligible 5 "mail" (sampleJob 3) ∧
    ((storeOf [{ sampleJob 2 with status := .complete }, sampleJob 3]).load 5 "mail").1
      = some (handedOut 5 (sampleJob 3)) := by decide

/-! ## C05 -/

/-- **C05.** The job handed out comes first among all eligible jobs of the store:
by scheduled time, then by priority number, then by position. -/
theorem C05_order (now : Time) (x : String) (m : Mem) (j : Job) (h : (m.load now x).1 = some j) :
    ∃ (i : Nat) (k : KeyedJob), m.jobs[i]? = some k ∧ Eligible now x k.job ∧ j = handedOut now k.job ∧
      ∀ (i' : Nat) (k' : KeyedJob), m.jobs[i']? = some k' → Eligible now x k'.job →
        FirstInLine k.job i k'.job i' := by
  rcases load_cases now x m with ⟨hne, he⟩ | ⟨l, k, r, h1, h2, h3, h4, h5⟩
  · rw [he] at h; simp at h
  · rw [h5] at h
    simp only [Option.some.injEq] at h
    refine ⟨l.length, k, by rw [h1]; simp, ready_eligible.mp h2, h.symm, ?_⟩
    intro i' k' hk' hel
    have hr := ready_eligible.mpr hel
    rw [h1] at hk'
    unfold FirstInLine
    rcases Nat.lt_trichotomy i' l.length with hlt | rfl | hgt
    · rw [List.getElem?_append_left hlt] at hk'
      have := h3 k' (List.mem_of_getElem? hk') hr
      have hd : ¬ dueBefore k'.job k.job = true := by simp [this]
      rw [dueBefore_iff] at hd
      simp only [Time] at *; omega
    · simp at hk'; subst hk'; right; exact ⟨rfl, Or.inr ⟨rfl, Nat.le_refl _⟩⟩
    · rw [List.getElem?_append_right (by omega)] at hk'
      have hm : k' ∈ r := by
        obtain ⟨d, hd⟩ : ∃ d, i' - l.length = d + 1 := ⟨i' - l.length - 1, by omega⟩
        rw [hd] at hk'; simp at hk'; exact List.mem_of_getElem? hk'
      have := h4 k' hm hr
      rw [dueBefore_iff] at this
      simp only [Time] at *; omega

example : ((storeOf [{ sampleJob 0 with scheduledAt := 3 }, { sampleJob 1 with priority := 7 },
      { sampleJob 2 with priority := 4 }, { sampleJob 3 with priority := 4 }]).load 5 "mail").1.map (·.id)
      = some 2 := by decide

/-- **C05, positions.** In every history the stored jobs are in the order in which
they were inserted. -/
theorem C05_positions_are_insertion_order (paused : Bool) (as : List TAct)
    (h : idsTaken ((fresh paused).trace as) ≤ 2 ^ 32) :
    (((fresh paused).run as).mem.jobs.map fun k => k.job.id).Sublist
      (insertedIds ((fresh paused).trace as)) :=
  (histOk_run paused as (by simpa using h)).stored

/-- **C18, order.** In every history a query returns its jobs in the order in which they
were inserted. -/
theorem C18_in_insertion_order (paused : Bool) (as : List TAct) (now : Time) (q : Query) (js : List Job)
    (h : idsTaken ((fresh paused).trace as) ≤ 2 ^ 32)
    (hq : (((fresh paused).run as).mem.step now (.query q)).1 = .jobs js) :
    (js.map (·.id)).Sublist (insertedIds ((fresh paused).trace as)) := by
  rw [C18_query_exact] at hq
  cases hq
  refine List.Sublist.trans ?_ (C05_positions_are_insertion_order paused as h)
  have := (List.filter_sublist (l := ((fresh paused).run as).mem.jobs.map (·.job))
    (p := fun j => open scoped Classical in decide (q.Holds j))).map (·.id)
  rw [List.map_map] at this
  exact this

/-! ## C06, C09 -/

private theorem unavailable_step (now : Time) (ev : Ev) (j : Job)
    (hev : ev.putsBack j.id = false) (hj : j.status ≠ .scheduled ∧ j.status ≠ .retryable) :
    (applyEv now ev j).status ≠ .scheduled ∧ (applyEv now ev j).status ≠ .retryable := by
  unfold applyEv
  split <;> (try split) <;>
    simp_all [Ev.putsBack, Ev.retries, Ev.snoozes, Ev.reruns, Ev.updates, Ev.conflicts,
      Job.markComplete, Job.markDiscarded, Job.markCancelled, Job.markExecuting]

/-- A job that is not waiting is not handed out before it is put back. -/
private theorem not_handed_out {h : List TEv} {c : Conc} (H : HistOk h c) {id : Int}
    (hid : id ∈ insertedIds h)
    (h0 : ∀ k ∈ c.mem.jobs, k.job.id = id → k.job.status ≠ .scheduled ∧ k.job.status ≠ .retryable)
    (as : List TAct) (hb : (c.run as).mem.allocated ≤ 4294967296)
    (hal : ∀ e ∈ c.trace as, e.ev.putsBack id = false) :
    ∀ e ∈ c.trace as, e.ev.handsOut id = false := by
  intro e he
  cases hho : e.ev.handsOut id with
  | false => rfl
  | true =>
    exfalso
    obtain ⟨pre, post, hsplit⟩ := List.append_of_mem he
    obtain ⟨as₁, rest, rfl, h1, h2⟩ := Conc.trace_split hsplit
    obtain ⟨a, as₂, rfl, rfl, h4⟩ := Conc.trace_cons h2
    rw [Conc.run_append] at hb
    have hb1 : (c.run as₁).mem.allocated ≤ 4294967296 := Nat.le_trans (run_allocated_le _ _) hb
    have hal1 : ∀ e ∈ c.trace as₁, e.ev.putsBack id = false := by
      intro e he'; refine hal e ?_; rw [Conc.trace_append]; exact List.mem_append_left _ he'
    have hP := (follow_job H hid (fun j => j.status ≠ .scheduled ∧ j.status ≠ .retryable)
      (fun ev => ev.putsBack id = false)
      (fun now ev j hev hj hs => unavailable_step now ev j (by rw [hj]; exact hev) hs)
      as₁ hb1 hal1 h0).2
    simp only at hho
    generalize hev : ((c.run as₁).step a.now a.act).1 = ev at hho
    unfold Ev.handsOut at hho
    split at hho
    · rename_i x j
      simp only [beq_iff_eq] at hho
      obtain ⟨-, l, k, r, g1, g2, -, -, g5, -⟩ := handout_cases hev
      rw [readyFor_iff] at g2
      have hk : k ∈ (c.run as₁).mem.jobs := by rw [g1]; simp
      have hkid : k.job.id = id := by rw [← hho, g5]; rfl
      have := hP k hk hkid
      rcases g2.2.2 with hs | hs
      · exact this.1 hs
      · exact this.2 hs
    · simp at hho

/-- **C06.** In every history of any number of concurrent clients and streams:
between two hand-outs of the same job there is an event that put it back (a
retry, snooze, rerun, update or uniqueness conflict of that job). -/
theorem C06_no_double_handout (paused : Bool) (as : List TAct) (id : Int)
    (hb : idsTaken ((fresh paused).trace as) ≤ 2 ^ 32)
    (pre mid post : List TEv) (e₁ e₂ : TEv)
    (h : (fresh paused).trace as = pre ++ e₁ :: mid ++ e₂ :: post)
    (h₁ : e₁.ev.handsOut id = true) (h₂ : e₂.ev.handsOut id = true) :
    ∃ e ∈ mid, e.ev.putsBack id = true := by
  have h' : (fresh paused).trace as = pre ++ e₁ :: (mid ++ e₂ :: post) := by simpa using h
  obtain ⟨as₁, a, as₂, -, -, he, htr, H, H', hb'⟩ := fresh_split h' (by simpa using hb)
  rw [he] at h₁
  simp only at h₁
  generalize hev : (((fresh paused).run as₁).step a.now a.act).1 = ev at h₁
  have hho : ∃ x j, ev = .op (.load x) (.job (some j)) ∧ j.id = id := by
    unfold Ev.handsOut at h₁
    split at h₁
    · exact ⟨_, _, rfl, by simpa using h₁⟩
    · simp at h₁
  obtain ⟨x, j, rfl, hjid⟩ := hho
  obtain ⟨-, l, k, r, g1, g2, -, -, g5, g6⟩ := handout_cases hev
  have hkid : k.job.id = id := by rw [← hjid, g5]; rfl
  have hid : id ∈ insertedIds (pre ++ [e₁]) := by
    rw [insertedIds_append]
    exact List.mem_append_left _ (hkid ▸ H.mem_inserted (k := k) (by rw [g1]; simp))
  by_cases hex : ∃ e ∈ mid, e.ev.putsBack id = true
  · exact hex
  exfalso
  -- split the continuation before the second hand-out
  obtain ⟨bs₁, rest, rfl, t1, t2⟩ := Conc.trace_split htr
  obtain ⟨b, bs₂, rfl, t3, t4⟩ := Conc.trace_cons t2
  have hmid : ∀ e ∈ mid, e.ev.putsBack id = false := by
    intro e he
    cases hp : e.ev.putsBack id with
    | false => rfl
    | true => exact absurd ⟨e, he, hp⟩ hex
  have he2nb : e₂.ev.putsBack id = false := by
    unfold Ev.handsOut at h₂
    split at h₂
    · rename_i heq; rw [heq]; rfl
    · simp at h₂
  have key := not_handed_out H' hid ?_ (bs₁ ++ [b]) ?_ ?_ e₂ ?_
  · rw [h₂] at key; simp at key
  · intro k' hk' hk'id
    have hn := H.ids_nodup
    unfold Mem.ids at hn
    rw [g6] at hk'
    rw [g1] at hn
    rcases mem_replaceAt hn hk' with ⟨-, hne⟩ | rfl
    · exact absurd (hk'id.trans hkid.symm) hne
    · exact ⟨by simp [Job.markExecuting], by simp [Job.markExecuting]⟩
  · refine Nat.le_trans ?_ hb'
    rw [show bs₁ ++ b :: bs₂ = (bs₁ ++ [b]) ++ bs₂ by simp, Conc.run_append _ (bs₁ ++ [b])]
    exact run_allocated_le _ _
  · rw [Conc.trace_append, t1]
    intro e he
    rcases List.mem_append.mp he with he | he
    · exact hmid e he
    · simp only [Conc.trace, List.mem_singleton] at he
      rw [he, ← t3]; exact he2nb
  · rw [Conc.trace_append, t1]
    exact List.mem_append_right _ (by simp only [Conc.trace, List.mem_singleton]; exact t3)

/-- Two streams compete for one job, which is retried and handed out again. -/
def retried : List TAct :=
  enqSteps 0 0 sampleEnq ++ [call 1 (.load "mail"), call 1 (.load "mail"),
    call 2 (.retryable 0 50 sampleErr), call 60 (.load "mail"), call 61 (.complete 0)]

example : handouts 0 (fresh.trace retried) = 2 ∧ idsTaken (fresh.trace retried) ≤ 2 ^ 32 ∧
    (fresh.trace retried).map (fun e => e.ev.putsBack 0)
      = [false, false, false, false, false, false, true, false, false] := by decide

/-- **C09.** Take any history and a job that is Complete, Cancelled or Discarded at
its end. In every continuation without an event that puts the job back (rerun,
retry, snooze, update or uniqueness conflict of that job), it is never handed out. -/
theorem C09_finished_not_rerun (paused : Bool) (before after : List TAct) (k : KeyedJob)
    (hb : idsTaken ((fresh paused).trace (before ++ after)) ≤ 2 ^ 32)
    (hk : k ∈ ((fresh paused).run before).mem.jobs)
    (hs : k.job.status = .complete ∨ k.job.status = .cancelled ∨ k.job.status = .discarded)
    (hc : ∀ e ∈ ((fresh paused).run before).trace after, e.ev.putsBack k.job.id = false) :
    ∀ e ∈ ((fresh paused).run before).trace after, e.ev.handsOut k.job.id = false := by
  have hb0 : ((fresh paused).run (before ++ after)).mem.allocated ≤ 4294967296 := by
    rw [← trace_taken]; simpa [fresh, Mem.init] using hb
  rw [Conc.run_append] at hb0
  have H := histOk_run paused before
    (by rw [Conc.trace_append] at hb; exact idsTaken_append_le (by simpa using hb))
  refine not_handed_out H (H.mem_inserted hk) ?_ after hb0 hc
  intro k' hk' hid
  have hkk : k' = k := eq_of_id H.ids_nodup hk hk' hid
  subst hkk
  rcases hs with hs | hs | hs <;> rw [hs] <;> simp

example : ((fresh.run retried).mem.jobs.map fun k => (k.job.id, k.job.status)) = [(0, .complete)] ∧
    ((fresh.run retried).trace (enqSteps 70 1 sampleEnq ++ [call 75 (.load "mail"), call 80 (.load "mail")])).map
      (fun e => (e.ev.putsBack 0, e.ev.handsOut 0, e.ev.handsOut 1))
      = [(false, false, false), (false, false, false), (false, false, false), (false, false, false),
         (false, false, true), (false, false, false)] := by decide

/-! ## C12 -/

/-- The event retries or snoozes job `id` for time `t`. -/
def Ev.delays (id : Int) (t : Time) : Ev → Prop
  | .op (.retryable i t' _) .unit => i = id ∧ t' = t
  | .op (.snoozed i t') .unit => i = id ∧ t' = t
  | _ => False

private theorem delays_step {now : Time} {c : Conc} {a : Act} {id : Int} {t : Time}
    (hn : c.mem.ids.Nodup) (h : (c.step now a).1.delays id t) :
    id ∈ c.mem.ids ∧ ∀ k ∈ (c.step now a).2.mem.jobs, k.job.id = id → k.job.scheduledAt = t := by
  constructor
  · have ht : (c.step now a).1.touches id = true := by
      unfold Ev.delays at h
      split at h
      · rename_i heq; rw [heq]
        simp [Ev.touches, Ev.putsBack, Ev.retries, h.1]
      · rename_i heq; rw [heq]
        simp [Ev.touches, Ev.putsBack, Ev.snoozes, h.1]
      · exact h.elim
    cases a with
    | op o => exact step_touches now c.mem o id ht
    | start e => simp [Conc.step, Ev.delays] at h
    | advance i =>
      exfalso
      simp only [Conc.step] at h
      cases hp : c.calls[i]? with
      | none => simp [hp, Ev.delays] at h
      | some p =>
        simp only [hp] at h
        cases p with
        | start e =>
          simp only [Mem.advance] at h
          split at h
          · exact h
          · split at h <;> exact h
        | matched job => rw [advance_matched_ev] at h; exact h
        | _ => exact h
  · intro k hk hkid
    cases step_job hn hk with
    | new e hev _ => rw [hev] at h; exact h.elim
    | old k₀ hk₀ _ hj =>
      have hid0 : k₀.job.id = id := by
        have := applyEv_id now (c.step now a).1 k₀.job
        rw [← hj] at this; rw [← this]; exact hkid
      rw [hj]
      unfold Ev.delays at h
      split at h
      · rename_i heq; rw [heq]; simp [applyEv, h.1, hid0, Job.markRetryable, h.2]
      · rename_i heq; rw [heq]; simp [applyEv, h.1, hid0, Job.markSnoozed, h.2]
      · exact h.elim

/-- **C12.** After a job is retried or snoozed for time `t`, a hand-out of it in the
continuation, if no event puts it back in between, happens when the clock shows
more than `t - 100 ms`. -/
theorem C12_not_early (paused : Bool) (as : List TAct) (id : Int) (t : Time)
    (hb : idsTaken ((fresh paused).trace as) ≤ 2 ^ 32)
    (pre mid post : List TEv) (e₁ e₂ : TEv)
    (h : (fresh paused).trace as = pre ++ e₁ :: mid ++ e₂ :: post)
    (h₁ : e₁.ev.delays id t) (hmid : ∀ e ∈ mid, e.ev.putsBack id = false)
    (h₂ : e₂.ev.handsOut id = true) :
    t - 100000000 < e₂.now := by
  have h' : (fresh paused).trace as = pre ++ e₁ :: (mid ++ e₂ :: post) := by simpa using h
  obtain ⟨as₁, a, as₂, -, -, he, htr, H, H', hb'⟩ := fresh_split h' (by simpa using hb)
  rw [he] at h₁
  have hd := delays_step H.ids_nodup h₁
  have hid : id ∈ insertedIds (pre ++ [e₁]) := by
    rw [insertedIds_append]; exact List.mem_append_left _ (H.stored.subset hd.1)
  obtain ⟨bs₁, rest, rfl, t1, t2⟩ := Conc.trace_split htr
  obtain ⟨b, bs₂, rfl, t3, t4⟩ := Conc.trace_cons t2
  have hP := (follow_job H' hid (fun j => j.scheduledAt = t) (fun ev => ev.putsBack id = false)
    ?_ bs₁ ?_ ?_ hd.2).2
  · rw [t3] at h₂
    simp only at h₂
    generalize hev : (((((fresh paused).run as₁).step a.now a.act).2.run bs₁).step b.now b.act).1 = ev at h₂
    unfold Ev.handsOut at h₂
    split at h₂
    · rename_i x j
      simp only [beq_iff_eq] at h₂
      obtain ⟨-, l, k, r, g1, g2, -, -, g5, -⟩ := handout_cases hev
      rw [readyFor_iff] at g2
      have := hP k (by rw [g1]; simp) (by rw [← h₂, g5]; rfl)
      rw [t3]
      simp only [ms, Time] at *; omega
    · simp at h₂
  · intro now ev j hev hj hs
    subst hj
    unfold applyEv
    split <;> (try split) <;>
      simp_all [Ev.putsBack, Ev.retries, Ev.snoozes, Ev.reruns, Ev.updates, Ev.conflicts,
        Job.markComplete, Job.markDiscarded, Job.markCancelled, Job.markExecuting]
  · refine Nat.le_trans ?_ hb'
    rw [Conc.run_append]
    exact run_allocated_le _ _
  · rw [t1]; exact hmid

example : ((fresh.trace (enqSteps 0 0 sampleEnq ++ [call 1 (.load "mail"),
    call 2 (.retryable 0 1000000000 sampleErr), call 900000000 (.load "mail"),
    call 900000001 (.load "mail")])).map fun e => (e.now, e.ev.handsOut 0)) =
    [(0, false), (0, false), (0, false), (0, false), (1, true), (2, false), (900000000, false),
     (900000001, true)] := by decide

end Rexecutor
