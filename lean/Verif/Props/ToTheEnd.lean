import Verif.Props.Served
import Verif.Props.Progress

/-!
# C119: a job is carried to its end

Statements about endless schedules: what happens if the runners keep being given turns.
-/

namespace Rexecutor

/-! ## Endless schedules -/

/-- The first `n` actions of an endless schedule. -/
def firstActs {α : Type} (σ : Nat → α) (n : Nat) : List α := (List.range n).map σ

/-- The state of the system after the first `n` actions. -/
def Sys.after (defs : List Runner) (paused : Bool) (σ : Nat → TSAct) (n : Nat) : Sys :=
  (Sys.init defs paused).run defs (firstActs σ n)

/-- The history of the first `n` actions. -/
def Sys.past (defs : List Runner) (paused : Bool) (σ : Nat → TSAct) (n : Nat) : List TSEv :=
  (Sys.init defs paused).trace defs (firstActs σ n)

/-- What the action after the first `n` does. -/
def Sys.evAt (defs : List Runner) (paused : Bool) (σ : Nat → TSAct) (n : Nat) : SEv :=
  ((Sys.after defs paused σ n).step defs (σ n).now (σ n).act).1

/-- Every waiting job that was not stored like this before is scheduled for `t` or later. -/
def NewFrom (t : Time) (before after : Mem) : Prop :=
  ∀ k ∈ after.jobs, k.job.status = .scheduled ∨ k.job.status = .retryable →
    k ∈ before.jobs ∨ t ≤ k.job.scheduledAt

/-- The job needs no further execution. -/
def JobStatus.isOver : JobStatus → Bool
  | .complete | .cancelled | .discarded => true
  | _ => false

theorem firstActs_succ {α : Type} (σ : Nat → α) (n : Nat) : firstActs σ (n + 1) = firstActs σ n ++ [σ n] := by
  simp [firstActs, List.range_succ]

private theorem after_succ (defs : List Runner) (p : Bool) (σ : Nat → TSAct) (n : Nat) :
    Sys.after defs p σ (n + 1) = ((Sys.after defs p σ n).step defs (σ n).now (σ n).act).2 := by
  simp [Sys.after, firstActs_succ, Sys.run_append, Sys.run]

private theorem past_succ (defs : List Runner) (p : Bool) (σ : Nat → TSAct) (n : Nat) :
    Sys.past defs p σ (n + 1) = Sys.past defs p σ n ++ [⟨(σ n).now, Sys.evAt defs p σ n⟩] := by
  simp [Sys.past, Sys.evAt, Sys.after, firstActs_succ, Sys.trace_append, Sys.trace]

private theorem mem_past {defs : List Runner} {p : Bool} {σ : Nat → TSAct} {n : Nat} {e : TSEv}
    (h : e ∈ Sys.past defs p σ n) : ∃ m, e = ⟨(σ m).now, Sys.evAt defs p σ m⟩ := by
  induction n with
  | zero => simp [Sys.past, firstActs, Sys.trace] at h
  | succ n ih =>
    rw [past_succ] at h
    rcases List.mem_append.mp h with h | h
    · exact ih h
    · exact ⟨n, by simpa using h⟩

/-- members of a list without repetitions that are all in another one -/
private theorem length_le_of_subset {α : Type} [BEq α] [LawfulBEq α] {l m : List α} (hn : l.Nodup)
    (h : ∀ a ∈ l, a ∈ m) : l.length ≤ m.length := by
  induction l generalizing m with
  | nil => simp
  | cons a l ih =>
    have ha := h a List.mem_cons_self
    obtain ⟨hal, hn⟩ := List.nodup_cons.mp hn
    have : l.length ≤ (m.erase a).length := by
      refine ih hn fun b hb => ?_
      have hne : b ≠ a := fun e => hal (e ▸ hb)
      exact (List.mem_erase_of_ne hne).mpr (h b (List.mem_cons_of_mem _ hb))
    rw [List.length_erase_of_mem ha] at this
    have hpos : 0 < m.length := List.length_pos_of_mem ha
    simp only [List.length_cons]
    omega

private theorem ahead_le {j : Job} {t : Time} {m m' : Mem} (hn : m'.ids.Nodup) (h : NewFrom t m m')
    (ht : j.scheduledAt < t) : m'.jobs.countP (aheadOf j) ≤ m.jobs.countP (aheadOf j) := by
  have key : ((m'.jobs.filter (aheadOf j)).map fun k => k.job.id).length ≤
      ((m.jobs.filter (aheadOf j)).map fun k => k.job.id).length := by
    refine length_le_of_subset ?_ ?_
    · exact (List.filter_sublist.map _).nodup hn
    · intro i hi
      obtain ⟨k, hk, rfl⟩ := List.mem_map.mp hi
      obtain ⟨hk, ha⟩ := List.mem_filter.mp hk
      refine List.mem_map.mpr ⟨k, List.mem_filter.mpr ⟨?_, ha⟩, rfl⟩
      simp only [aheadOf, decide_eq_true_eq] at ha
      obtain ⟨-, -, hw, hf⟩ := ha
      rcases h k hk hw with h | h
      · exact h
      · exfalso
        unfold InFront at hf
        simp only [Time] at *
        omega
  simpa [List.countP_eq_length_filter] using key

/-- what becomes of a stored job in a step -/
private theorem job_next {h : List TEv} {c : Conc} (H : HistOk h c) {now : Time} {b : Act} {id : Int}
    (hin : id ∈ insertedIds h) {k' : KeyedJob} (hk' : k' ∈ (c.step now b).2.mem.jobs) (hid : k'.job.id = id) :
    ∃ k ∈ c.mem.jobs, k.job.id = id ∧ k'.job = applyEv now (c.step now b).1 k.job := by
  cases step_job H.ids_nodup hk' with
  | new e hev hk =>
    rw [hid] at hev
    exact absurd (inserted_waiting hev) (H.not_waiting hin)
  | old k hk _ hj =>
    refine ⟨k, hk, ?_, hj⟩
    have := applyEv_id now (c.step now b).1 k.job
    rw [← hj] at this
    rw [← this]; exact hid

private theorem untouched {now : Time} {ev : Ev} {j : Job} {id : Int} (h : ev.touches id = false) (hj : j.id = id) :
    applyEv now ev j = j := applyEv_of_not_touches (by rw [hj]; exact h)

/-- all that is known of job `id` at every moment of an endless schedule -/
private structure Run (defs : List Runner) (p : Bool) (σ : Nat → TSAct) (id : Int) : Prop where
  hist : ∀ m, HistOk (backHistory (Sys.past defs p σ m)) (Sys.after defs p σ m).conc
  track : ∀ m, Track id (Sys.past defs p σ m) (Sys.after defs p σ m)
  rep : ∀ m, AllReportable (Sys.after defs p σ m)
  step : ∀ m, SStep defs (σ m).now (Sys.after defs p σ m) (σ m).act (Sys.evAt defs p σ m) (Sys.after defs p σ (m + 1))
  fly : ∀ m, FlyStep id (σ m).now (Sys.after defs p σ m) (Sys.evAt defs p σ m) (Sys.after defs p σ (m + 1))

private theorem run_of {defs : List Runner} {p : Bool} {σ : Nat → TSAct} {id : Int}
    (hids : ∀ m, idsTaken (backHistory (Sys.past defs p σ m)) ≤ 4294967296)
    (hq : ∀ m, (Sys.evAt defs p σ m).clientTouches id = false) : Run defs p σ id := by
  have hc : ∀ m, ClientsLeave id (Sys.past defs p σ m) := by
    intro m e he
    obtain ⟨m', rfl⟩ := mem_past he
    exact hq m'
  have hstep : ∀ m, SStep defs (σ m).now (Sys.after defs p σ m) (σ m).act (Sys.evAt defs p σ m)
      (Sys.after defs p σ (m + 1)) := by
    intro m
    rw [after_succ]
    exact step_sstep _ _ _ _
  refine ⟨fun m => histOk_sys defs p _ (hids m), fun m => (track_run defs p id _ (hids m) (hc m)).1,
    fun m => (track_run defs p id _ (hids m) (hc m)).2, hstep, fun m => ?_⟩
  refine fly_step (track_run defs p id _ (hids m) (hc m)).1 (track_run defs p id _ (hids m) (hc m)).2 ?_ (hstep m)
  intro e he
  have := hq m
  rw [he] at this
  exact this

section
variable {defs : List Runner} {p : Bool} {σ : Nat → TSAct} {id : Int}

private theorem Run.inserted (_ : Run defs p σ id) {m₀ m : Nat} {e : EnqueuableJob}
    (h : (Sys.evAt defs p σ m₀).back = some (.inserted id e)) (hm : m₀ < m) :
    id ∈ insertedIds (backHistory (Sys.past defs p σ m)) := by
  induction m with
  | zero => omega
  | succ m ih =>
    rw [past_succ, backHistory_append, insertedIds_append]
    rcases Nat.lt_succ_iff_lt_or_eq.mp hm with hm | rfl
    · exact List.mem_append_left _ (ih hm)
    · refine List.mem_append_right _ ?_
      simp [backHistory, h, insertedIds]

/-- the job at the next moment is the job before, changed as the event says -/
private theorem Run.next (R : Run defs p σ id) {m : Nat} (hin : id ∈ insertedIds (backHistory (Sys.past defs p σ m)))
    {k' : KeyedJob} (hk' : k' ∈ (Sys.after defs p σ (m + 1)).conc.mem.jobs) (hid : k'.job.id = id) :
    ∃ k ∈ (Sys.after defs p σ m).conc.mem.jobs, k.job.id = id ∧
      k'.job = match (Sys.evAt defs p σ m).back with
        | some ev => applyEv (σ m).now ev k.job
        | none => k.job := by
  have H := R.hist m
  have hf := R.fly m
  generalize Sys.after defs p σ (m + 1) = s' at *
  generalize Sys.evAt defs p σ m = ev at *
  cases hf with
  | away _ _ hsub hback hconc hend => rw [hback]; rw [hconc] at hk'; exact ⟨k', hk', hid, rfl⟩
  | other _ _ b hsub hback hconc ht => rw [hback]; rw [hconc] at hk'; exact job_next H hin hk' hid
  | taken r x j st _ hev hj hfly hfly' hconc =>
    rw [hconc] at hk'
    have := job_next H hin hk' hid
    rw [hev] at this
    exact this
  | ended r t j d o _ hid' ho hfly hfly' hconc => rw [hconc] at hk'; exact ⟨k', hk', hid, rfl⟩
  | overflowed r t j _ hid' hfly hfly' hconc => rw [hconc] at hk'; exact ⟨k', hk', hid, rfl⟩
  | reported r t o _ hid' hrep hfly hfly' hconc => rw [hconc] at hk'; exact job_next H hin hk' hid

private theorem Run.same (R : Run defs p σ id) {m : Nat} {k k' : KeyedJob}
    (hk : k ∈ (Sys.after defs p σ m).conc.mem.jobs) (hk' : k' ∈ (Sys.after defs p σ m).conc.mem.jobs)
    (h : k.job.id = id) (h' : k'.job.id = id) : k = k' :=
  eq_of_id (R.hist m).ids_nodup hk' hk (by rw [h, h'])

/-- the execution of a reported event was in flight -/
private theorem Run.in_flight (R : Run defs p σ id) {m r : Nat} {t : Task}
    (h : (Sys.evAt defs p σ m).reports r t = true) (hid : t.id = id) :
    ∃ o, (Sys.after defs p σ m).flying id ≠ [] ∧ Reportable t o ∧
      Sys.evAt defs p σ m = .reported r t ((Sys.after defs p σ m).conc.step (σ m).now (.op o)).1 := by
  have hs := R.step m
  have hrep := R.rep m
  generalize Sys.after defs p σ (m + 1) = s' at *
  generalize Sys.evAt defs p σ m = ev at *
  generalize (σ m).act = a at hs
  cases hs with
  | reported r' i rs t' o hr hf =>
    simp only [SEv.reports, Bool.and_eq_true, beq_iff_eq] at h
    obtain ⟨rfl, rfl⟩ := h
    have hm := List.mem_of_getElem? hf
    refine ⟨o, ?_, hrep r' _ o (by rw [flightsOf_some hr]; exact hm) rfl, rfl⟩
    intro hn
    have := mem_flying hr hm hid
    rw [hn] at this; cases this
  | _ => simp [SEv.reports] at h

/-- an `Executing` job nobody executes is never executed again -/
private theorem Run.stuck (R : Run defs p σ id) {m m' : Nat} (hin : id ∈ insertedIds (backHistory (Sys.past defs p σ m)))
    (hn : (Sys.after defs p σ m).flying id = [])
    (hw : ∀ k ∈ (Sys.after defs p σ m).conc.mem.jobs, k.job.id = id → k.job.status ≠ .scheduled ∧ k.job.status ≠ .retryable)
    (hm : m ≤ m') : (Sys.after defs p σ m').flying id = [] ∧
      id ∈ insertedIds (backHistory (Sys.past defs p σ m')) ∧
      ∀ k ∈ (Sys.after defs p σ m').conc.mem.jobs, k.job.id = id → k.job.status ≠ .scheduled ∧ k.job.status ≠ .retryable ∧
        ∃ k₀ ∈ (Sys.after defs p σ m).conc.mem.jobs, k₀.job.id = id ∧ k.job = k₀.job := by
  induction hm with
  | refl => exact ⟨hn, hin, fun k hk hid => ⟨(hw k hk hid).1, (hw k hk hid).2, k, hk, hid, rfl⟩⟩
  | @step m' hm ih =>
    obtain ⟨i1, i2, i3⟩ := ih
    have hin' : id ∈ insertedIds (backHistory (Sys.past defs p σ (m' + 1))) := by
      rw [past_succ, backHistory_append, insertedIds_append]
      exact List.mem_append_left _ i2
    have hnext := fun k' hk' hid => R.next (k' := k') i2 hk' hid
    have hf := R.fly m'
    refine ⟨?_, hin', ?_⟩
    · clear hnext hin'
      generalize Sys.after defs p σ (m' + 1) = s' at *
      generalize Sys.evAt defs p σ m' = ev at *
      cases hf with
      | away _ _ hsub _ _ _ => rw [i1] at hsub; exact List.sublist_nil.mp hsub
      | other _ _ b hsub _ _ _ => rw [i1] at hsub; exact List.sublist_nil.mp hsub
      | taken r x j st _ hev hj hfly hfly' hconc =>
        exfalso
        obtain ⟨-, l, k, rr, g1, g2, -, -, g5, -⟩ := handout_cases hev
        have := i3 k (by rw [g1]; simp) (by rw [← hj, g5]; rfl)
        rw [readyFor_iff] at g2
        rcases g2.2.2 with hw | hw
        · exact this.1 hw
        · exact this.2.1 hw
      | ended r t j d o _ hid' ho hfly hfly' hconc => rw [hfly] at i1; cases i1
      | overflowed r t j _ hid' hfly hfly' hconc => exact hfly'
      | reported r t o _ hid' hrep hfly hfly' hconc => exact hfly'
    · intro k' hk' hid
      obtain ⟨k, hk, hkid, hj⟩ := hnext k' hk' hid
      obtain ⟨g1, g2, k₀, g3, g4, g5⟩ := i3 k hk hkid
      have hsame : k'.job = k.job := by
        rw [hj]
        clear hnext hin' hj hk'
        generalize Sys.after defs p σ (m' + 1) = s' at *
        generalize Sys.evAt defs p σ m' = ev at *
        cases hf with
        | away _ _ _ hback _ _ => rw [hback]
        | other _ _ b _ hback _ ht => rw [hback]; exact untouched ht hkid
        | taken r x j st _ hev hj hfly hfly' hconc =>
          exfalso
          obtain ⟨-, l, k, rr, g1, g2, -, -, g5, -⟩ := handout_cases hev
          have := i3 k (by rw [g1]; simp) (by rw [← hj, g5]; rfl)
          rw [readyFor_iff] at g2
          rcases g2.2.2 with hw | hw
          · exact this.1 hw
          · exact this.2.1 hw
        | ended r t j d o _ hid' ho hfly hfly' hconc => rfl
        | overflowed r t j _ hid' hfly hfly' hconc => rfl
        | reported r t o _ hid' hrep hfly hfly' hconc => rw [hfly] at i1; cases i1
      rw [hsame]
      exact ⟨g1, g2, k₀, g3, g4, g5⟩

/-- the job just after it was inserted -/
private theorem Run.fresh (R : Run defs p σ id) {m₀ : Nat} {e : EnqueuableJob}
    (h : (Sys.evAt defs p σ m₀).back = some (.inserted id e)) {k : KeyedJob}
    (hk : k ∈ (Sys.after defs p σ (m₀ + 1)).conc.mem.jobs) (hid : k.job.id = id) :
    k.job.status = .scheduled ∧ k.job.executor = e.executor := by
  have H := R.hist m₀
  have hs := R.step m₀
  generalize Sys.after defs p σ (m₀ + 1) = s' at *
  generalize Sys.evAt defs p σ m₀ = ev at *
  generalize (σ m₀).act = a at hs
  cases hs with
  | client b =>
    simp only [SEv.back, Option.some.injEq] at h
    cases step_job H.ids_nodup hk with
    | new e' hev hk' =>
      rw [h] at hev
      simp only [Ev.inserted.injEq] at hev
      rw [hk', ← hev.2]
      exact ⟨rfl, rfl⟩
    | old k₀ hk₀ _ hj =>
      exfalso
      have : k₀.job.id = id := by
        have := applyEv_id (σ m₀).now ((Sys.after defs p σ m₀).conc.step (σ m₀).now b).1 k₀.job
        rw [← hj] at this
        rw [← this]; exact hid
      exact H.not_waiting (this ▸ H.mem_inserted hk₀) (inserted_waiting h)
  | reported r i rs t o hr hf => simp [SEv.back, Conc.step] at h
  | _ => simp [SEv.back] at h

private theorem Run.not_again (R : Run defs p σ id) {m : Nat} {e : EnqueuableJob}
    (hin : id ∈ insertedIds (backHistory (Sys.past defs p σ m)))
    (h : (Sys.evAt defs p σ m).back = some (.inserted id e)) : False := by
  have H := R.hist m
  have hs := R.step m
  generalize Sys.after defs p σ (m + 1) = s' at *
  generalize Sys.evAt defs p σ m = ev at *
  generalize (σ m).act = a at hs
  cases hs with
  | client b =>
    simp only [SEv.back, Option.some.injEq] at h
    exact H.not_waiting hin (inserted_waiting h)
  | reported r i rs t o hr hf => simp [SEv.back, Conc.step] at h
  | _ => simp [SEv.back] at h

private theorem applyEv_executor {now : Time} {ev : Ev} {j : Job} (h : ev.updates j.id = false) (h' : ev.conflicts j.id = false) :
    (applyEv now ev j).executor = j.executor := by
  unfold applyEv
  split <;> (try split) <;>
    simp_all [Job.markComplete, Job.markRetryable, Job.markDiscarded, Job.markCancelled, Job.markSnoozed,
      Job.markRerunable, Job.markExecuting, Ev.updates, Ev.conflicts]

private theorem Run.executor (R : Run defs p σ id) {m₀ m : Nat} {e : EnqueuableJob}
    (h : (Sys.evAt defs p σ m₀).back = some (.inserted id e)) (hm : m₀ < m) {k : KeyedJob}
    (hk : k ∈ (Sys.after defs p σ m).conc.mem.jobs) (hid : k.job.id = id) : k.job.executor = e.executor := by
  induction m generalizing k with
  | zero => omega
  | succ m ih =>
    rcases Nat.lt_succ_iff_lt_or_eq.mp hm with hlt | rfl
    · obtain ⟨k₀, hk₀, hid₀, hj⟩ := R.next (R.inserted h hlt) hk hid
      rw [← ih hlt hk₀ hid₀, hj]
      have hf := R.fly m
      clear hj hk ih
      generalize Sys.after defs p σ (m + 1) = s' at *
      generalize Sys.evAt defs p σ m = ev at *
      cases hf with
      | away _ _ _ hback _ _ => rw [hback]
      | other _ _ b _ hback _ ht => rw [hback]; exact congrArg Job.executor (untouched ht hid₀)
      | taken r x j st _ hev hj hfly hfly' hconc =>
        exact applyEv_executor (by simp [Ev.updates]) (by simp [Ev.conflicts])
      | ended r t j d o _ hid' ho hfly hfly' hconc => rfl
      | overflowed r t j _ hid' hfly hfly' hconc => rfl
      | reported r t o _ hid' hrep hfly hfly' hconc =>
        refine applyEv_executor ?_ ?_ <;>
        rcases reportable_cases hrep with rfl | ⟨e, rfl⟩ | ⟨x, rfl⟩ | ⟨-, e, rfl⟩ | ⟨-, x, e, rfl⟩ <;>
          simp [Conc.step, Ev.updates, Ev.conflicts]
    · exact (R.fresh h hk hid).2

/-- what a report makes of the stored job -/
private theorem Run.reported (R : Run defs p σ id) {m r : Nat} {t : Task}
    (hrep : (Sys.evAt defs p σ m).reports r t = true) (htid : t.id = id)
    {k : KeyedJob} (hk : k ∈ (Sys.after defs p σ m).conc.mem.jobs) (hid : k.job.id = id)
    {k' : KeyedJob} (hk' : k' ∈ (Sys.after defs p σ (m + 1)).conc.mem.jobs) (hid' : k'.job.id = id) :
    ∃ ev, (Sys.evAt defs p σ m).back = some ev ∧ (k'.job.status.isOver = true ∨ ev.snoozes id = true ∨
      (ev.recordsFailure id = true ∧ k'.job.status = .retryable)) ∧ (ev.snoozes id = true → k'.job.status ≠ .executing) := by
  obtain ⟨o, -, hr, hev⟩ := R.in_flight hrep htid
  rw [report_found_mem hr ⟨k, hk, by rw [hid, htid]⟩] at hev
  have hin := (R.hist m).mem_inserted hk
  rw [hid] at hin
  obtain ⟨k₀, hk₀, hid₀, hj⟩ := R.next hin hk' hid'
  rw [hev] at hj ⊢
  refine ⟨_, rfl, ?_⟩
  simp only [SEv.back] at hj
  rw [hj]
  rcases reportable_cases hr with rfl | ⟨e, rfl⟩ | ⟨x, rfl⟩ | ⟨-, e, rfl⟩ | ⟨-, x, e, rfl⟩ <;>
    simp [applyEv, hid₀, htid, Job.markComplete, Job.markRetryable, Job.markDiscarded, Job.markCancelled, Job.markSnoozed,
      JobStatus.isOver, Ev.snoozes, Ev.recordsFailure]
  split <;> simp

/-- every `Executing` job has an execution in flight -/
private theorem Run.served (R : Run defs p σ id) {m₀ m : Nat} {e : EnqueuableJob}
    (h : (Sys.evAt defs p σ m₀).back = some (.inserted id e)) (hm : m₀ < m)
    (hstart : ∀ m r ev st, Sys.evAt defs p σ m = .pulled r ev (some st) → ev.handsOut id = true → ∃ t, st = .running t)
    (hends : ∀ m r, ∀ f ∈ (Sys.after defs p σ m).flightsOf r, f.task.id = id →
      ∃ m', m ≤ m' ∧ (Sys.evAt defs p σ m').reports r f.task = true)
    {k : KeyedJob} (hk : k ∈ (Sys.after defs p σ m).conc.mem.jobs) (hid : k.job.id = id)
    (hx : k.job.status = .executing) : (Sys.after defs p σ m).flying id ≠ [] := by
  induction m generalizing k with
  | zero => omega
  | succ m ih =>
    rcases Nat.lt_succ_iff_lt_or_eq.mp hm with hlt | rfl
    · intro hnone
      have hin := R.inserted h hlt
      have hin' := R.inserted h hm
      obtain ⟨k₀, hk₀, hid₀, hj⟩ := R.next hin hk hid
      -- if the job was already executing then its execution will report, yet nothing is in flight any more
      have lost : k₀.job.status = .executing → ¬ (∃ r t, t.id = id ∧ (Sys.evAt defs p σ m).reports r t = true) → False := by
        intro hx₀ hno
        obtain ⟨rs, h1, f, h2, h3⟩ := hasJob_flying.mpr (ih hlt hk₀ hid₀ hx₀)
        obtain ⟨r, hr⟩ := List.getElem?_of_mem h1
        obtain ⟨m', hm', hrep⟩ := hends m r f (by rw [flightsOf_some hr]; exact h2) h3
        rcases Nat.lt_or_eq_of_le hm' with hm' | rfl
        · have hst := R.stuck (m := m + 1) (m' := m') hin' hnone (by
            intro k₁ hk₁ hid₁
            rw [R.same hk₁ hk hid₁ hid, hx]
            exact ⟨by simp, by simp⟩) hm'
          obtain ⟨o, hne, -⟩ := R.in_flight hrep h3
          exact hne hst.1
        · exact hno ⟨r, f.task, h3, hrep⟩
      have hf := R.fly m
      have hs := R.step m
      have hst := hstart m
      have hrp := fun r t (hr : (Sys.evAt defs p σ m).reports r t = true) ht => R.reported hr ht hk₀ hid₀ hk hid
      generalize Sys.after defs p σ (m + 1) = s' at *
      generalize Sys.evAt defs p σ m = ev at *
      cases hf with
      | away _ _ _ hback _ _ =>
        rw [hback] at hj
        simp only at hj
        refine lost (by rw [← hj]; exact hx) ?_
        rintro ⟨r, t, -, hr⟩
        cases ev <;> simp [SEv.reports, SEv.back] at hr hback
      | other _ _ b _ hback _ ht =>
        rw [hback] at hj
        replace hj := hj.trans (untouched ht hid₀)
        refine lost (by rw [← hj]; exact hx) ?_
        rintro ⟨r, t, htid, hr⟩
        obtain ⟨ev', h1, h2 | h2 | h2, h3⟩ := hrp r t hr htid
        · rw [hx] at h2; cases h2
        · exact h3 h2 hx
        · rw [hx] at h2; cases h2.2
      | taken r x j st _ hev hj' hfly hfly' hconc =>
        obtain ⟨t, rfl⟩ := hst r _ st rfl (by simp [Ev.handsOut, hj'])
        generalize (σ m).act = a at hs
        cases hs with
        | started r d rs j t hd hr hp hl hev hst =>
          have hmem : (⟨t, .running⟩ : Flight) ∈ (rs.withFlights (rs.flights ++ [⟨t, .running⟩])).flights := by simp
          obtain ⟨hlt, -⟩ := List.getElem?_eq_some_iff.mp hr
          have := mem_flying (s := ⟨((Sys.after defs p σ m).conc.step (σ m).now (.op (.load d.name))).2,
            (Sys.after defs p σ m).runners.set r (rs.withFlights (rs.flights ++ [⟨t, .running⟩]))⟩) (r := r)
            (rs := rs.withFlights (rs.flights ++ [⟨t, .running⟩])) (id := id)
            (by simp [List.getElem?_set_self hlt]) hmem (by rw [(start_running hst).1, hj'])
          rw [hnone] at this; cases this
      | ended r t j d o _ hid' ho hfly hfly' hconc => rw [hfly'] at hnone; cases hnone
      | overflowed r t j _ hid' hfly hfly' hconc =>
        refine lost ?_ (by rintro ⟨r, t, -, hr⟩; simp [SEv.reports] at hr)
        simp only [SEv.back] at hj
        rw [← hj]; exact hx
      | reported r t o _ hid' hrep hfly hfly' hconc =>
        obtain ⟨ev', h1, h2 | h2 | h2, h3⟩ := hrp r t (by simp [SEv.reports]) hid'
        · rw [hx] at h2; cases h2
        · exact h3 h2 hx
        · rw [hx] at h2; cases h2.2
    · rw [(R.fresh h hk hid).1] at hx; cases hx

/-- a job that is over stays over -/
private theorem Run.over (R : Run defs p σ id) {m : Nat} (hin : id ∈ insertedIds (backHistory (Sys.past defs p σ m)))
    (ho : ∀ k ∈ (Sys.after defs p σ m).conc.mem.jobs, k.job.id = id → k.job.status.isOver = true)
    {m' : Nat} (hm : m ≤ m') :
    ∀ k ∈ (Sys.after defs p σ m').conc.mem.jobs, k.job.id = id → k.job.status.isOver = true := by
  by_cases hst : ∃ k ∈ (Sys.after defs p σ m).conc.mem.jobs, k.job.id = id
  · obtain ⟨k, hk, hid⟩ := hst
    have hover := ho k hk hid
    have hn : (Sys.after defs p σ m).flying id = [] := by
      rcases (R.track m).one with h | ⟨f, -, h⟩
      · exact h
      · rw [(h k hk hid).1] at hover; cases hover
    intro k' hk' hid'
    obtain ⟨-, -, h⟩ := R.stuck (m' := m') hin hn (by
      intro k₁ hk₁ hid₁
      have := ho k₁ hk₁ hid₁
      constructor <;> intro e <;> rw [e] at this <;> cases this) hm
    obtain ⟨-, -, k₀, h1, h2, h3⟩ := h k' hk' hid'
    rw [h3]
    exact ho k₀ h1 h2
  · have : ∀ m', m ≤ m' → id ∈ insertedIds (backHistory (Sys.past defs p σ m')) ∧
        ¬ ∃ k ∈ (Sys.after defs p σ m').conc.mem.jobs, k.job.id = id := by
      intro m' hm
      induction hm with
      | refl => exact ⟨hin, hst⟩
      | @step m' _ ih =>
        refine ⟨?_, ?_⟩
        · rw [past_succ, backHistory_append, insertedIds_append]
          exact List.mem_append_left _ ih.1
        · rintro ⟨k, hk, hid⟩
          obtain ⟨k₀, h1, h2, -⟩ := R.next ih.1 hk hid
          exact ih.2 ⟨k₀, h1, h2⟩
    intro k hk hid
    exact absurd ⟨k, hk, hid⟩ (this m' hm).2

/-- as long as the job only waits, it stays as it is -/
private theorem Run.waits (R : Run defs p σ id) {m : Nat} {k k' : KeyedJob}
    (hin : id ∈ insertedIds (backHistory (Sys.past defs p σ m)))
    (hk : k ∈ (Sys.after defs p σ m).conc.mem.jobs) (hid : k.job.id = id) (hx : k.job.status ≠ .executing)
    (hk' : k' ∈ (Sys.after defs p σ (m + 1)).conc.mem.jobs) (hid' : k'.job.id = id) (hx' : k'.job.status ≠ .executing) :
    k'.job = k.job ∧ ∀ ev, (Sys.evAt defs p σ m).back = some ev → ev.touches id = false := by
  obtain ⟨k₀, hk₀, hid₀, hj⟩ := R.next hin hk' hid'
  obtain rfl := R.same hk₀ hk hid₀ hid
  have hf := R.fly m
  have hT := (R.track m).one
  have flown : ∀ f, (Sys.after defs p σ m).flying id = [f] → False := by
    intro f hf
    rcases hT with h | ⟨g, -, h⟩
    · rw [h] at hf; cases hf
    · exact hx (h _ hk hid).1
  clear hk'
  generalize Sys.after defs p σ (m + 1) = s' at *
  generalize Sys.evAt defs p σ m = ev at *
  cases hf with
  | away _ _ _ hback _ _ => rw [hback] at hj; exact ⟨hj, fun ev h => by rw [hback] at h; cases h⟩
  | other _ _ b _ hback _ ht =>
    rw [hback] at hj
    exact ⟨hj.trans (untouched ht hid), fun ev h => by rw [hback] at h; cases h; exact ht⟩
  | taken r x j st _ hev hj' hfly hfly' hconc =>
    exfalso
    simp only [SEv.back, applyEv, hid, hj', if_true] at hj
    exact hx' (by rw [hj]; rfl)
  | ended r t j d o _ hid' ho hfly hfly' hconc => exact (flown _ hfly).elim
  | overflowed r t j _ hid' hfly hfly' hconc => exact (flown _ hfly).elim
  | reported r t o _ hid' hrep hfly hfly' hconc => exact (flown _ hfly).elim

/-- a waiting job is executed some time -/
private theorem Run.executed (R : Run defs p σ id) {m₀ m : Nat} {e : EnqueuableJob}
    (h : (Sys.evAt defs p σ m₀).back = some (.inserted id e)) (hm : m₀ < m)
    (htime : ∀ t, ∃ N, ∀ m, N ≤ m → t ≤ (σ m).now)
    (hpoll : ∀ N, ∃ m, N ≤ m ∧ (Sys.evAt defs p σ m).polls e.executor = true)
    {l : Delta} (hnew : ∀ m, NewFrom ((σ m).now - l) (Sys.after defs p σ m).conc.mem (Sys.after defs p σ (m + 1)).conc.mem)
    (hlive : ∀ m', m ≤ m' → ∃ k ∈ (Sys.after defs p σ m').conc.mem.jobs, k.job.id = id ∧ k.job.status.isOver = false) :
    ∃ m', m ≤ m' ∧ ∃ k ∈ (Sys.after defs p σ m').conc.mem.jobs, k.job.id = id ∧ k.job.status = .executing := by
  apply Classical.byContradiction
  intro hno
  have hne : ∀ m', m ≤ m' → ∀ k ∈ (Sys.after defs p σ m').conc.mem.jobs, k.job.id = id → k.job.status ≠ .executing :=
    fun m' hm' k hk hid hx => hno ⟨m', hm', k, hk, hid, hx⟩
  obtain ⟨k₀, hk₀, hid₀, hov₀⟩ := hlive m (Nat.le_refl _)
  -- the job stays as it is
  have hstay : ∀ m', m ≤ m' → ∃ k ∈ (Sys.after defs p σ m').conc.mem.jobs, k.job = k₀.job := by
    intro m' hm'
    induction hm' with
    | refl => exact ⟨k₀, hk₀, rfl⟩
    | @step m' hm' ih =>
      obtain ⟨k, hk, hj⟩ := ih
      obtain ⟨k', hk', hid', -⟩ := hlive (m' + 1) (Nat.le_succ_of_le hm')
      have hid : k.job.id = id := by rw [hj]; exact hid₀
      exact ⟨k', hk', ((R.waits (R.inserted h (Nat.lt_of_lt_of_le hm hm')) hk hid (hne m' hm' k hk hid) hk' hid'
        (hne (m' + 1) (Nat.le_succ_of_le hm') k' hk' hid')).1).trans hj⟩
  have hw : k₀.job.status = .scheduled ∨ k₀.job.status = .retryable := by
    have := hne m (Nat.le_refl _) k₀ hk₀ hid₀
    cases hs : k₀.job.status <;> rw [hs] at hov₀ this <;> simp_all [JobStatus.isOver]
  obtain ⟨N, hN⟩ := htime (k₀.job.scheduledAt + 1)
  obtain ⟨N', hN'⟩ := htime (k₀.job.scheduledAt + l + 1)
  -- the number of jobs ahead
  have hle : ∀ m', N' ≤ m' → (Sys.after defs p σ (m' + 1)).conc.mem.jobs.countP (aheadOf k₀.job) ≤
      (Sys.after defs p σ m').conc.mem.jobs.countP (aheadOf k₀.job) := by
    intro m' hm'
    have := hN' m' hm'
    exact ahead_le (R.hist (m' + 1)).ids_nodup (hnew m') (by simp only [Time, Delta] at *; omega)
  have hlt : ∀ m', m ≤ m' → N ≤ m' → (Sys.evAt defs p σ m').polls e.executor = true →
      (Sys.after defs p σ (m' + 1)).conc.mem.jobs.countP (aheadOf k₀.job) <
      (Sys.after defs p σ m').conc.mem.jobs.countP (aheadOf k₀.job) := by
    intro m' hm' hN1 hp
    obtain ⟨k, hk, hj⟩ := hstay m' hm'
    obtain ⟨k', hk', hj'⟩ := hstay (m' + 1) (Nat.le_succ_of_le hm')
    have hid : k.job.id = id := by rw [hj]; exact hid₀
    have hid' : k'.job.id = id := by rw [hj']; exact hid₀
    have ht := (R.waits (R.inserted h (Nat.lt_of_lt_of_le hm hm')) hk hid (hne m' hm' k hk hid) hk' hid'
        (hne (m' + 1) (Nat.le_succ_of_le hm') k' hk' hid')).2
    have hex := R.executor h (Nat.lt_of_lt_of_le hm hm') hk hid
    have hdue := hN m' hN1
    rw [← hj]
    have hs := R.step m'
    clear hk' hle
    generalize Sys.after defs p σ (m' + 1) = s' at *
    generalize Sys.evAt defs p σ m' = ev at *
    generalize (σ m').act = a at hs
    have key : ∀ d : Runner, ((Sys.after defs p σ m').conc.step (σ m').now (.op (.load d.name))).1.asks e.executor = true →
        ((Sys.after defs p σ m').conc.step (σ m').now (.op (.load d.name))).1.touches id = false →
        ((Sys.after defs p σ m').conc.step (σ m').now (.op (.load d.name))).2.mem.jobs.countP (aheadOf k.job) <
          (Sys.after defs p σ m').conc.mem.jobs.countP (aheadOf k.job) := by
      intro d hask hto
      refine asking_takes hk (by rw [hj]; exact hw) ?_ (by rw [hex]; exact hask) ?_
      · rw [hj]; simp only [Time] at *; omega
      · rw [hid]
        simp only [Ev.touches, Bool.or_eq_false_iff] at hto
        exact hto.1.1
    cases hs with
    | empty r d rs hd hr hp' hl hev => exact key d (by rw [hev]; exact hp) (by rw [hev]; exact ht _ rfl)
    | started r d rs j t hd hr hp' hl hev hst => exact key d (by rw [hev]; exact hp) (by rw [hev]; exact ht _ rfl)
    | undecodable r d rs j hd hr hp' hl hev hst => exact key d (by rw [hev]; exact hp) (by rw [hev]; exact ht _ rfl)
    | panicked r d rs j hd hr hp' hl hev hst => exact key d (by rw [hev]; exact hp) (by rw [hev]; exact ht _ rfl)
    | _ => simp [SEv.polls] at hp
  -- it cannot decrease for ever
  have hdown : ∀ n m', N' ≤ m' → m ≤ m' → N ≤ m' →
      (Sys.after defs p σ m').conc.mem.jobs.countP (aheadOf k₀.job) ≤ n → False := by
    intro n
    induction n with
    | zero =>
      intro m' h1 h2 h3 h4
      obtain ⟨m'', h5, h6⟩ := hpoll m'
      have hmono : (Sys.after defs p σ m'').conc.mem.jobs.countP (aheadOf k₀.job) ≤
          (Sys.after defs p σ m').conc.mem.jobs.countP (aheadOf k₀.job) := by
        clear h6
        induction h5 with
        | refl => exact Nat.le_refl _
        | @step q hq ih => exact Nat.le_trans (hle q (Nat.le_trans h1 hq)) ih
      have := hlt m'' (by omega) (by omega) h6
      omega
    | succ n ih =>
      intro m' h1 h2 h3 h4
      obtain ⟨m'', h5, h6⟩ := hpoll m'
      have hmono : (Sys.after defs p σ m'').conc.mem.jobs.countP (aheadOf k₀.job) ≤
          (Sys.after defs p σ m').conc.mem.jobs.countP (aheadOf k₀.job) := by
        clear h6
        induction h5 with
        | refl => exact Nat.le_refl _
        | @step q hq ih => exact Nat.le_trans (hle q (Nat.le_trans h1 hq)) ih
      have := hlt m'' (by omega) (by omega) h6
      exact ih (m'' + 1) (by omega) (by omega) (by omega) (by omega)
  exact hdown _ (max N' (max m N)) (by omega) (by omega) (by omega) (Nat.le_refl _)

end

/-- **C119.** Take any endless schedule of any number of runners and other clients on the in-memory
backend. Suppose that in it time goes on for ever; runners of executor `e.executor` look for jobs
again and again; no job is put in the queue with a time further back than `l`; whenever job `id` is
handed out its execution starts; every execution of it in flight makes its report some time; it is
snoozed only finitely often; and other clients leave it alone, except that they may prune it. Then
from some moment on the job, which was enqueued with at least one attempt, is `Complete`, `Cancelled`
or `Discarded`, unless it has been pruned. -/
theorem C119_in_memory (defs : List Runner) (paused : Bool) (σ : Nat → TSAct) (id : Int) (e : EnqueuableJob) (m₀ : Nat)
    (hids : ∀ m, idsTaken (backHistory (Sys.past defs paused σ m)) ≤ 4294967296)
    (hinsert : (Sys.evAt defs paused σ m₀).back = some (.inserted id e)) (hmax : 1 ≤ e.maxAttempts)
    (hleave : ∀ m, (Sys.evAt defs paused σ m).clientTouches id = false)
    (htime : ∀ t, ∃ N, ∀ m, N ≤ m → t ≤ (σ m).now)
    (hpoll : ∀ N, ∃ m, N ≤ m ∧ (Sys.evAt defs paused σ m).polls e.executor = true)
    (l : Delta) (hnew : ∀ m, NewFrom ((σ m).now - l) (Sys.after defs paused σ m).conc.mem
      (Sys.after defs paused σ (m + 1)).conc.mem)
    (hstart : ∀ m r ev st, Sys.evAt defs paused σ m = .pulled r ev (some st) → ev.handsOut id = true →
      ∃ t, st = .running t)
    (hends : ∀ m r, ∀ f ∈ (Sys.after defs paused σ m).flightsOf r, f.task.id = id →
      ∃ m', m ≤ m' ∧ (Sys.evAt defs paused σ m').reports r f.task = true)
    (hsnooze : ∃ N, ∀ m, N ≤ m → ∀ ev, (Sys.evAt defs paused σ m).back = some ev → ev.snoozes id = false) :
    ∃ N, m₀ < N ∧ ∀ m, N ≤ m → ∀ k ∈ (Sys.after defs paused σ m).conc.mem.jobs, k.job.id = id →
      k.job.status = .complete ∨ k.job.status = .cancelled ∨ k.job.status = .discarded := by
  have R := run_of hids hleave
  suffices hs : ∃ N, m₀ < N ∧ ∀ k ∈ (Sys.after defs paused σ N).conc.mem.jobs, k.job.id = id → k.job.status.isOver = true by
    obtain ⟨N, hN, ho⟩ := hs
    refine ⟨N, hN, fun m hm k hk hid => ?_⟩
    have := R.over (R.inserted hinsert hN) ho hm k hk hid
    cases hst : k.job.status <;> rw [hst] at this <;> simp_all [JobStatus.isOver]
  apply Classical.byContradiction
  intro hno
  have hlive : ∀ m, m₀ < m → ∃ k ∈ (Sys.after defs paused σ m).conc.mem.jobs, k.job.id = id ∧ k.job.status.isOver = false := by
    intro m hm
    apply Classical.byContradiction
    intro h
    refine hno ⟨m, hm, fun k hk hid => ?_⟩
    cases ho : k.job.status.isOver with
    | true => rfl
    | false => exact absurd ⟨k, hk, hid, ho⟩ h
  obtain ⟨Ns, hNs⟩ := hsnooze
  -- failures of the job are recorded again and again
  have hmono : ∀ m m', m ≤ m' → failures id (backHistory (Sys.past defs paused σ m)) ≤
      failures id (backHistory (Sys.past defs paused σ m')) := by
    intro m m' hm
    induction hm with
    | refl => exact Nat.le_refl _
    | step _ ih =>
      refine Nat.le_trans ih ?_
      rw [past_succ, backHistory_append]
      simp [failures]
  have hfail : ∀ n, ∃ m, m₀ < m ∧ n ≤ failures id (backHistory (Sys.past defs paused σ m)) := by
    intro n
    induction n with
    | zero => exact ⟨m₀ + 1, by omega, by omega⟩
    | succ n ih =>
      obtain ⟨m, hm, hn⟩ := ih
      obtain ⟨m₁, hm₁, k, hk, hid, hx⟩ := R.executed (m := max m Ns) hinsert (by omega) htime hpoll hnew
        (fun m' hm' => hlive m' (by omega))
      obtain ⟨rs, h1, f, h2, h3⟩ := hasJob_flying.mpr (R.served hinsert (by omega) hstart hends hk hid hx)
      obtain ⟨r, hr⟩ := List.getElem?_of_mem h1
      obtain ⟨m₂, hm₂, hrep⟩ := hends m₁ r f (by rw [flightsOf_some hr]; exact h2) h3
      obtain ⟨k₂, hk₂, hid₂, -⟩ := hlive m₂ (by omega)
      obtain ⟨k₃, hk₃, hid₃, hov⟩ := hlive (m₂ + 1) (by omega)
      obtain ⟨ev, hev, hcase, -⟩ := R.reported hrep h3 hk₂ hid₂ hk₃ hid₃
      refine ⟨m₂ + 1, by omega, ?_⟩
      rcases hcase with hc | hc | ⟨hc, -⟩
      · rw [hov] at hc; cases hc
      · rw [hNs m₂ (by omega) ev hev] at hc; cases hc
      · have := hmono m m₂ (by omega)
        rw [past_succ, backHistory_append]
        have : failures id (backHistory [⟨(σ m₂).now, Sys.evAt defs paused σ m₂⟩]) = 1 := by
          simp [backHistory, hev, failures, hc]
        simp only [failures, List.countP_append] at *
        omega
  obtain ⟨m, hm, hn⟩ := hfail (e.maxAttempts + 1)
  have hq : ClientsLeave id (Sys.past defs paused σ m) := by
    intro e he
    obtain ⟨m', rfl⟩ := mem_past he
    exact hleave m'
  have hi : EnqueuedWith id e.maxAttempts (backHistory (Sys.past defs paused σ m)) := by
    intro e' he' enq henq
    obtain ⟨te, hte, hb⟩ := List.mem_filterMap.mp he'
    obtain ⟨m', rfl⟩ := mem_past hte
    rw [Option.map_eq_some_iff] at hb
    obtain ⟨ev, hev, rfl⟩ := hb
    simp only at henq hev
    rw [henq] at hev
    have hone : m' = m₀ := by
      rcases Nat.lt_trichotomy m' m₀ with hlt | heq | hlt
      · exact (R.not_again (R.inserted hev hlt) hinsert).elim
      · exact heq
      · exact (R.not_again (R.inserted hinsert hlt) hev).elim
    rw [hone, hinsert] at hev
    simp only [Option.some.injEq, Ev.inserted.injEq, true_and] at hev
    rw [hev]
  obtain ⟨k, hk, hid, -⟩ := hlive m hm
  have h1 := C08_failures_bounded defs paused _ id e.maxAttempts hmax (hids m) hq hi
  have h2 := (C08_discarded_iff defs paused _ id e.maxAttempts hmax (hids m) hq hi k hk hid).2
  have h3 := Nat.le_trans h2 h1.1
  change failures id (backHistory (Sys.past defs paused σ m)) ≤ _ at h3
  omega

/-- The job of the examples (two attempts) fails, is snoozed, and is done; afterwards its runner
looks for jobs for ever. -/
def endlessStart : List TSAct :=
  (enqSteps 0 0 sampleEnq).map (fun a => ⟨a.now, .client a.act⟩) ++
  [⟨1, .pull 0⟩, ⟨2, .finish 0 0 { ending := .returns (.error "oops" "it broke") }⟩, ⟨3, .report 0 0⟩,
   ⟨11 * sec, .pull 0⟩, ⟨12 * sec, .finish 0 0 { ending := .returns (.snooze sec) }⟩, ⟨12 * sec, .report 0 0⟩,
   ⟨14 * sec, .pull 0⟩, ⟨15 * sec, .finish 0 0 { ending := .returns .done }⟩, ⟨15 * sec, .report 0 0⟩]

def endlessDay (n : Nat) : TSAct := (endlessStart[n]?).getD ⟨16 * sec + n, .pull 0⟩

/-- A runner looks for jobs and finds none. -/
private theorem idle_step {s : Sys} (now : Time) (hjobs : ∀ k ∈ s.conc.mem.jobs, k.job.status = .complete)
    (hrun : s.runners = [{}]) :
    s.step [sampleRunner] now (.pull 0) = (.pulled 0 (.op (.load "mail") (.job none)) none, s) := by
  obtain ⟨c, rs⟩ := s
  simp only at hrun hjobs
  subst hrun
  have hl : c.mem.load now "mail" = (none, c.mem) := by
    rcases load_cases now "mail" c.mem with ⟨-, h⟩ | ⟨l, k, r, h1, h2, -⟩
    · exact h
    · have := hjobs k (by rw [h1]; simp)
      rw [readyFor_iff, this] at h2
      rcases h2.2.2 with h | h <;> cases h
  have hc : c.step now (.op (.load "mail")) = (.op (.load "mail") (.job none), c) := by
    simp only [Conc.step, Mem.step, hl]
  have hb : belowLimit sampleRunner.maxConcurrency 0 = true := rfl
  have hn : sampleRunner.name = "mail" := rfl
  simp [Sys.step, hb, hn, hc]

private theorem endless_idle (n : Nat) : 13 ≤ n →
    Sys.after [sampleRunner] false endlessDay n = Sys.after [sampleRunner] false endlessDay 13 ∧
    Sys.evAt [sampleRunner] false endlessDay n = .pulled 0 (.op (.load "mail") (.job none)) none ∧
    (endlessDay n).now = 16 * sec + n := by
  have hlen : endlessStart.length = 13 := by decide
  have hact : ∀ n, 13 ≤ n → endlessDay n = ⟨16 * sec + n, .pull 0⟩ := by
    intro n hn
    simp [endlessDay, List.getElem?_eq_none (show endlessStart.length ≤ n by omega)]
  have hstep : ∀ now, (Sys.after [sampleRunner] false endlessDay 13).step [sampleRunner] now (.pull 0) =
      (.pulled 0 (.op (.load "mail") (.job none)) none, Sys.after [sampleRunner] false endlessDay 13) := by
    intro now
    exact idle_step now (by decide +kernel) rfl
  intro hn
  have hafter : Sys.after [sampleRunner] false endlessDay n = Sys.after [sampleRunner] false endlessDay 13 := by
    induction hn with
    | refl => rfl
    | @step q hq ih => rw [after_succ, ih, hact q hq, hstep]
  refine ⟨hafter, ?_, by rw [hact n hn]⟩
  rw [Sys.evAt, hafter, hact n hn, hstep]

private def startsWell : SEv → Bool
  | .pulled _ ev (some (.running _)) => true
  | .pulled _ ev (some _) => !ev.handsOut 0
  | _ => true

private theorem startsWell_spec {s : SEv} (h : startsWell s = true) {r : Nat} {ev : Ev} {st : Started}
    (hs : s = .pulled r ev (some st)) (ho : ev.handsOut 0 = true) : ∃ t, st = .running t := by
  subst hs
  cases st <;> simp_all [startsWell]

private def insertsSample : Option Ev → Bool
  | some (.inserted id e) => id == 0 && decide (e = sampleEnq)
  | _ => false

private theorem insertsSample_spec {o : Option Ev} (h : insertsSample o = true) : o = some (.inserted 0 sampleEnq) := by
  unfold insertsSample at h
  split at h
  · simp at h
    rw [h.1, h.2]
  · cases h

/-- The schedule meets all conditions of the theorem, and the job is done in the end. -/
example :
    (∃ N, 2 < N ∧ ∀ m, N ≤ m → ∀ k ∈ (Sys.after [sampleRunner] false endlessDay m).conc.mem.jobs, k.job.id = 0 →
      k.job.status = .complete ∨ k.job.status = .cancelled ∨ k.job.status = .discarded) ∧
    (Sys.after [sampleRunner] false endlessDay 13).conc.mem.jobs.map (fun k => (k.job.id, k.job.status)) =
      [(0, .complete)] := by
  have idle := endless_idle
  have upto : ∀ {P : Nat → Prop}, (∀ m, m < 13 → P m) → (∀ m, 13 ≤ m → P m) → ∀ m, P m := by
    intro P h1 h2 m
    rcases Nat.lt_or_ge m 13 with h | h
    · exact h1 m h
    · exact h2 m h
  have hrunners : ∀ m, (Sys.after [sampleRunner] false endlessDay m).runners.length = 1 :=
    upto (by decide +kernel) fun m hm => by rw [(idle m hm).1]; rfl
  refine ⟨C119_in_memory [sampleRunner] false endlessDay 0 sampleEnq 2 ?_ ?_ (by decide) ?_ ?_ ?_ (20 * sec) ?_ ?_
    ?_ ?_, by decide +kernel⟩
  · refine upto (by decide +kernel) fun m hm => ?_
    induction hm with
    | refl => decide +kernel
    | @step q hq ih =>
      rw [past_succ, backHistory_append, (idle q hq).2.1]
      simpa [idsTaken, backHistory, SEv.back] using ih
  · exact insertsSample_spec (by decide +kernel)
  · exact upto (by decide +kernel) fun m hm => by rw [(idle m hm).2.1]; rfl
  · intro t
    refine ⟨13 + t.toNat, fun m hm => ?_⟩
    rw [(idle m (by omega)).2.2]
    simp only [Time, sec] at *
    omega
  · exact fun N => ⟨13 + N, by omega, by rw [(idle _ (by omega)).2.1]; rfl⟩
  · refine upto ?_ fun m hm => ?_
    · intro m hm k hk _
      right
      revert k
      revert m
      decide +kernel
    · intro k hk _
      left
      rw [(idle m hm).1]
      rwa [(idle (m + 1) (by omega)).1] at hk
  · intro m r ev st h1 h2
    exact startsWell_spec (upto (P := fun m => startsWell (Sys.evAt [sampleRunner] false endlessDay m) = true)
      (by decide +kernel) (fun m hm => by rw [(idle m hm).2.1]; rfl) m) h1 h2
  · intro m r f hf hid
    have hr : r = 0 := by
      rcases Nat.eq_zero_or_pos r with h | h
      · exact h
      · have : (Sys.after [sampleRunner] false endlessDay m).runners[r]? = none :=
          List.getElem?_eq_none (by rw [hrunners]; omega)
        simp [Sys.flightsOf, this] at hf
    subst hr
    have key : ∀ m, ∀ f ∈ (Sys.after [sampleRunner] false endlessDay m).flightsOf 0,
        ∃ m', m' < 13 ∧ m ≤ m' ∧ (Sys.evAt [sampleRunner] false endlessDay m').reports 0 f.task = true :=
      upto (by decide +kernel) fun m hm => by
        have : (Sys.after [sampleRunner] false endlessDay 13).flightsOf 0 = [] := rfl
        rw [(idle m hm).1, this]
        simp
    obtain ⟨m', -, h⟩ := key m f hf
    exact ⟨m', h⟩
  · refine ⟨13, fun m hm ev hev => ?_⟩
    rw [(idle m hm).2.1] at hev
    cases hev
    rfl

end Rexecutor
