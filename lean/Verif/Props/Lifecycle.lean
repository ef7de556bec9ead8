import Verif.Lemmas.Track
import Verif.Spec.Samples

/-! # C08, C38, C51, C55: the life of a job under its runner -/

namespace Rexecutor

/-! ## C08 -/

private def Sys.owed (s : Sys) (id : Int) : Nat := (s.flying id).countP Flight.owes

/-- the counters of a job against its status -/
private def InBudget (n fails : Nat) (j : Job) : Prop :=
  match j.status with
  | .scheduled | .retryable => j.attempt = fails ∧ fails < n
  | .executing => j.attempt = fails + 1 ∧ fails < n
  | .complete | .cancelled => fails < n
  | .discarded => fails = n

private structure Budget (id : Int) (n : Nat) (h : List TSEv) (s : Sys) : Prop where
  stored : ∀ k ∈ s.conc.mem.jobs, k.job.id = id → k.job.maxAttempts = n ∧
    k.job.attempt = (handouts id (backHistory h) : Int) - snoozes id (backHistory h) ∧
    InBudget n (failures id (backHistory h)) k.job
  fails : failures id (backHistory h) ≤ n
  hand : handouts id (backHistory h) ≤ n + snoozes id (backHistory h)
  count : countEv (SEv.failsRun id) h + snoozes id (backHistory h) + s.owed id ≤ handouts id (backHistory h)
  recorded : failures id (backHistory h) + (s.flying id).countP Flight.failing ≤ countEv (SEv.failsRun id) h

private theorem back_none {h : List TSEv} {now : Time} {ev : SEv} (hb : ev.back = none) :
    backHistory (h ++ [{ now := now, ev := ev }]) = backHistory h := by
  simp [backHistory, hb]

private theorem back_some {h : List TSEv} {now : Time} {ev : SEv} {b : Ev} (hb : ev.back = some b) :
    backHistory (h ++ [{ now := now, ev := ev }]) = backHistory h ++ [{ now := now, ev := b }] := by
  simp [backHistory, hb]

private theorem handouts_snoc (id : Int) (h : List TEv) (e : TEv) :
    handouts id (h ++ [e]) = handouts id h + if e.ev.handsOut id then 1 else 0 := by
  simp [handouts, List.countP_append, List.countP_cons]

private theorem snoozes_snoc (id : Int) (h : List TEv) (e : TEv) :
    snoozes id (h ++ [e]) = snoozes id h + if e.ev.snoozes id then 1 else 0 := by
  simp [snoozes, List.countP_append, List.countP_cons]

private theorem failures_snoc (id : Int) (h : List TEv) (e : TEv) :
    failures id (h ++ [e]) = failures id h + if e.ev.recordsFailure id then 1 else 0 := by
  simp [failures, List.countP_append, List.countP_cons]

private theorem failsRun_snoc (id : Int) (h : List TSEv) (e : TSEv) :
    countEv (SEv.failsRun id) (h ++ [e]) = countEv (SEv.failsRun id) h + if e.ev.failsRun id then 1 else 0 := by
  simp [countEv, List.countP_append, List.countP_cons]

private theorem records_touches {id : Int} {ev : Ev} (h : ev.recordsFailure id = true) : ev.touches id = true := by
  unfold Ev.recordsFailure at h
  split at h <;> simp_all [Ev.touches, Ev.putsBack, Ev.retries, Ev.finishes]

private theorem zero_counts {id : Int} {h : List TEv} {c : Conc} (H : HistOk h c) (hn : id ∉ insertedIds h) :
    handouts id h = 0 ∧ snoozes id h = 0 ∧ failures id h = 0 := by
  have hu : ∀ e ∈ h, e.ev.touches id = false := by
    intro e he
    cases ht : e.ev.touches id with
    | false => rfl
    | true => exact absurd (H.touched e he id ht) hn
  refine ⟨?_, ?_, ?_⟩
  · exact List.countP_eq_zero.mpr (fun e he => by simp [(not_touches (hu e he)).1])
  · exact List.countP_eq_zero.mpr (fun e he => by simp [(not_touches (hu e he)).2.2.2.1])
  · refine List.countP_eq_zero.mpr (fun e he hr => ?_)
    have := records_touches hr
    rw [hu e he] at this; simp at this

private theorem Budget.step {id : Int} {n : Nat} {h : List TSEv} {s s' : Sys} {now : Time} {ev : SEv}
    (B : Budget id n h s) (T : Track id h s) (H : HistOk (backHistory h) s.conc) (hn : 1 ≤ n)
    (hi : ∀ e, ev.back = some (.inserted id e) → e.maxAttempts = n)
    (hs : FlyStep id now s ev s') : Budget id n (h ++ [{ now := now, ev := ev }]) s' := by
  obtain ⟨b1, b2, b3, b4, b5⟩ := B
  unfold Sys.owed at b4
  cases hs with
  | away _ _ hsub hback hconc hend =>
    have hf : ev.failsRun id = false := by
      unfold SEv.failsRun
      split
      · simp [hend _ _ _ _ rfl]
      · rfl
    have h1 := hsub.countP_le (p := Flight.owes)
    have h2 := hsub.countP_le (p := Flight.failing)
    refine ⟨?_, ?_, ?_, ?_, ?_⟩ <;> rw [back_none hback]
    · rw [hconc]; exact b1
    · exact b2
    · exact b3
    · rw [failsRun_snoc]; unfold Sys.owed; simp only [hf]; simp; omega
    · rw [failsRun_snoc]; simp only [hf]; simp; omega
  | other _ _ b hsub hback hconc ht =>
    have hf : ev.failsRun id = false := by
      unfold SEv.failsRun
      split
      · simp [SEv.back] at hback
      · rfl
    have hr : (s.conc.step now b).1.recordsFailure id = false := by
      cases hr : (s.conc.step now b).1.recordsFailure id with
      | false => rfl
      | true => rw [records_touches hr] at ht; simp at ht
    obtain ⟨t1, -, -, t4, -⟩ := not_touches ht
    have h1 := hsub.countP_le (p := Flight.owes)
    have h2 := hsub.countP_le (p := Flight.failing)
    refine ⟨?_, ?_, ?_, ?_, ?_⟩ <;> rw [back_some hback] <;>
      simp only [handouts_snoc, snoozes_snoc, failures_snoc, failsRun_snoc, t1, t4, hr, hf, Sys.owed,
        Bool.false_eq_true, if_false, Nat.add_zero]
    · intro k' hk' hid
      rw [hconc] at hk'
      rcases untouched_job H ht hk' hid with ⟨e, he, hk, hni⟩ | ⟨k, hk, hj⟩
      · obtain ⟨z1, z2, z3⟩ := zero_counts H hni
        rw [z1, z2, z3, hk]
        refine ⟨?_, ?_, ?_⟩
        · simp only [EnqueuableJob.intoJob]; rw [hi e (by rw [hback, he])]
        · simp [EnqueuableJob.intoJob]
        · simp [EnqueuableJob.intoJob, InBudget]; omega
      · rw [← hj]; exact b1 k hk (by rw [hj]; exact hid)
    · exact b2
    · exact b3
    · omega
    · omega
  | taken r x j st _ hev hid hfly hfly' hconc =>
    obtain ⟨-, l, k, r', g1, g2, -, -, g5, g6⟩ := handout_cases hev
    have hkmem : k ∈ s.conc.mem.jobs := by rw [g1]; simp
    have hkid : k.job.id = id := by rw [← hid, g5]; rfl
    obtain ⟨c1, c2, c3⟩ := b1 k hkmem hkid
    have hw : k.job.attempt = failures id (backHistory h) ∧ failures id (backHistory h) < n := by
      rw [readyFor_iff] at g2
      unfold InBudget at c3
      rcases g2.2.2 with hw | hw <;> rw [hw] at c3 <;> exact c3
    have ho : (s'.flying id).countP Flight.owes ≤ 1 := by
      rcases hfly' with hf | ⟨t, hf⟩ <;> rw [hf] <;> simp [Flight.owes, List.countP_cons]
    have hg : (s'.flying id).countP Flight.failing = 0 := by
      rcases hfly' with hf | ⟨t, hf⟩ <;> rw [hf] <;> simp [Flight.failing, List.countP_cons]
    rw [hfly] at b4 b5
    simp only [List.countP_nil] at b4 b5
    refine ⟨?_, ?_, ?_, ?_, ?_⟩ <;> rw [back_some rfl] <;>
      simp only [handouts_snoc, snoozes_snoc, failures_snoc, failsRun_snoc, Ev.handsOut, Ev.snoozes,
        Ev.recordsFailure, SEv.failsRun, Sys.owed, hid, beq_self_eq_true, if_true,
        Bool.false_eq_true, if_false, Nat.add_zero]
    · intro k' hk' hid'
      rw [hconc, g6] at hk'
      have hnd := H.ids_nodup
      unfold Mem.ids at hnd
      rw [g1] at hnd
      rcases mem_replaceAt hnd hk' with ⟨-, hne⟩ | rfl
      · exact absurd (hid'.trans hkid.symm) hne
      · refine ⟨c1, ?_, ?_⟩
        · simp only [Job.markExecuting]; rw [c2]; omega
        · simp only [Job.markExecuting, InBudget]; refine ⟨?_, hw.2⟩; rw [hw.1]
    · exact b2
    · have := hw.1; have := hw.2; omega
    · omega
    · omega
  | ended r t j d o _ hid ho hfly hfly' hconc =>
    rw [hfly] at b4 b5
    have hp : (Flight.owes ⟨t, .running⟩) = true := rfl
    have hp' : (Flight.failing ⟨t, .running⟩) = false := rfl
    simp only [List.countP_cons, List.countP_nil, hp, hp', if_true, Bool.false_eq_true, if_false] at b4 b5
    refine ⟨?_, ?_, ?_, ?_, ?_⟩ <;> rw [back_none rfl]
    · rw [hconc]; exact b1
    · exact b2
    · exact b3
    · rw [failsRun_snoc]; unfold Sys.owed; rw [hfly']
      simp only [SEv.failsRun, hid, beq_self_eq_true, Bool.true_and, List.countP_cons, List.countP_nil]
      rcases report_shape ho with ⟨q1, q2, q3⟩ | ⟨q1, q3⟩
      · simp [q1, q2]; omega
      · simp only [q1, Bool.false_eq_true, if_false]; split <;> omega
    · rw [failsRun_snoc]; rw [hfly']
      simp only [SEv.failsRun, hid, beq_self_eq_true, Bool.true_and, List.countP_cons, List.countP_nil]
      rcases report_shape ho with ⟨q1, q2, q3⟩ | ⟨q1, q3⟩
      · simp [q1, q3]; omega
      · simp [q1, q3]; omega
  | overflowed r t j _ hid hfly hfly' hconc =>
    rw [hfly] at b4 b5
    have hp : (Flight.owes ⟨t, .running⟩) = true := rfl
    have hp' : (Flight.failing ⟨t, .running⟩) = false := rfl
    simp only [List.countP_cons, List.countP_nil, hp, hp', if_true, Bool.false_eq_true, if_false] at b4 b5
    refine ⟨?_, ?_, ?_, ?_, ?_⟩ <;> rw [back_none rfl]
    · rw [hconc]; exact b1
    · exact b2
    · exact b3
    · rw [failsRun_snoc]; unfold Sys.owed; rw [hfly', List.countP_nil]; split <;> omega
    · rw [failsRun_snoc]; rw [hfly', List.countP_nil]; split <;> omega
  | reported r t o _ hid hrep hfly hfly' hconc =>
    have ht1 : ∀ k ∈ s.conc.mem.jobs, k.job.id = id →
        k.job.status = .executing ∧ t.isFinal = decide (k.job.attempt = k.job.maxAttempts) := by
      rcases T.one with h1 | ⟨f, h1, h2⟩
      · rw [hfly] at h1; simp at h1
      · rw [hfly] at h1; simp only [List.cons.injEq, and_true] at h1; subst h1; exact h2
    rw [hfly] at b4 b5
    simp only [List.countP_cons, List.countP_nil, Nat.zero_add] at b4 b5
    have hbk : (SEv.reported r t (s.conc.step now (.op o)).1).back = some (s.conc.step now (.op o)).1 := rfl
    cases htt : (s.conc.step now (.op o)).1.touches id with
    | false =>
      have hr : (s.conc.step now (.op o)).1.recordsFailure id = false := by
        cases hr : (s.conc.step now (.op o)).1.recordsFailure id with
        | false => rfl
        | true => rw [records_touches hr] at htt; simp at htt
      obtain ⟨t1, -, -, t4, -⟩ := not_touches htt
      refine ⟨?_, ?_, ?_, ?_, ?_⟩ <;> rw [back_some hbk] <;>
        simp only [handouts_snoc, snoozes_snoc, failures_snoc, failsRun_snoc, t1, t4, hr, Sys.owed,
          SEv.failsRun, hfly', List.countP_nil, Bool.false_eq_true, if_false, Nat.add_zero]
      · intro k' hk' hid'
        rw [hconc] at hk'
        rcases untouched_job H htt hk' hid' with ⟨e, he, hk, hni⟩ | ⟨k, hk, hj⟩
        · simp [Conc.step] at he
        · rw [← hj]; exact b1 k hk (by rw [hj]; exact hid')
      · exact b2
      · exact b3
      · omega
      · omega
    | true =>
      have hold : ∀ k' ∈ (s.conc.step now (.op o)).2.mem.jobs, k'.job.id = id →
          ∃ k ∈ s.conc.mem.jobs, k.job.id = id ∧ k'.job = applyEv now (s.conc.step now (.op o)).1 k.job := by
        intro k' hk' hid'
        cases step_job H.ids_nodup hk' with
        | new e hev hk => simp [Conc.step] at hev
        | old k hk _ hj => exact ⟨k, hk, by rw [hj] at hid'; simpa using hid', hj⟩
      -- a job the call touched is stored
      have hst : ∃ k ∈ s.conc.mem.jobs, k.job.id = id := by
        have := step_touches now s.conc.mem o id htt
        obtain ⟨k, hk, hkid⟩ := List.mem_map.mp this
        exact ⟨k, hk, hkid⟩
      obtain ⟨k₀, hk₀, hk₀id⟩ := hst
      obtain ⟨c1, c2, c3⟩ := b1 k₀ hk₀ hk₀id
      obtain ⟨d1, d2⟩ := ht1 k₀ hk₀ hk₀id
      unfold InBudget at c3
      rw [d1] at c3
      simp only at c3
      have heq : ∀ k ∈ s.conc.mem.jobs, k.job.id = id → k = k₀ := fun k hk hkid =>
        eq_of_id H.ids_nodup hk₀ hk (hkid.trans hk₀id.symm)
      rw [← hconc] at hold
      generalize hbe : (s.conc.step now (.op o)).1 = be at *
      rw [c1] at d2
      have e1 : t.isFinal = true → k₀.job.attempt = n := by
        intro hf; rw [hf] at d2; exact of_decide_eq_true d2.symm
      have e2 : t.isFinal = false → k₀.job.attempt ≠ n := by
        intro hf; rw [hf] at d2; exact of_decide_eq_false d2.symm
      rcases reportable_cases hrep with rfl | ⟨e, rfl⟩ | ⟨x, rfl⟩ | ⟨hfin, e, rfl⟩ | ⟨hfin, x, e, rfl⟩ <;>
      · simp only [Conc.step] at hbe
        have hres : ∃ res, be = .op _ res := ⟨_, hbe.symm⟩
        obtain ⟨res, rfl⟩ := hres
        have hu : res = .unit := by
          cases touch_of_touches htt <;> rfl
        subst hu
        subst hid
        try have hf1 := e1 hfin
        try have hf2 := e2 hfin
        simp only [Flight.owes, Flight.failing, if_true, Bool.false_eq_true, if_false] at b4 b5
        refine ⟨?_, ?_, ?_, ?_, ?_⟩ <;> rw [back_some hbk] <;>
          simp only [handouts_snoc, snoozes_snoc, failures_snoc, failsRun_snoc, Ev.handsOut, Ev.snoozes,
            Ev.recordsFailure, SEv.failsRun, Sys.owed, hfly', List.countP_nil, beq_self_eq_true, if_true,
            Bool.false_eq_true, if_false, Nat.add_zero]
        all_goals first
          | omega
          | (intro k' hk' hid'
             obtain ⟨k, hk, hkid, hj⟩ := hold k' hk' hid'
             have := heq k hk hkid
             subst this
             rw [hj]
             simp only [applyEv, hk₀id, if_true, Job.markComplete, Job.markCancelled, Job.markSnoozed,
               Job.markDiscarded, Job.markRetryable, InBudget]
             refine ⟨by omega, by omega, ?_⟩
             first | omega | (split <;> rename_i hq <;> split at hq <;> simp_all <;> omega))

/-- job `id`, whenever it is enqueued, is enqueued with this number of attempts -/
def EnqueuedWith (id : Int) (n : Nat) (h : List TEv) : Prop :=
  ∀ e ∈ h, ∀ enq, e.ev = .inserted id enq → enq.maxAttempts = n

private theorem budget_run (defs : List Runner) (p : Bool) (id : Int) (n : Nat) (hn : 1 ≤ n) (as : List TSAct)
    (hb : idsTaken (backHistory ((Sys.init defs p).trace defs as)) ≤ 4294967296)
    (hq : ClientsLeave id ((Sys.init defs p).trace defs as))
    (hi : EnqueuedWith id n (backHistory ((Sys.init defs p).trace defs as))) :
    Budget id n ((Sys.init defs p).trace defs as) ((Sys.init defs p).run defs as) := by
  revert hb hq hi
  refine snocInduction (P := fun as => idsTaken (backHistory ((Sys.init defs p).trace defs as)) ≤ 4294967296 →
    ClientsLeave id ((Sys.init defs p).trace defs as) →
    EnqueuedWith id n (backHistory ((Sys.init defs p).trace defs as)) →
    Budget id n ((Sys.init defs p).trace defs as) ((Sys.init defs p).run defs as)) ?_ ?_ as
  · intro _ _ _
    have : (Sys.init defs p).flying id = [] := by
      simp [Sys.flying, Sys.init]
    constructor
    · intro k hk; simp [Sys.run, Sys.init, Mem.init] at hk
    · simp [Sys.trace, backHistory, failures]
    · simp [Sys.trace, backHistory, handouts]
    · simp [Sys.trace, Sys.run, backHistory, handouts, snoozes, countEv, Sys.owed, this]
    · simp [Sys.trace, Sys.run, backHistory, failures, countEv, this]
  · intro as a ih hb hq hi
    rw [Sys.trace_append] at hb hq hi ⊢
    rw [Sys.run_append]
    rw [backHistory_append] at hb hi
    have hb1 := idsTaken_append_le hb
    have hq1 : ClientsLeave id ((Sys.init defs p).trace defs as) := fun e he => hq e (List.mem_append_left _ he)
    obtain ⟨T, R⟩ := track_run defs p id as hb1 hq1
    have B := ih hb1 hq1 (fun e he => hi e (List.mem_append_left _ he))
    have hs := step_sstep defs a.now ((Sys.init defs p).run defs as) a.act
    refine B.step T (histOk_sys defs p as hb1) hn ?_ (fly_step T R ?_ hs)
    · intro e he
      refine hi ⟨a.now, .inserted id e⟩ (List.mem_append_right _ ?_) e rfl
      simp [Sys.trace, backHistory, he]
    · intro e he
      exact hq.client (e := ⟨a.now, _⟩) (List.mem_append_right _ (by simp [Sys.trace])) he

/-- **C08, budget.** A job enqueued with `max_attempts = n ≥ 1` that other clients
leave alone is executed with a failing outcome at most `n` times, and it is handed out
at most `n` times plus once for every snooze: in every history of any number of
runners with any outcomes, whatever else happens on the backend. -/
theorem C08_failures_bounded (defs : List Runner) (paused : Bool) (as : List TSAct) (id : Int) (n : Nat)
    (hn : 1 ≤ n)
    (hb : idsTaken (backHistory ((Sys.init defs paused).trace defs as)) ≤ 2 ^ 32)
    (hq : ClientsLeave id ((Sys.init defs paused).trace defs as))
    (hi : EnqueuedWith id n (backHistory ((Sys.init defs paused).trace defs as))) :
    countEv (SEv.failsRun id) ((Sys.init defs paused).trace defs as) ≤ n ∧
    handouts id (backHistory ((Sys.init defs paused).trace defs as)) ≤
      n + snoozes id (backHistory ((Sys.init defs paused).trace defs as)) := by
  have B := budget_run defs paused id n hn as (by simpa using hb) hq hi
  exact ⟨by have := B.count; have := B.hand; omega, B.hand⟩

/-- **C08, discarded.** As long as such a job is stored, it is `Discarded` exactly when
`n` failures have been recorded for it; before that it was never discarded. Every
recorded failure is one of a failed execution. -/
theorem C08_discarded_iff (defs : List Runner) (paused : Bool) (as : List TSAct) (id : Int) (n : Nat)
    (hn : 1 ≤ n)
    (hb : idsTaken (backHistory ((Sys.init defs paused).trace defs as)) ≤ 2 ^ 32)
    (hq : ClientsLeave id ((Sys.init defs paused).trace defs as))
    (hi : EnqueuedWith id n (backHistory ((Sys.init defs paused).trace defs as)))
    (k : KeyedJob) (hk : k ∈ ((Sys.init defs paused).run defs as).conc.mem.jobs) (hid : k.job.id = id) :
    (k.job.status = .discarded ↔ failures id (backHistory ((Sys.init defs paused).trace defs as)) = n) ∧
    failures id (backHistory ((Sys.init defs paused).trace defs as)) ≤
      countEv (SEv.failsRun id) ((Sys.init defs paused).trace defs as) := by
  have B := budget_run defs paused id n hn as (by simpa using hb) hq hi
  refine ⟨?_, by have := B.recorded; omega⟩
  have h := (B.stored k hk hid).2.2
  unfold InBudget at h
  split at h <;> rename_i hs <;> simp_all <;> omega

/-- **C08, snoozes.** A snooze gives the attempt back: the attempt number of such a job
counts its recorded failures, plus one while it is being executed, however often it was
snoozed. So every job still waiting has failed less often than `n` times. -/
theorem C08_snoozes_free (defs : List Runner) (paused : Bool) (as : List TSAct) (id : Int) (n : Nat)
    (hn : 1 ≤ n)
    (hb : idsTaken (backHistory ((Sys.init defs paused).trace defs as)) ≤ 2 ^ 32)
    (hq : ClientsLeave id ((Sys.init defs paused).trace defs as))
    (hi : EnqueuedWith id n (backHistory ((Sys.init defs paused).trace defs as)))
    (k : KeyedJob) (hk : k ∈ ((Sys.init defs paused).run defs as).conc.mem.jobs) (hid : k.job.id = id) :
    k.job.maxAttempts = n ∧
    (k.job.status = .scheduled ∨ k.job.status = .retryable →
      k.job.attempt = failures id (backHistory ((Sys.init defs paused).trace defs as)) ∧ k.job.attempt < n) ∧
    (k.job.status = .executing →
      k.job.attempt = failures id (backHistory ((Sys.init defs paused).trace defs as)) + 1 ∧
      k.job.attempt ≤ n) := by
  have B := budget_run defs paused id n hn as (by simpa using hb) hq hi
  obtain ⟨h1, -, h⟩ := B.stored k hk hid
  refine ⟨h1, ?_, ?_⟩
  · rintro (hs | hs) <;> simp only [InBudget, hs] at h <;> omega
  · intro hs; simp only [InBudget, hs] at h; omega

/-- The job of the examples (two attempts) fails, is snoozed, fails again. -/
def twoFailures : List TSAct :=
  (enqSteps 0 0 sampleEnq).map (fun a => ⟨a.now, .client a.act⟩) ++
  [⟨1, .pull 0⟩, ⟨2, .finish 0 0 { ending := .returns (.error "oops" "it broke") }⟩, ⟨3, .report 0 0⟩,
   ⟨11 * sec, .pull 0⟩, ⟨12 * sec, .finish 0 0 { ending := .returns (.snooze sec) }⟩, ⟨12 * sec, .report 0 0⟩,
   ⟨14 * sec, .pull 0⟩, ⟨15 * sec, .finish 0 0 { ending := .panics none }⟩, ⟨15 * sec, .report 0 0⟩]

example :
    idsTaken (backHistory ((Sys.init [sampleRunner]).trace [sampleRunner] twoFailures)) ≤ 2 ^ 32 ∧
    (∀ e ∈ (Sys.init [sampleRunner]).trace [sampleRunner] twoFailures, e.ev.clientTouches 0 = false) ∧
    (∀ e ∈ backHistory ((Sys.init [sampleRunner]).trace [sampleRunner] twoFailures), (match e.ev with
      | .inserted _ enq => enq.maxAttempts == 2
      | _ => true) = true) ∧
    countEv (SEv.failsRun 0) ((Sys.init [sampleRunner]).trace [sampleRunner] twoFailures) = 2 ∧
    handouts 0 (backHistory ((Sys.init [sampleRunner]).trace [sampleRunner] twoFailures)) = 3 ∧
    ((Sys.init [sampleRunner]).run [sampleRunner] twoFailures).conc.mem.jobs.map
      (fun k => (k.job.id, k.job.status, k.job.attempt)) = [(0, .discarded, 2)] := by
  decide

/-! ## C38 -/

/-- The moves of a job's status under its runner. -/
inductive RunnerMove (before after : Job) : Prop where
  | stays (h : after.status = before.status)
  | starts (h : before.status = .scheduled ∨ before.status = .retryable) (h' : after.status = .executing)
  | ends (h : before.status = .executing)
      (h' : after.status = .complete ∨ after.status = .cancelled ∨ after.status = .discarded ∨
        after.status = .retryable)
  | snoozedFirst (h : before.status = .executing) (ha : before.attempt = 1) (h' : after.status = .scheduled)

/-- **C38, under a runner.** In every history, as long as other clients leave a job
alone, every step moves its status only along the documented lifecycle: it is inserted
`Scheduled`; it goes from `Scheduled` or `Retryable` to `Executing`, and from there to
`Complete`, `Cancelled`, `Discarded` or `Retryable`, or back to `Scheduled` if this was
its first attempt. -/
theorem C38_runner_lifecycle (defs : List Runner) (paused : Bool) (as : List TSAct) (a : TSAct) (id : Int)
    (hb : idsTaken (backHistory ((Sys.init defs paused).trace defs (as ++ [a]))) ≤ 2 ^ 32)
    (hq : ClientsLeave id ((Sys.init defs paused).trace defs (as ++ [a])))
    (k' : KeyedJob) (hk' : k' ∈ ((Sys.init defs paused).run defs (as ++ [a])).conc.mem.jobs)
    (hid' : k'.job.id = id) :
    ((∀ k ∈ ((Sys.init defs paused).run defs as).conc.mem.jobs, k.job.id ≠ id) ∧ k'.job.status = .scheduled) ∨
    ∃ k ∈ ((Sys.init defs paused).run defs as).conc.mem.jobs, k.job.id = id ∧ RunnerMove k.job k'.job := by
  rw [Sys.trace_append] at hb hq
  rw [Sys.run_append] at hk'
  rw [backHistory_append] at hb
  have hb1 := idsTaken_append_le (n := 4294967296) (by simpa using hb)
  have hq1 : ClientsLeave id ((Sys.init defs paused).trace defs as) := fun e he => hq e (List.mem_append_left _ he)
  obtain ⟨T, R⟩ := track_run defs paused id as hb1 hq1
  have H := histOk_sys defs paused as hb1
  have hs0 := step_sstep defs a.now ((Sys.init defs paused).run defs as) a.act
  have hq' : ∀ e, (((Sys.init defs paused).run defs as).step defs a.now a.act).1 = .client e →
      e.touches id = false := fun e he =>
    hq.client (e := ⟨a.now, _⟩) (List.mem_append_right _ (by simp [Sys.trace])) he
  simp only [Sys.run] at hk'
  generalize (Sys.init defs paused).run defs as = s at *
  generalize (Sys.step defs a.now s a.act).1 = ev at *
  generalize (Sys.step defs a.now s a.act).2 = s' at *
  have hs := fly_step T R hq' hs0
  have quiet : ∀ b, (s.conc.step a.now b).1.touches id = false → s'.conc = (s.conc.step a.now b).2 →
      ((∀ k ∈ s.conc.mem.jobs, k.job.id ≠ id) ∧ k'.job.status = .scheduled) ∨
      ∃ k ∈ s.conc.mem.jobs, k.job.id = id ∧ RunnerMove k.job k'.job := by
    intro b ht hc
    rw [hc] at hk'
    rcases untouched_job H ht hk' hid' with ⟨e, -, hk, hni⟩ | ⟨k, hk, hj⟩
    · refine Or.inl ⟨fun k hk hkid => hni (hkid ▸ H.mem_inserted hk), ?_⟩
      rw [hk]; rfl
    · exact Or.inr ⟨k, hk, by rw [hj]; exact hid', .stays (by rw [hj])⟩
  cases hs with
  | away _ _ hsub hback hconc hend =>
    rw [hconc] at hk'; exact Or.inr ⟨k', hk', hid', .stays rfl⟩
  | other _ _ b hsub hback hconc ht => exact quiet b ht hconc
  | ended r t j d o _ hid ho hfly hfly' hconc =>
    rw [hconc] at hk'; exact Or.inr ⟨k', hk', hid', .stays rfl⟩
  | overflowed r t j _ hid hfly hfly' hconc =>
    rw [hconc] at hk'; exact Or.inr ⟨k', hk', hid', .stays rfl⟩
  | taken r x j st _ hev hid hfly hfly' hconc =>
    obtain ⟨-, l, k, r', g1, g2, -, -, g5, g6⟩ := handout_cases hev
    have hkid : k.job.id = id := by rw [← hid, g5]; rfl
    rw [hconc, g6] at hk'
    have hnd := H.ids_nodup
    unfold Mem.ids at hnd
    rw [g1] at hnd
    rcases mem_replaceAt hnd hk' with ⟨-, hne⟩ | rfl
    · exact absurd (hid'.trans hkid.symm) hne
    · rw [readyFor_iff] at g2
      exact Or.inr ⟨k, by rw [g1]; simp, hkid, .starts g2.2.2 rfl⟩
  | reported r t o _ hid hrep hfly hfly' hconc =>
    have ht1 : ∀ k ∈ s.conc.mem.jobs, k.job.id = id → k.job.status = .executing := by
      rcases T.one with h1 | ⟨f, h1, h2⟩
      · rw [hfly] at h1; simp at h1
      · exact fun k hk hkid => (h2 k hk hkid).1
    cases htt : (s.conc.step a.now (.op o)).1.touches id with
    | false => exact quiet _ htt hconc
    | true =>
      rw [hconc] at hk'
      cases step_job H.ids_nodup hk' with
      | new e hev hk => simp [Conc.step] at hev
      | old k hk _ hj =>
        have hkid : k.job.id = id := by rw [hj] at hid'; simpa using hid'
        have he := ht1 k hk hkid
        refine Or.inr ⟨k, hk, hkid, ?_⟩
        rw [hj]
        have hbe : (s.conc.step a.now (.op o)).1 = .op o (s.conc.mem.step a.now o).1 := rfl
        rw [hbe] at htt ⊢
        generalize (s.conc.mem.step a.now o).1 = res at *
        rcases reportable_cases hrep with rfl | ⟨e, rfl⟩ | ⟨x, rfl⟩ | ⟨-, e, rfl⟩ | ⟨-, x, e, rfl⟩ <;>
          have hu : res = .unit := by cases touch_of_touches htt <;> rfl
        all_goals subst hu; simp only [applyEv, hkid, hid, if_true]
        · exact .ends he (Or.inl rfl)
        · exact .ends he (Or.inr (Or.inl rfl))
        · by_cases h1 : k.job.attempt = 1
          · exact .snoozedFirst he h1 (by simp [Job.markSnoozed, h1])
          · exact .ends he (Or.inr (Or.inr (Or.inr (by simp [Job.markSnoozed, h1]))))
        · exact .ends he (Or.inr (Or.inr (Or.inl rfl)))
        · exact .ends he (Or.inr (Or.inr (Or.inr rfl)))

/-- The moves of a job's status on the backend, with the event that makes them. -/
inductive Move (id : Int) (before after : Job) : Ev → Prop where
  | load (x : String) (j : Job) (h : j.id = id)
      (hw : before.status = .scheduled ∨ before.status = .retryable) (h' : after.status = .executing) :
      Move id before after (.op (.load x) (.job (some j)))
  | complete (h' : after.status = .complete) : Move id before after (.op (.complete id) .unit)
  | cancel (e : ExecError) (h' : after.status = .cancelled) : Move id before after (.op (.cancelled id e) .unit)
  | discard (e : ExecError) (h' : after.status = .discarded) : Move id before after (.op (.discarded id e) .unit)
  | retry (t : Time) (e : ExecError) (h' : after.status = .retryable) :
      Move id before after (.op (.retryable id t e) .unit)
  | snooze (t : Time) (h' : after.status = if before.attempt = 1 then .scheduled else .retryable) :
      Move id before after (.op (.snoozed id t) .unit)
  | rerun (h' : after.status = if before.attempt = 1 then .scheduled else .retryable) :
      Move id before after (.op (.rerun id) .unit)
  | update (h : after.id = id) : Move id before after (.op (.update after) .unit)
  | conflict (h : after.id = id) : Move id before after (.wrote after .unit)

/-- **C38, on the backend.** In every history of the backend, whoever makes the calls:
a step that changes the status of a stored job is a hand-out of a waiting job, or a
call made for that job, and leaves the status that call stands for. -/
theorem C38_moves (paused : Bool) (as : List TAct) (a : TAct)
    (hb : idsTaken ((fresh paused).trace as) ≤ 2 ^ 32)
    (k k' : KeyedJob) (hk : k ∈ ((fresh paused).run as).mem.jobs)
    (hk' : k' ∈ ((fresh paused).run (as ++ [a])).mem.jobs) (hid : k'.job.id = k.job.id)
    (hne : k'.job.status ≠ k.job.status) :
    Move k.job.id k.job k'.job (((fresh paused).run as).step a.now a.act).1 := by
  have H := histOk_run paused as (by simpa using hb)
  rw [Conc.run_append] at hk'
  simp only [Conc.run] at hk'
  generalize hc : (fresh paused).run as = c at *
  cases step_job H.ids_nodup hk' with
  | new e hev _ =>
    rw [hid] at hev
    exact absurd (inserted_waiting hev) (H.not_waiting (H.mem_inserted hk))
  | old k₀ hk₀ _ hj =>
    have : k₀ = k := eq_of_id H.ids_nodup hk hk₀ (by rw [← hid, hj]; simp)
    subst this
    cases htt : (c.step a.now a.act).1.touches k₀.job.id with
    | false => rw [applyEv_of_not_touches htt] at hj; rw [hj] at hne; exact absurd rfl hne
    | true =>
      have ht := touch_of_touches htt
      generalize hev : (c.step a.now a.act).1 = ev at *
      cases ht with
      | complete => exact .complete (by rw [hj]; simp [applyEv, Job.markComplete])
      | retryable t e => exact .retry t e (by rw [hj]; simp [applyEv, Job.markRetryable])
      | discarded e => exact .discard e (by rw [hj]; simp [applyEv, Job.markDiscarded])
      | cancelled e => exact .cancel e (by rw [hj]; simp [applyEv, Job.markCancelled])
      | snoozed t => exact .snooze t (by rw [hj]; simp [applyEv, Job.markSnoozed])
      | rerun => exact .rerun (by rw [hj]; simp [applyEv, Job.markRerunable])
      | update j h =>
        have : k'.job = j := by rw [hj]; simp [applyEv, h]
        rw [← this]; exact .update hid
      | wrote j h =>
        have : k'.job = j := by rw [hj]; simp [applyEv, h]
        rw [← this]; exact .conflict hid
      | load x j h =>
        refine .load x j h ?_ (by rw [hj]; simp [applyEv, h, Job.markExecuting])
        obtain ⟨-, l, k, r', g1, g2, -, -, g5, -⟩ := handout_cases hev
        have : k = k₀ := eq_of_id H.ids_nodup hk (by rw [g1]; simp) (by rw [← h, g5]; rfl)
        rw [readyFor_iff, this] at g2
        exact g2.2.2

/-- **C38, leaving.** In every history of the backend a stored job leaves the store only
in a prune. -/
theorem C38_leaves_by_prune (paused : Bool) (as : List TAct) (a : TAct) (id : Int)
    (hb : idsTaken ((fresh paused).trace as) ≤ 2 ^ 32)
    (hin : id ∈ ((fresh paused).run as).mem.jobs.map (·.job.id))
    (hout : id ∉ ((fresh paused).run (as ++ [a])).mem.jobs.map (·.job.id)) :
    ∃ spec res, (((fresh paused).run as).step a.now a.act).1 = .op (.prune spec) res := by
  rw [Conc.run_append] at hout
  simp only [Conc.run] at hout
  generalize (fresh paused).run as = c at *
  have hmem : ∀ (i : Int) (f : Job → Job) (w : Bool), (∀ j : Job, j.id = i → (f j).id = i) →
      id ∈ ((c.mem.onJob i f w).2.jobs.map (·.job.id)) := by
    intro i f w hf
    have := onJob_ids (m := c.mem) (w := w) hf
    unfold Mem.ids at this
    rw [this]; exact hin
  have hup : ∀ j : Job, id ∈ ((c.mem.update j).2.jobs.map (·.job.id)) := fun j =>
    hmem j.id (fun _ => j) true (fun _ _ => rfl)
  rcases a with ⟨now, a⟩
  cases a with
  | start e => exact absurd hin hout
  | op o =>
    cases o with
    | prune spec => exact ⟨spec, _, rfl⟩
    | query q => exact absurd hin hout
    | subscribe x => exact absurd hin hout
    | notifyAll => exact absurd hin hout
    | load x =>
      exfalso
      simp only [Conc.step, Mem.step] at hout
      rcases load_cases now x c.mem with ⟨-, he⟩ | ⟨l, k, r, h1, h2, h3, h4, h5⟩
      · rw [he] at hout; exact hout hin
      · rw [h5] at hout; rw [h1] at hin; simp [Job.markExecuting] at hin hout; exact hout.2.1 (by
          rcases hin with hin | hin | hin
          · exact absurd hin (by simpa using hout.1)
          · exact hin
          · exact absurd hin (by simpa using hout.2.2))
    | complete i => exact absurd (hmem i (Job.markComplete now) false (fun j hj => hj)) hout
    | retryable i t e => exact absurd (hmem i (Job.markRetryable now t e) true (fun j hj => hj)) hout
    | discarded i e => exact absurd (hmem i (Job.markDiscarded now e) false (fun j hj => hj)) hout
    | cancelled i e => exact absurd (hmem i (Job.markCancelled now e) false (fun j hj => hj)) hout
    | snoozed i t => exact absurd (hmem i (Job.markSnoozed t) true (fun j hj => hj)) hout
    | rerun i => exact absurd (hmem i (Job.markRerunable now) true (fun j hj => hj)) hout
    | update j => exact absurd (hup j) hout
  | advance i =>
    exfalso
    simp only [Conc.step] at hout
    cases hp : c.calls[i]? with
    | none => simp only [hp] at hout; exact hout hin
    | some p =>
      simp only [hp] at hout
      cases p with
      | start e =>
        simp only [Mem.advance] at hout
        split at hout
        · exact hout hin
        · split at hout <;> exact hout hin
      | noMatch e => exact hout hin
      | allocated i e =>
        simp only [Mem.advance, List.map_append] at hout
        exact hout (List.mem_append_left _ hin)
      | pushed i e =>
        simp only [Mem.advance, Mem.notify] at hout
        split at hout <;> exact hout hin
      | matched job =>
        have := advance_matched_mem now c.mem job
        simp only [this] at hout
        exact hout (hup job)
      | done r => exact hout hin

/-- The statuses the job goes through in the history `twoFailures`. -/
example : (List.range 14).map (fun n =>
      ((Sys.init [sampleRunner]).run [sampleRunner] (twoFailures.take n)).conc.mem.jobs.map (·.job.status)) =
    [[], [], [], [.scheduled], [.scheduled], [.executing], [.executing], [.retryable], [.executing], [.executing],
     [.retryable], [.executing], [.executing], [.discarded]] := by
  decide

/-- A history of the backend in which a status changes, and one in which a job leaves. -/
example :
    ((fresh).run (enqSteps 0 0 sampleEnq)).mem.jobs.map (·.job.status) = [.scheduled] ∧
    ((fresh).run (enqSteps 0 0 sampleEnq ++ [call 5 (.rerun 0)])).mem.jobs.map (·.job.status) = [.retryable] ∧
    ((fresh).run (enqSteps 0 0 sampleEnq ++
      [call 5 (.prune { status := .scheduled, pruneBy := .maxLength 1, executors := .except [] })])).mem.jobs = [] := by
  decide

/-! ## C51, second half -/

private theorem allReportable_run (defs : List Runner) (p : Bool) (as : List TSAct) :
    AllReportable ((Sys.init defs p).run defs as) := by
  refine sys_induction (fun _ s => AllReportable s) ?_ ?_ as
  · intro r f o hf; rw [flightsOf_init] at hf; simp at hf
  · intro h s now a ev s' ih hs; exact allReportable_step ih hs

/-- Violation: a job cancelled while it is being executed does not stay cancelled. The
runner's report overwrites the cancellation, here with `Complete`; the job then has both
timestamps set. -/
def cancelWhileExecuting : List TSAct :=
  (enqSteps 0 0 sampleEnq).map (fun a => ⟨a.now, .client a.act⟩) ++
  [⟨1, .pull 0⟩, ⟨2, .client (.op (.cancelled 0 { errorType := .cancelled, message := "no longer needed" }))⟩,
   ⟨3, .finish 0 0 { ending := .returns .done }⟩, ⟨4, .report 0 0⟩]

/-- **C51, second half: violated.** -/
theorem C51_violated :
    ((Sys.init [sampleRunner]).run [sampleRunner] (cancelWhileExecuting.take 6)).conc.mem.jobs.map
      (fun k => (k.job.id, k.job.status)) = [(0, .cancelled)] ∧
    ((Sys.init [sampleRunner]).run [sampleRunner] cancelWhileExecuting).conc.mem.jobs.map
      (fun k => (k.job.id, k.job.status, k.job.cancelledAt, k.job.completedAt)) =
        [(0, .complete, some 2, some 4)] := by
  decide

/-- A job that is not waiting and has no execution in flight keeps its record, as long as
other clients leave it alone. -/
theorem kept_for_good_mem (defs : List Runner) (paused : Bool) (as bs : List TSAct) (k : KeyedJob)
    (hb : idsTaken (backHistory ((Sys.init defs paused).trace defs (as ++ bs))) ≤ 2 ^ 32)
    (hk : k ∈ ((Sys.init defs paused).run defs as).conc.mem.jobs)
    (hs : k.job.status ≠ .scheduled ∧ k.job.status ≠ .retryable)
    (hf : ∀ r, ∀ f ∈ ((Sys.init defs paused).run defs as).flightsOf r, f.task.id ≠ k.job.id)
    (hq : ClientsLeave k.job.id (((Sys.init defs paused).run defs as).trace defs bs)) :
    ((Sys.init defs paused).run defs (as ++ bs)).flying k.job.id = [] ∧
    (∀ k' ∈ ((Sys.init defs paused).run defs (as ++ bs)).conc.mem.jobs, k'.job.id = k.job.id →
      k'.job = k.job) ∧
    ∀ e ∈ ((Sys.init defs paused).run defs as).trace defs bs, e.ev.executes k.job.id = false := by
  have hin : k.job.id ∈ insertedIds (backHistory ((Sys.init defs paused).trace defs as)) := by
    refine (histOk_sys defs paused as ?_).mem_inserted hk
    rw [Sys.trace_append, backHistory_append] at hb
    exact idsTaken_append_le (by simpa using hb)
  have hfly0 : ((Sys.init defs paused).run defs as).flying k.job.id = [] := by
    unfold Sys.flying
    rw [List.filter_eq_nil_iff]
    intro f hff
    obtain ⟨rs, h1, h2⟩ := List.mem_flatMap.mp hff
    obtain ⟨r, hr⟩ := List.getElem?_of_mem h1
    simpa using hf r f (by rw [flightsOf_some hr]; exact h2)
  have hnd0 : (∀ k' ∈ ((Sys.init defs paused).run defs as).conc.mem.jobs, k'.job.id = k.job.id → k'.job = k.job) := by
    intro k' hk' hid
    rw [eq_of_id (histOk_sys defs paused as (by
      rw [Sys.trace_append, backHistory_append] at hb
      exact idsTaken_append_le (by simpa using hb))).ids_nodup hk hk' hid]
  suffices hmain : ∀ bs, idsTaken (backHistory ((Sys.init defs paused).trace defs (as ++ bs))) ≤ 4294967296 →
      ClientsLeave k.job.id (((Sys.init defs paused).run defs as).trace defs bs) →
      ((Sys.init defs paused).run defs (as ++ bs)).flying k.job.id = [] ∧
      (∀ k' ∈ ((Sys.init defs paused).run defs (as ++ bs)).conc.mem.jobs, k'.job.id = k.job.id →
        k'.job = k.job) ∧
      ∀ e ∈ ((Sys.init defs paused).run defs as).trace defs bs, e.ev.executes k.job.id = false from
    hmain bs (by simpa using hb) hq
  intro bs
  refine snocInduction (P := fun bs => idsTaken (backHistory ((Sys.init defs paused).trace defs (as ++ bs))) ≤ 4294967296 →
      ClientsLeave k.job.id (((Sys.init defs paused).run defs as).trace defs bs) →
      ((Sys.init defs paused).run defs (as ++ bs)).flying k.job.id = [] ∧
      (∀ k' ∈ ((Sys.init defs paused).run defs (as ++ bs)).conc.mem.jobs, k'.job.id = k.job.id →
        k'.job = k.job) ∧
      ∀ e ∈ ((Sys.init defs paused).run defs as).trace defs bs, e.ev.executes k.job.id = false) ?_ ?_ bs
  · intro _ _
    simp only [List.append_nil, Sys.trace]
    exact ⟨hfly0, hnd0, by simp⟩
  · intro bs a ih hb hq
    rw [← List.append_assoc, Sys.trace_append, backHistory_append] at hb
    have hb1 := idsTaken_append_le hb
    rw [Sys.trace_append, ← Sys.run_append] at hq
    obtain ⟨i1, i2, i3⟩ := ih hb1 (fun e he => hq e (List.mem_append_left _ he))
    have H := histOk_sys defs paused (as ++ bs) hb1
    have R := allReportable_run defs paused (as ++ bs)
    have hin2 : k.job.id ∈ insertedIds (backHistory ((Sys.init defs paused).trace defs (as ++ bs))) := by
      rw [Sys.trace_append, backHistory_append, insertedIds_append]; exact List.mem_append_left _ hin
    have T : Track k.job.id ((Sys.init defs paused).trace defs (as ++ bs)) ((Sys.init defs paused).run defs (as ++ bs)) :=
      ⟨Or.inl i1, fun _ => i1⟩
    rw [← List.append_assoc, Sys.run_append defs _ (as ++ bs) [a], Sys.trace_append defs _ bs [a],
      ← Sys.run_append defs _ as bs]
    have hs0 := step_sstep defs a.now ((Sys.init defs paused).run defs (as ++ bs)) a.act
    have hq' : ∀ e, (((Sys.init defs paused).run defs (as ++ bs)).step defs a.now a.act).1 = .client e →
        e.touches k.job.id = false := fun e he =>
      hq.client (e := ⟨a.now, _⟩) (List.mem_append_right _ (by simp [Sys.trace])) he
    simp only [Sys.run, Sys.trace]
    generalize (Sys.init defs paused).run defs (as ++ bs) = s at *
    generalize a.act = act at *
    generalize (Sys.step defs a.now s act).1 = ev at *
    generalize (Sys.step defs a.now s act).2 = s' at *
    have hfs := fly_step T R hq' hs0
    have hno : ∀ (x : String) (j : Job), (s.conc.step a.now (.op (.load x))).1 = .op (.load x) (.job (some j)) →
        j.id ≠ k.job.id := by
      intro x j hev hj
      obtain ⟨-, l, k₁, r, g1, g2, -, -, g5, -⟩ := handout_cases hev
      have := i2 k₁ (by rw [g1]; simp) (by rw [← hj, g5]; rfl)
      rw [readyFor_iff, this] at g2
      rcases g2.2.2 with hw | hw
      · exact hs.1 hw
      · exact hs.2 hw
    have hexec : ev.executes k.job.id = false := by
      cases hs0 with
      | started r d rs j t hd hr hp hl hev hst =>
        have := hno _ _ hev
        simp [SEv.executes, (start_running hst).1, this]
      | _ => rfl
    refine ⟨?_, ?_, ?_⟩
    · cases hfs with
      | away _ _ hsub => rw [i1] at hsub; exact List.sublist_nil.mp hsub
      | other _ _ b hsub => rw [i1] at hsub; exact List.sublist_nil.mp hsub
      | taken r x j st _ hev hid => exact absurd hid (hno x j hev)
      | ended r t j d o _ hid ho hfly => rw [i1] at hfly; simp at hfly
      | overflowed r t j _ hid hfly => rw [i1] at hfly; simp at hfly
      | reported r t o _ hid hrep hfly => rw [i1] at hfly; simp at hfly
    · intro k' hk' hid
      cases hfs with
      | away _ _ hsub hback hconc => rw [hconc] at hk'; exact i2 k' hk' hid
      | other _ _ b hsub hback hconc ht =>
        rw [hconc] at hk'
        rcases untouched_job H ht hk' hid with ⟨e, -, -, hni⟩ | ⟨k₁, hk₁, hj⟩
        · exact absurd hin2 hni
        · rw [← hj]; exact i2 k₁ hk₁ (by rw [hj]; exact hid)
      | taken r x j st _ hev hid => exact absurd hid (hno x j hev)
      | ended r t j d o _ hid ho hfly => rw [i1] at hfly; simp at hfly
      | overflowed r t j _ hid hfly => rw [i1] at hfly; simp at hfly
      | reported r t o _ hid hrep hfly => rw [i1] at hfly; simp at hfly
    · intro e he
      rcases List.mem_append.mp he with he | he
      · exact i3 e he
      · simp only [List.mem_singleton] at he; subst he; exact hexec

/-- **C51, what holds instead of the second half.** Once a job is stored as `Cancelled` (or as
`Complete` or `Discarded`) and none of its executions is in flight, it keeps its record and
is never handed out again, in every continuation in which other clients leave it alone.
Missing: a cancellation made while an execution is in flight, see `C51_violated`. -/
theorem C51_stays_cancelled_partial (defs : List Runner) (paused : Bool) (as bs : List TSAct) (k : KeyedJob)
    (hb : idsTaken (backHistory ((Sys.init defs paused).trace defs (as ++ bs))) ≤ 2 ^ 32)
    (hk : k ∈ ((Sys.init defs paused).run defs as).conc.mem.jobs)
    (hs : k.job.status = .cancelled ∨ k.job.status = .complete ∨ k.job.status = .discarded)
    (hf : ∀ r, ∀ f ∈ ((Sys.init defs paused).run defs as).flightsOf r, f.task.id ≠ k.job.id)
    (hq : ClientsLeave k.job.id (((Sys.init defs paused).run defs as).trace defs bs)) :
    (∀ k' ∈ ((Sys.init defs paused).run defs (as ++ bs)).conc.mem.jobs, k'.job.id = k.job.id →
      k'.job = k.job) ∧
    ∀ e ∈ ((Sys.init defs paused).run defs as).trace defs bs, e.ev.executes k.job.id = false := by
  have := kept_for_good_mem defs paused as bs k hb hk (by rcases hs with h | h | h <;> rw [h] <;> decide) hf hq
  exact this.2

/-- A history at the end of which a job is cancelled, with nothing of it in flight. -/
example :
    ((Sys.init [sampleRunner]).run [sampleRunner] ((enqSteps 0 0 sampleEnq).map (fun a => ⟨a.now, .client a.act⟩) ++
      [⟨1, .pull 0⟩, ⟨3, .finish 0 0 { ending := .returns (.cancel "no") }⟩, ⟨4, .report 0 0⟩])).conc.mem.jobs.map
      (fun k => (k.job.id, k.job.status)) = [(0, .cancelled)] ∧
    ((Sys.init [sampleRunner]).run [sampleRunner] ((enqSteps 0 0 sampleEnq).map (fun a => ⟨a.now, .client a.act⟩) ++
      [⟨1, .pull 0⟩, ⟨3, .finish 0 0 { ending := .returns (.cancel "no") }⟩, ⟨4, .report 0 0⟩])).runners.map
      (·.flights.length) = [0] := by
  decide

/-! ## C55 -/

/-- Runner 0 executes a failing body at time `t`. -/
def failAt (t : Time) : List TSAct :=
  [⟨t, .pull 0⟩, ⟨t, .finish 0 0 { ending := .returns (.error "oops" "it broke") }⟩, ⟨t, .report 0 0⟩]

/-- **C55: violated for `max_attempts = 0`.** `is_final_attempt` compares the attempt with
`max_attempts` for equality, so a job enqueued with `max_attempts = 0` is retried again
and again (here three times) and is still waiting to be retried. -/
theorem C55_violated_zero :
    let h := (enqSteps 0 0 { sampleEnq with maxAttempts := 0 }).map (fun a => (⟨a.now, .client a.act⟩ : TSAct)) ++
      failAt sec ++ failAt (20 * sec) ++ failAt (40 * sec)
    countEv (SEv.executes 0) ((Sys.init [sampleRunner]).trace [sampleRunner] h) = 3 ∧
    ((Sys.init [sampleRunner]).run [sampleRunner] h).conc.mem.jobs.map
      (fun k => (k.job.id, k.job.status, k.job.attempt, k.job.maxAttempts)) = [(0, .retryable, 3, 0)] := by
  decide

/-- A job with three attempts whose second failure is followed by a uniqueness conflict that
lowers `max_attempts` to one. -/
def lowered : EnqueuableJob :=
  { sampleEnq with
    maxAttempts := 1
    criteria := some { key := none, executor := true, duration := none, statuses := [.retryable]
                       onConflict := .replace { maxAttempts := true, forStatuses := [.retryable] } } }

/-- **C55: violated if `max_attempts` is lowered.** The attempt number has already passed the
new limit, so the equality test never succeeds again: the job is executed four times, more
often than the limit it was enqueued with and than its current one. -/
theorem C55_violated_lowered :
    let h := (enqSteps 0 0 { sampleEnq with maxAttempts := 3 }).map (fun a => (⟨a.now, .client a.act⟩ : TSAct)) ++
      failAt sec ++ failAt (20 * sec) ++
      (enqSteps (20 * sec) 1 lowered).map (fun a => ⟨a.now, .client a.act⟩) ++
      failAt (40 * sec) ++ failAt (60 * sec)
    countEv (SEv.executes 0) ((Sys.init [sampleRunner]).trace [sampleRunner] h) = 4 ∧
    ((Sys.init [sampleRunner]).run [sampleRunner] h).conc.mem.jobs.map
      (fun k => (k.job.id, k.job.status, k.job.attempt, k.job.maxAttempts)) = [(0, .retryable, 4, 1)] := by
  decide

/-- **C55: violated if a job is rerun during an execution.** The execution that was going on
fails after a later one has used the last attempt and discarded the job. It was not the last
one when it began, so the job is retried, and no later attempt is the last: five executions
of a job with at most three attempts, and it still waits. -/
theorem C55_violated_rerun :
    let h := (enqSteps 0 0 sampleEnq).map (fun a => (⟨a.now, .client a.act⟩ : TSAct)) ++
      [⟨sec, .pull 0⟩, ⟨2 * sec, .client (.op (.rerun 0))⟩,
        ⟨3 * sec, .pull 0⟩, ⟨3 * sec, .finish 0 1 { ending := .returns (.error "oops" "it broke") }⟩, ⟨3 * sec, .report 0 1⟩,
        ⟨20 * sec, .pull 0⟩, ⟨20 * sec, .finish 0 1 { ending := .returns (.error "oops" "it broke") }⟩, ⟨20 * sec, .report 0 1⟩,
        ⟨21 * sec, .finish 0 0 { ending := .returns (.error "oops" "it broke") }⟩, ⟨21 * sec, .report 0 0⟩] ++
      failAt (60 * sec) ++ failAt (90 * sec)
    countEv (SEv.executes 0) ((Sys.init [sampleRunner]).trace [sampleRunner] h) = 5 ∧
    ((Sys.init [sampleRunner]).run [sampleRunner] (h.take 12)).conc.mem.jobs.map
      (fun k => (k.job.id, k.job.status, k.job.attempt, k.job.maxAttempts)) = [(0, .discarded, 3, 3)] ∧
    ((Sys.init [sampleRunner]).run [sampleRunner] h).conc.mem.jobs.map
      (fun k => (k.job.id, k.job.status, k.job.attempt, k.job.maxAttempts)) = [(0, .retryable, 5, 3)] := by
  decide

/-- **C55, what holds.** A job enqueued with `max_attempts = n ≥ 1` that other clients leave
alone keeps that number and is executed at most `n` times, not counting snoozed
executions. Missing: `max_attempts = 0` and jobs whose `max_attempts` was lowered, for which
the claim is false. -/
theorem C55_never_exceeded_partial (defs : List Runner) (paused : Bool) (as : List TSAct) (id : Int) (n : Nat)
    (hn : 1 ≤ n)
    (hb : idsTaken (backHistory ((Sys.init defs paused).trace defs as)) ≤ 2 ^ 32)
    (hq : ClientsLeave id ((Sys.init defs paused).trace defs as))
    (hi : EnqueuedWith id n (backHistory ((Sys.init defs paused).trace defs as))) :
    countEv (SEv.executes id) ((Sys.init defs paused).trace defs as) ≤
      n + snoozes id (backHistory ((Sys.init defs paused).trace defs as)) ∧
    ∀ k ∈ ((Sys.init defs paused).run defs as).conc.mem.jobs, k.job.id = id → k.job.maxAttempts = n := by
  have B := budget_run defs paused id n hn as (by simpa using hb) hq hi
  refine ⟨Nat.le_trans ?_ B.hand, fun k hk hid => (B.stored k hk hid).1⟩
  refine sys_induction (fun h _ => countEv (SEv.executes id) h ≤ handouts id (backHistory h)) ?_ ?_ as
  · simp [countEv, backHistory, handouts]
  · intro h s now a ev s' ih hs
    rw [backHistory_append]
    have hc : countEv (SEv.executes id) (h ++ [{ now := now, ev := ev }]) =
        countEv (SEv.executes id) h + if ev.executes id then 1 else 0 := by
      simp [countEv, List.countP_append, List.countP_cons]
    have hh : handouts id (backHistory h ++ backHistory [{ now := now, ev := ev }]) =
        handouts id (backHistory h) + handouts id (backHistory [{ now := now, ev := ev }]) := by
      simp [handouts]
    rw [hc, hh]
    cases hs with
    | started r d rs j t hd hr hp hl hev hst =>
      simp [backHistory, SEv.back, handouts, SEv.executes, Ev.handsOut, (start_running hst).1]
      exact ih
    | _ => simp only [SEv.executes, Bool.false_eq_true, if_false]; omega

/-! ## C55 with edits -/

private theorem goodEdits_append {defs : List Runner} {id : Int} {as bs : List TSAct} {s : Sys}
    (h : GoodEdits defs id s (as ++ bs)) : GoodEdits defs id s as ∧ GoodEdits defs id (s.run defs as) bs := by
  induction as generalizing s with
  | nil => exact ⟨trivial, h⟩
  | cons a as ih => exact ⟨⟨h.1, (ih h.2).1⟩, (ih h.2).2⟩

private theorem busy_iff {s : Sys} {id : Int} : (∃ rs ∈ s.runners, ∃ f ∈ rs.flights, f.task.id = id) ↔ s.flying id ≠ [] := by
  unfold Sys.flying
  rw [Ne, List.filter_eq_nil_iff]
  constructor
  · rintro ⟨rs, h1, f, h2, h3⟩ h
    exact h f (List.mem_flatMap.mpr ⟨rs, h1, h2⟩) (by simpa using h3)
  · intro h
    apply Classical.byContradiction
    intro hn
    refine h fun f hf hid => hn ?_
    obtain ⟨rs, h1, h2⟩ := List.mem_flatMap.mp hf
    exact ⟨rs, h1, f, h2, by simpa using hid⟩

/-- the counters of a job that may be edited -/
private structure Edited (id : Int) (h : List TSEv) (s : Sys) : Prop where
  track : TrackBy (fun f j => f = false → j.attempt < j.maxAttempts) id h s
  stored : ∀ k ∈ s.conc.mem.jobs, k.job.id = id → k.job.attempt ≤ k.job.maxAttempts ∧
    (k.job.status = .scheduled ∨ k.job.status = .retryable → k.job.attempt < k.job.maxAttempts) ∧
    (handouts id (backHistory h) : Int) ≤ k.job.attempt + snoozes id (backHistory h)

private theorem new_not_inserted {h : List TEv} {c : Conc} (H : HistOk h c) {now : Time} {b : Act} {id : Int} {e : EnqueuableJob}
    (hev : (c.step now b).1 = .inserted id e) : id ∉ insertedIds h :=
  fun hin => absurd (inserted_waiting hev) (H.not_waiting hin)

private theorem Edited.client {defs : List Runner} {id : Int} {h : List TSEv} {s : Sys} {now : Time} {b : Act}
    (E : Edited id h s) (H : HistOk (backHistory h) s.conc)
    (hi : ∀ e, (s.conc.step now b).1 = .inserted id e → 1 ≤ e.maxAttempts)
    (hg : GoodEdits defs id s [⟨now, .client b⟩]) :
    Edited id (h ++ [{ now := now, ev := .client (s.conc.step now b).1 }]) { s with conc := (s.conc.step now b).2 } := by
  have hg := hg.1
  simp only at hg
  have hbk : (SEv.client (s.conc.step now b).1).back = some (s.conc.step now b).1 := rfl
  have hfl : Sys.flying { s with conc := (s.conc.step now b).2 } id = s.flying id := rfl
  have cases : ∀ k' ∈ (s.conc.step now b).2.mem.jobs, k'.job.id = id →
      (s.flying id = [] ∧ ∃ e, (s.conc.step now b).1 = .inserted id e ∧ k' = e.intoJob now id ∧ id ∉ insertedIds (backHistory h)) ∨
      ∃ k ∈ s.conc.mem.jobs, k.job.id = id ∧ k'.job = applyEv now (s.conc.step now b).1 k.job ∧
        EditOk (∃ rs ∈ s.runners, ∃ f ∈ rs.flights, f.task.id = id)
        k.job.status k.job.attempt k.job.maxAttempts k'.job.status k'.job.attempt k'.job.maxAttempts := by
    intro k' hk' hid
    cases step_job H.ids_nodup hk' with
    | new e hev hk =>
      rw [hid] at hev hk
      have := new_not_inserted H hev
      exact .inl ⟨E.track.fresh this, e, hev, hk, this⟩
    | old k hk _ hj =>
      have hkid : k.job.id = id := by
        have := applyEv_id now (s.conc.step now b).1 k.job
        rw [← hj] at this; rw [← this]; exact hid
      exact .inr ⟨k, hk, hkid, hj, hg k hk k' hk' hkid hid⟩
  refine ⟨⟨?_, fun hn => E.track.fresh (inserted_mono hn)⟩, ?_⟩
  · rcases E.track.one with h1 | ⟨f, h1, h2⟩
    · exact .inl h1
    · refine .inr ⟨f, h1, fun k' hk' hid => ?_⟩
      rcases cases k' hk' hid with ⟨h3, -⟩ | ⟨k, hk, hkid, -, e1, e2, e3⟩
      · rw [h1] at h3; cases h3
      · obtain ⟨g1, g2⟩ := h2 k hk hkid
        have hb : ∃ rs ∈ s.runners, ∃ f ∈ rs.flights, f.task.id = id := busy_iff.mpr (by rw [h1]; simp)
        refine ⟨?_, fun hf => ?_⟩
        · rcases e3 with e3 | e3
          · rw [e3]; exact g1
          · exact absurd hb e3.1
        · have := g2 hf
          rcases e2 with e2 | e2 <;> omega
  · intro k' hk' hid
    rw [back_some hbk, handouts_snoc, snoozes_snoc]
    rcases cases k' hk' hid with ⟨-, e, he, hk, hni⟩ | ⟨k, hk, hkid, hj, e1, e2, e3⟩
    · obtain ⟨z1, z2, -⟩ := zero_counts H hni
      have := hi e he
      rw [he, z1, z2, hk]
      simp [EnqueuableJob.intoJob, Ev.handsOut, Ev.snoozes]
      omega
    · obtain ⟨s1, s2, s3⟩ := E.stored k hk hkid
      have hno : (s.conc.step now b).1.handsOut id = false := by
        cases hh : (s.conc.step now b).1.handsOut id with
        | false => rfl
        | true =>
          exfalso
          generalize (s.conc.step now b).1 = ev at hh hj
          unfold Ev.handsOut at hh
          split at hh
          · simp only [beq_iff_eq] at hh
            rw [hj] at e1
            simp [applyEv, hkid, hh, Job.markExecuting] at e1
            omega
          · cases hh
      rw [hno]
      simp only [Bool.false_eq_true, if_false, Nat.add_zero]
      refine ⟨?_, ?_, ?_⟩
      · rcases e2 with e2 | e2 <;> omega
      · intro hw
        rcases e3 with e3 | e3
        · rw [e3] at hw
          have := s2 hw
          rcases e2 with e2 | e2 <;> omega
        · have := e3.2.2 hw; omega
      · split <;> omega

private theorem Edited.step {defs : List Runner} {id : Int} {h : List TSEv} {s s' : Sys} {now : Time} {a : SAct}
    {ev : SEv} (E : Edited id h s) (H : HistOk (backHistory h) s.conc) (R : AllReportable s)
    (hi : ∀ e, ev.back = some (.inserted id e) → 1 ≤ e.maxAttempts)
    (hg : GoodEdits defs id s [⟨now, a⟩])
    (hs : SStep defs now s a ev s') : Edited id (h ++ [{ now := now, ev := ev }]) s' := by
  have key : (∀ e, ev ≠ .client e) → Edited id (h ++ [{ now := now, ev := ev }]) s' := by
    intro hc
    have hfs := fly_step E.track R (fun e he => absurd he (hc e)) hs
    refine ⟨E.track.step H R (fun e he => absurd he (hc e)) ?_ hs, ?_⟩
    · intro r x j st he hj hf
      have : (s.conc.step now (.op (.load x))).1 = .op (.load x) (.job (some j)) := by
        cases hfs with
        | away _ _ _ hback => rw [he] at hback; cases hback
        | other _ _ b _ hback _ ht =>
          rw [he] at hback
          simp only [SEv.back, Option.some.injEq] at hback
          rw [← hback] at ht
          simp [Ev.touches, Ev.handsOut, hj] at ht
        | taken r' x' j' st' _ hev => cases he; exact hev
        | ended => cases he
        | overflowed => cases he
        | reported => cases he
      obtain ⟨-, l, k, r', g1, g2, -, -, g5, g6⟩ := handout_cases this
      obtain ⟨s1, s2, s3⟩ := E.stored k (by rw [g1]; simp) (by rw [← hj, g5]; rfl)
      have := s2 (by rw [readyFor_iff] at g2; exact g2.2.2)
      have hne := of_decide_eq_false hf
      rw [g5] at hne ⊢
      simp only [Job.markExecuting] at hne ⊢
      omega
    · have b1 := E.stored
      cases hfs with
      | away _ _ hsub hback hconc hend => rw [back_none hback, hconc]; exact b1
      | other _ _ b hsub hback hconc ht =>
        obtain ⟨t1, -, -, t4, -⟩ := not_touches ht
        intro k' hk' hid
        rw [back_some hback]
        simp only [handouts_snoc, snoozes_snoc, t1, t4, Bool.false_eq_true, if_false, Nat.add_zero]
        rw [hconc] at hk'
        rcases untouched_job H ht hk' hid with ⟨e, he, hk, hni⟩ | ⟨k, hk, hj⟩
        · obtain ⟨z1, z2, z3⟩ := zero_counts H hni
          have := hi e (by rw [hback, he])
          rw [z1, z2, hk]
          simp [EnqueuableJob.intoJob]
          omega
        · rw [← hj]; exact b1 k hk (by rw [hj]; exact hid)
      | taken r x j st _ hev hid hfly hfly' hconc =>
        obtain ⟨-, l, k, r', g1, g2, -, -, g5, g6⟩ := handout_cases hev
        have hkid : k.job.id = id := by rw [← hid, g5]; rfl
        obtain ⟨s1, s2, s3⟩ := b1 k (by rw [g1]; simp) hkid
        have hw := s2 (by rw [readyFor_iff] at g2; exact g2.2.2)
        intro k' hk' hid'
        rw [back_some rfl]
        simp only [handouts_snoc, snoozes_snoc, Ev.handsOut, Ev.snoozes, hid, beq_self_eq_true, if_true,
          Bool.false_eq_true, if_false, Nat.add_zero]
        rw [hconc, g6] at hk'
        have hnd := H.ids_nodup
        unfold Mem.ids at hnd
        rw [g1] at hnd
        rcases mem_replaceAt hnd hk' with ⟨-, hne⟩ | rfl
        · exact absurd (hid'.trans hkid.symm) hne
        · simp only [Job.markExecuting]
          refine ⟨by omega, (fun h => by rcases h with h | h <;> cases h), by omega⟩
      | ended r t j d o _ hid ho hfly hfly' hconc => rw [back_none rfl, hconc]; exact b1
      | overflowed r t j _ hid hfly hfly' hconc => rw [back_none rfl, hconc]; exact b1
      | reported r t o _ hid hrep hfly hfly' hconc =>
        have hbk : (SEv.reported r t (s.conc.step now (.op o)).1).back = some (s.conc.step now (.op o)).1 := rfl
        have ht1 : ∀ k ∈ s.conc.mem.jobs, k.job.id = id →
            k.job.status = .executing ∧ (t.isFinal = false → k.job.attempt < k.job.maxAttempts) := by
          rcases E.track.one with h1 | ⟨f, h1, h2⟩
          · rw [hfly] at h1; simp at h1
          · rw [hfly] at h1; simp only [List.cons.injEq, and_true] at h1; subst h1; exact h2
        intro k' hk' hid'
        rw [hconc] at hk'
        rw [back_some hbk, handouts_snoc, snoozes_snoc]
        cases htt : (s.conc.step now (.op o)).1.touches id with
        | false =>
          obtain ⟨t1, -, -, t4, -⟩ := not_touches htt
          simp only [t1, t4, Bool.false_eq_true, if_false, Nat.add_zero]
          rcases untouched_job H htt hk' hid' with ⟨e, he, hk, hni⟩ | ⟨k, hk, hj⟩
          · simp [Conc.step] at he
          · rw [← hj]; exact b1 k hk (by rw [hj]; exact hid')
        | true =>
          obtain ⟨k, hk, hkid, hj⟩ : ∃ k ∈ s.conc.mem.jobs, k.job.id = id ∧
              k'.job = applyEv now (s.conc.step now (.op o)).1 k.job := by
            cases step_job H.ids_nodup hk' with
            | new e hev hk => simp [Conc.step] at hev
            | old k hk _ hj => exact ⟨k, hk, by rw [hj] at hid'; simpa using hid', hj⟩
          obtain ⟨s1, s2, s3⟩ := b1 k hk hkid
          obtain ⟨d1, d2⟩ := ht1 k hk hkid
          generalize hbe : (s.conc.step now (.op o)).1 = be at *
          rw [hj]
          rcases reportable_cases hrep with rfl | ⟨e, rfl⟩ | ⟨x, rfl⟩ | ⟨hfin, e, rfl⟩ | ⟨hfin, x, e, rfl⟩ <;>
          · simp only [Conc.step] at hbe
            have hres : ∃ res, be = .op _ res := ⟨_, hbe.symm⟩
            obtain ⟨res, rfl⟩ := hres
            have hu : res = .unit := by
              cases touch_of_touches htt <;> rfl
            subst hu
            subst hid
            try have hf2 := d2 hfin
            simp only [applyEv, hkid, if_true, Job.markComplete, Job.markCancelled, Job.markSnoozed,
               Job.markDiscarded, Job.markRetryable, Ev.handsOut, Ev.snoozes, beq_self_eq_true, Bool.false_eq_true, if_false,
               Nat.add_zero]
            refine ⟨by omega, ?_, by omega⟩
            intro hw
            first | omega | (rcases hw with hw | hw <;> cases hw)
  cases hs with
  | client b => exact E.client H (fun e he => hi e (by rw [← he]; rfl)) hg
  | _ => exact key (by simp)

private theorem edited_run (defs : List Runner) (p : Bool) (id : Int) (as : List TSAct)
    (hb : idsTaken (backHistory ((Sys.init defs p).trace defs as)) ≤ 4294967296)
    (hg : GoodEdits defs id (Sys.init defs p) as)
    (hi : ∀ e ∈ backHistory ((Sys.init defs p).trace defs as), ∀ enq, e.ev = .inserted id enq → 1 ≤ enq.maxAttempts) :
    Edited id ((Sys.init defs p).trace defs as) ((Sys.init defs p).run defs as) := by
  revert hb hg hi
  refine snocInduction (P := fun as => idsTaken (backHistory ((Sys.init defs p).trace defs as)) ≤ 4294967296 →
    GoodEdits defs id (Sys.init defs p) as →
    (∀ e ∈ backHistory ((Sys.init defs p).trace defs as), ∀ enq, e.ev = .inserted id enq → 1 ≤ enq.maxAttempts) →
    Edited id ((Sys.init defs p).trace defs as) ((Sys.init defs p).run defs as)) ?_ ?_ as
  · intro _ _ _
    have : (Sys.init defs p).flying id = [] := by
      simp [Sys.flying, Sys.init]
    exact ⟨⟨.inl this, fun _ => this⟩, fun k hk => by simp [Sys.run, Sys.init, Mem.init] at hk⟩
  · intro as a ih hb hg hi
    rw [Sys.trace_append] at hb hi ⊢
    rw [Sys.run_append]
    rw [backHistory_append] at hb hi
    have hb1 := idsTaken_append_le hb
    obtain ⟨hg1, hg2⟩ := goodEdits_append hg
    have E := ih hb1 hg1 (fun e he => hi e (List.mem_append_left _ he))
    refine E.step (histOk_sys defs p as hb1) (allReportable_run defs p as) ?_ hg2 (step_sstep defs a.now _ a.act)
    intro e he
    refine hi ⟨a.now, .inserted id e⟩ (List.mem_append_right _ ?_) e rfl
    simp [Sys.trace, backHistory, he]

private theorem executes_le_handouts (defs : List Runner) (paused : Bool) (as : List TSAct) (id : Int) :
    countEv (SEv.executes id) ((Sys.init defs paused).trace defs as) ≤
      handouts id (backHistory ((Sys.init defs paused).trace defs as)) := by
  refine sys_induction (fun h _ => countEv (SEv.executes id) h ≤ handouts id (backHistory h)) ?_ ?_ as
  · simp [countEv, backHistory, handouts]
  · intro h s now a ev s' ih hs
    rw [backHistory_append]
    have hc : countEv (SEv.executes id) (h ++ [{ now := now, ev := ev }]) =
        countEv (SEv.executes id) h + if ev.executes id then 1 else 0 := by
      simp [countEv, List.countP_append, List.countP_cons]
    have hh : handouts id (backHistory h ++ backHistory [{ now := now, ev := ev }]) =
        handouts id (backHistory h) + handouts id (backHistory [{ now := now, ev := ev }]) := by
      simp [handouts]
    rw [hc, hh]
    cases hs with
    | started r d rs j t hd hr hp hl hev hst =>
      simp [backHistory, SEv.back, handouts, SEv.executes, Ev.handsOut, (start_running hst).1]
      exact ih
    | _ => simp only [SEv.executes, Bool.false_eq_true, if_false]; omega

/-- **C55, what holds when the job is edited.** Other clients may update the job, replace parts
of it, cancel it, rerun it and so on, any number of times and concurrently with its
executions, as long as every edit leaves `max_attempts` as it is or sets it above the
number of attempts made, and no edit changes the status while an execution is in flight.
Then the job is executed at most as often as its current `max_attempts` says, not counting
snoozed executions. Missing: `max_attempts = 0`, edits that set `max_attempts` to at most the
attempts made (for these the claim is false) and edits of the status during an execution. -/
theorem C55_edited_partial (defs : List Runner) (paused : Bool) (as : List TSAct) (id : Int)
    (hb : idsTaken (backHistory ((Sys.init defs paused).trace defs as)) ≤ 2 ^ 32)
    (hg : GoodEdits defs id (Sys.init defs paused) as)
    (hi : ∀ e ∈ backHistory ((Sys.init defs paused).trace defs as), ∀ enq, e.ev = .inserted id enq → 1 ≤ enq.maxAttempts) :
    ∀ k ∈ ((Sys.init defs paused).run defs as).conc.mem.jobs, k.job.id = id →
      k.job.attempt ≤ k.job.maxAttempts ∧
      (countEv (SEv.executes id) ((Sys.init defs paused).trace defs as) : Int) ≤
        k.job.maxAttempts + snoozes id (backHistory ((Sys.init defs paused).trace defs as)) := by
  intro k hk hid
  obtain ⟨h1, -, h3⟩ := (edited_run defs paused id as (by simpa using hb) hg hi).stored k hk hid
  have := executes_le_handouts defs paused as id
  exact ⟨h1, by omega⟩

/-- A job of two attempts. Its first execution fails. During the second another client sets
`max_attempts` to five; the execution fails and, being the last of two when it began, is
recorded as the last one. The job is rerun and executed once more. -/
def editedLife : List TSAct :=
  (enqSteps 0 0 sampleEnq).map (fun a => (⟨a.now, .client a.act⟩ : TSAct)) ++ failAt sec ++
  [⟨20 * sec, .pull 0⟩,
    ⟨21 * sec, .client (.op (.update { sampleJob 0 with status := .executing, attempt := 2, maxAttempts := 5 }))⟩,
    ⟨22 * sec, .finish 0 0 { ending := .returns (.error "oops" "it broke") }⟩, ⟨22 * sec, .report 0 0⟩,
    ⟨24 * sec, .client (.op (.rerun 0))⟩, ⟨40 * sec, .pull 0⟩, ⟨41 * sec, .finish 0 0 { ending := .returns .done }⟩,
    ⟨41 * sec, .report 0 0⟩]

example :
    GoodEdits [sampleRunner] 0 (Sys.init [sampleRunner]) editedLife ∧
    countEv (SEv.executes 0) ((Sys.init [sampleRunner]).trace [sampleRunner] editedLife) = 3 ∧
    ((Sys.init [sampleRunner]).run [sampleRunner] editedLife).conc.mem.jobs.map
      (fun k => (k.job.id, k.job.status, k.job.attempt, k.job.maxAttempts)) = [(0, .complete, 3, 6)] := by
  decide

end Rexecutor
