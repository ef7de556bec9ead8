import Verif.Lemmas.PgSys
import Verif.Props.PgRecords
import Verif.Spec.Samples

/-! # C68, C69, C73–C76: the life of a job under runners on Postgres -/

namespace Rexecutor

/-! ## C68 -/

private def Carrier.owes : Carrier → Bool
  | .loaded _ => true
  | .flight f => f.owes

private def Carrier.failing : Carrier → Bool
  | .loaded _ => false
  | .flight f => f.failing

/-- the counters of a row against its status -/
private def RowInBudget (n fails : Nat) (r : Row) : Prop :=
  match r.status with
  | .scheduled | .retryable => r.attempt = fails ∧ fails < n
  | .executing => r.attempt = fails + 1 ∧ fails < n
  | .complete | .cancelled => fails < n
  | .discarded => fails = n

/-- someone has job `id`, in a state of this kind -/
private def PgSys.has (s : PgSys) (id : Int) (p : Carrier → Bool) : Prop :=
  ∃ r x c, s.carrier r x = some c ∧ c.id = id ∧ p c = true

private structure PBudget (id : Int) (n : Nat) (h : List TPSEv) (s : PgSys) : Prop where
  stored : ∀ r ∈ s.conc.pg.rows, r.id = id → r.maxAttempts = n ∧
    r.attempt = (pgHandouts id (dbHistory h) : Int) - pgSnoozes id (dbHistory h) ∧
    RowInBudget n (pgFailures id (dbHistory h)) r
  fails : pgFailures id (dbHistory h) ≤ n
  hand : pgHandouts id (dbHistory h) ≤ n + pgSnoozes id (dbHistory h)
  count : countPg (PSEv.failsRun id) h + pgSnoozes id (dbHistory h) ≤ pgHandouts id (dbHistory h)
  owed : s.has id Carrier.owes → countPg (PSEv.failsRun id) h + pgSnoozes id (dbHistory h) + 1 ≤ pgHandouts id (dbHistory h)
  recorded : pgFailures id (dbHistory h) ≤ countPg (PSEv.failsRun id) h
  owing : s.has id Carrier.failing → pgFailures id (dbHistory h) + 1 ≤ countPg (PSEv.failsRun id) h

private theorem handouts_snoc (id : Int) (h : List TPgEv) (e : TPgEv) :
    pgHandouts id (h ++ [e]) = pgHandouts id h + if e.ev.handsOut id then 1 else 0 := by
  simp [pgHandouts, List.countP_append, List.countP_cons]

private theorem snoozes_snoc (id : Int) (h : List TPgEv) (e : TPgEv) :
    pgSnoozes id (h ++ [e]) = pgSnoozes id h + if e.ev.snoozes id then 1 else 0 := by
  simp [pgSnoozes, List.countP_append, List.countP_cons]

private theorem failures_snoc (id : Int) (h : List TPgEv) (e : TPgEv) :
    pgFailures id (h ++ [e]) = pgFailures id h + if e.ev.recordsFailure id then 1 else 0 := by
  simp [pgFailures, List.countP_append, List.countP_cons]

private theorem failsRun_snoc (id : Int) (h : List TPSEv) (e : TPSEv) :
    countPg (PSEv.failsRun id) (h ++ [e]) = countPg (PSEv.failsRun id) h + if e.ev.failsRun id then 1 else 0 := by
  simp [countPg, List.countP_append, List.countP_cons]

private theorem records_touches {id : Int} {ev : PgEv} (h : ev.recordsFailure id = true) : ev.touches id = true := by
  unfold PgEv.recordsFailure at h
  split at h <;> simp_all [PgEv.touches, PgEv.retries, PgEv.finishes]

private theorem quiet_counts {id : Int} {ev : PgEv} (h : ev.touches id = false) :
    ev.handsOut id = false ∧ ev.snoozes id = false ∧ ev.recordsFailure id = false := by
  obtain ⟨h1, -, h3, -⟩ := touches_split h
  refine ⟨h1, h3, ?_⟩
  cases hr : ev.recordsFailure id with
  | false => rfl
  | true => rw [records_touches hr] at h; cases h

private theorem zero_counts {id : Int} {h : List TPgEv} {c : PgConc} (H : PgHist h c) (hn : id ∉ pgInserted h) :
    pgHandouts id h = 0 ∧ pgSnoozes id h = 0 ∧ pgFailures id h = 0 := by
  have hu : ∀ e ∈ h, e.ev.touches id = false := by
    intro e he
    cases ht : e.ev.touches id with
    | false => rfl
    | true => exact absurd (H.touched e he id ht) hn
  refine ⟨?_, ?_, ?_⟩
  · exact List.countP_eq_zero.mpr (fun e he => by simp [(quiet_counts (hu e he)).1])
  · exact List.countP_eq_zero.mpr (fun e he => by simp [(quiet_counts (hu e he)).2.1])
  · exact List.countP_eq_zero.mpr (fun e he => by simp [(quiet_counts (hu e he)).2.2])

private theorem PBudget.step {id : Int} {n : Nat} {h : List TPSEv} {s s' : PgSys} {hash : HashFn} {tie : Int → Nat} {now : Time}
    {ev : PSEv} (B : PBudget id n h s) (T : PTrack id h s) (I : PgSysInv h s) (hn : 1 ≤ n)
    (hi : ∀ row uc, ev.back = some (.inserted row uc) → row.id = id → row.maxAttempts = n)
    (hs : CStep hash tie now id s ev s') : PBudget id n (h ++ [⟨now, ev⟩]) s' := by
  obtain ⟨b1, b2, b3, b4, b5, b6, b7⟩ := B
  have shrink : ∀ (p : Carrier → Bool), (∀ r x c, s'.carrier r x = some c → c.id = id → s.carrier r x = some c) →
      s'.has id p → s.has id p := fun p hsub ⟨r, x, c, h1, h2, h3⟩ => ⟨r, x, c, hsub r x c h1 h2, h2, h3⟩
  have quiet : ∀ b, ev.back = some (s.conc.step hash tie now b).1 → s'.conc = (s.conc.step hash tie now b).2 →
      (s.conc.step hash tie now b).1.touches id = false → ∀ r ∈ s'.conc.pg.rows, r.id = id → r.maxAttempts = n ∧
        r.attempt = (pgHandouts id (dbHistory h) : Int) - pgSnoozes id (dbHistory h) ∧
        RowInBudget n (pgFailures id (dbHistory h)) r := by
    intro b hback hconc ht r hr hid
    rw [hconc] at hr
    rcases untouched_row I.inv I.hist ht hr hid with h1 | ⟨⟨uc, he⟩, hni, -, e, t, key, hrow⟩
    · exact b1 r h1 hid
    · obtain ⟨z1, z2, z3⟩ := zero_counts I.hist hni
      rw [z1, z2, z3]
      refine ⟨hi r uc (by rw [hback, he]) hid, ?_, ?_⟩
      · rw [hrow]; simp [EnqueuableJob.toRow]
      · rw [hrow]; simp [EnqueuableJob.toRow, RowInBudget]; omega
  cases hs with
  | away _ _ hsub hback hconc hend _ =>
    have hf : ev.failsRun id = false := by
      unfold PSEv.failsRun
      split
      · simp [hend _ _ _ _ rfl]
      · rfl
    refine ⟨?_, ?_, ?_, ?_, ?_, ?_, ?_⟩ <;> rw [db_none hback] <;>
      try simp only [failsRun_snoc, hf, Bool.false_eq_true, if_false, Nat.add_zero]
    · rw [hconc]; exact b1
    · exact b2
    · exact b3
    · exact b4
    · exact fun hh => b5 (shrink _ hsub hh)
    · exact b6
    · exact fun hh => b7 (shrink _ hsub hh)
  | other _ _ b hsub hback hconc ht =>
    have hf : ev.failsRun id = false := by
      unfold PSEv.failsRun
      split
      · simp [PSEv.back] at hback
      · rfl
    obtain ⟨t1, t2, t3⟩ := quiet_counts ht
    refine ⟨?_, ?_, ?_, ?_, ?_, ?_, ?_⟩ <;> rw [db_some hback] <;>
      simp only [handouts_snoc, snoozes_snoc, failures_snoc, failsRun_snoc, hf, t1, t2, t3, Bool.false_eq_true, if_false, Nat.add_zero]
    · exact quiet b hback hconc ht
    · exact b2
    · exact b3
    · exact b4
    · exact fun hh => b5 (shrink _ hsub hh)
    · exact b6
    · exact fun hh => b7 (shrink _ hsub hh)
  | handed k row res _ hev hid hconc hruns hnew =>
    obtain ⟨q, hq, hqid, hmem, y, t, -, hrd, he⟩ := handedOut_mem I.inv hev
    obtain ⟨c1, c2, c3⟩ := b1 q hq (by rw [hqid, hid])
    have hw : q.attempt = pgFailures id (dbHistory h) ∧ pgFailures id (dbHistory h) < n := by
      unfold RowInBudget at c3
      rcases (ready_iff'.mp hrd).waiting with hw | hw <;> rw [hw] at c3 <;> exact c3
    have hnf : ¬ s'.has id Carrier.failing := by
      rintro ⟨r, x, c, g1, g2, g3⟩
      rcases hnew r x c g1 g2 with h1 | ⟨-, -, j, rfl, -⟩
      · exact T.idle I hev hid r x c h1 g2
      · cases g3
    have hb : (PSEv.db (.handedOut row res)).back = some (.handedOut row res) := rfl
    refine ⟨?_, ?_, ?_, ?_, ?_, ?_, ?_⟩ <;> rw [db_some hb] <;>
      simp only [handouts_snoc, snoozes_snoc, failures_snoc, failsRun_snoc, PgEv.handsOut, PgEv.snoozes,
        PgEv.recordsFailure, PSEv.failsRun, hid, beq_self_eq_true, if_true, Bool.false_eq_true, if_false, Nat.add_zero]
    · intro r hr hrid
      rw [hconc] at hr
      have : r = row := row_unique (I.inv.step hash tie now _).nodup hr hmem (by rw [hrid, hid])
      rw [this, he]
      refine ⟨c1, ?_, ?_⟩
      · simp only [Row.markExecuting]; rw [c2]; omega
      · simp only [Row.markExecuting, RowInBudget]; refine ⟨?_, hw.2⟩; rw [hw.1]
    · exact b2
    · have := hw.1; have := hw.2; omega
    · omega
    · intro _; omega
    · exact b6
    · exact fun hh => absurd hh hnf
  | taken r j st _ hid hhad hconc hnew =>
    have hb : (PSEv.took r (.job (some j)) (some st)).back = none := rfl
    have howed : s.has id Carrier.owes := ⟨r, none, _, hhad, hid, rfl⟩
    refine ⟨?_, ?_, ?_, ?_, ?_, ?_, ?_⟩ <;> rw [db_none hb] <;>
      try simp only [failsRun_snoc, PSEv.failsRun, Bool.false_eq_true, if_false, Nat.add_zero]
    · rw [hconc]; exact b1
    · exact b2
    · exact b3
    · exact b4
    · exact fun _ => b5 howed
    · exact b6
    · rintro ⟨q, x, c, g1, g2, g3⟩
      rcases hnew q x c g1 g2 with ⟨h1, h2⟩ | ⟨-, -, t, rfl, -⟩
      · exact b7 ⟨q, x, c, h1, g2, g3⟩
      · cases g3
  | ended r i t j d o _ hid ho hhad hconc hnew =>
    have hb : (PSEv.ended r t j (some o)).back = none := rfl
    have howed := b5 ⟨r, some i, _, hhad, hid, rfl⟩
    have hc : ∀ q x c, s'.carrier q x = some c → c.id = id → c = .flight ⟨t, .reporting o⟩ := by
      intro q x c hc hcid
      rw [hnew] at hc
      split at hc
      · exact (Option.some.inj hc).symm
      · rename_i hne
        have := T.one q x c r (some i) _ hc hcid hhad hid
        exact absurd this hne
    refine ⟨?_, ?_, ?_, ?_, ?_, ?_, ?_⟩ <;> rw [db_none hb] <;>
      try simp only [failsRun_snoc, PSEv.failsRun, hid, beq_self_eq_true, Bool.true_and]
    · rw [hconc]; exact b1
    · exact b2
    · exact b3
    · split <;> omega
    · rintro ⟨q, x, c, g1, g2, g3⟩
      rw [hc q x c g1 g2] at g3
      rcases report_shape ho with ⟨q1, q2, q3⟩ | ⟨q1, q3⟩
      · simp only [Carrier.owes, q2] at g3; cases g3
      · simp only [q1, Bool.false_eq_true, if_false]; omega
    · omega
    · rintro ⟨q, x, c, g1, g2, g3⟩
      rw [hc q x c g1 g2] at g3
      rcases report_shape ho with ⟨q1, q2, q3⟩ | ⟨q1, q3⟩
      · simp only [q1, if_true]; omega
      · simp only [Carrier.failing, q3] at g3; cases g3
  | overflowed r i t j _ hid hhad hconc hsub =>
    have hb : (PSEv.ended r t j none).back = none := rfl
    have howed := b5 ⟨r, some i, _, hhad, hid, rfl⟩
    have hno : ∀ p, ¬ s'.has id p := by
      rintro p ⟨q, x, c, g1, g2, -⟩
      have := hsub q x c g1
      exact this.1 (T.one q x c r (some i) _ this.2 g2 hhad hid).1
    refine ⟨?_, ?_, ?_, ?_, ?_, ?_, ?_⟩ <;> rw [db_none hb] <;>
      try simp only [failsRun_snoc, PSEv.failsRun, hid, beq_self_eq_true, Bool.true_and]
    · rw [hconc]; exact b1
    · exact b2
    · exact b3
    · split <;> omega
    · exact fun hh => absurd hh (hno _)
    · omega
    · exact fun hh => absurd hh (hno _)
  | reported r i t o _ hid hhad hnb hconc hsub =>
    have hno : ∀ p, ¬ s'.has id p := by
      rintro p ⟨q, x, c, g1, g2, -⟩
      have := hsub q x c g1
      have he := T.one q x c r (some i) _ this.1 g2 hhad hid
      exact this.2 (by rw [he.1, he.2])
    have hbk : (PSEv.reported r t (s.conc.step hash tie now (.stmt o)).1).back = some (s.conc.step hash tie now (.stmt o)).1 := rfl
    have hrep := I.reps.reportable r (some i) t o hhad
    have hex := T.exec r (some i) _ hhad hid
    have ho5 : Flight.owes ⟨t, .reporting o⟩ = true → _ := fun hh => b5 ⟨r, some i, _, hhad, hid, hh⟩
    have ho7 : Flight.failing ⟨t, .reporting o⟩ = true → _ := fun hh => b7 ⟨r, some i, _, hhad, hid, hh⟩
    cases htt : (s.conc.step hash tie now (.stmt o)).1.touches id with
    | false =>
      obtain ⟨t1, t2, t3⟩ := quiet_counts htt
      refine ⟨?_, ?_, ?_, ?_, ?_, ?_, ?_⟩ <;> rw [db_some hbk] <;>
        simp only [handouts_snoc, snoozes_snoc, failures_snoc, failsRun_snoc, t1, t2, t3, PSEv.failsRun, Bool.false_eq_true, if_false, Nat.add_zero]
      · exact quiet _ hbk hconc htt
      · exact b2
      · exact b3
      · exact b4
      · exact fun hh => absurd hh (hno _)
      · exact b6
      · exact fun hh => absurd hh (hno _)
    | true =>
      have hres : (s.conc.step hash tie now (.stmt o)).1 = .stmt o .unit := by
        rcases stmt_event s.conc hash tie now o with g | g | ⟨res, g⟩
        · rw [g] at htt; cases htt
        · rw [g] at htt; cases htt
        · rw [g] at htt ⊢
          rcases reportable_cases hrep with rfl | ⟨e, rfl⟩ | ⟨x, rfl⟩ | ⟨-, e, rfl⟩ | ⟨-, x, e, rfl⟩ <;>
            cases res <;> first | rfl | cases htt
      have hst : ∃ q ∈ s.conc.pg.rows, q.id = id := by
        rcases touches_row (table_step I.inv hash tie now (.stmt o)) htt with g | g
        · exact mem_rowIds.mp g
        · rw [hres] at g; cases g
      obtain ⟨q, hq, hqid⟩ := hst
      obtain ⟨c1, c2, c3⟩ := b1 q hq hqid
      obtain ⟨d1, d2⟩ := hex q hq hqid
      unfold RowInBudget at c3
      rw [d1] at c3
      simp only at c3
      simp only [Carrier.final] at d2
      rw [c1] at d2
      have e1 : t.isFinal = true → q.attempt = n := by
        intro hf; rw [hf] at d2; exact of_decide_eq_true d2.symm
      have e2 : t.isFinal = false → q.attempt ≠ n := by
        intro hf; rw [hf] at d2; exact of_decide_eq_false d2.symm
      have hold : ∀ r' ∈ s'.conc.pg.rows, r'.id = id → RowMove now (.stmt o .unit) q r' := by
        intro r' hr' hrid
        rw [hconc] at hr'
        rcases (table_step I.inv hash tie now (.stmt o)).back hr' with ⟨uc, he, -⟩ | ⟨q', hq', hqid', hm, -⟩
        · rw [hres] at he; cases he
        · have : q' = q := row_unique I.inv.nodup hq' hq (by rw [hqid', hrid, hqid])
          rw [← this, ← hres]; exact hm
      rw [hres] at hbk ⊢
      rcases reportable_cases hrep with rfl | ⟨e, rfl⟩ | ⟨x, rfl⟩ | ⟨hfin, e, rfl⟩ | ⟨hfin, x, e, rfl⟩ <;>
      · subst hid
        try have hf1 := e1 hfin
        try have hf2 := e2 hfin
        try have h5 := ho5 rfl
        try have h7 := ho7 rfl
        refine ⟨?_, ?_, ?_, ?_, ?_, ?_, ?_⟩ <;> rw [db_some hbk] <;>
          simp only [handouts_snoc, snoozes_snoc, failures_snoc, failsRun_snoc, PgEv.handsOut, PgEv.snoozes,
            PgEv.recordsFailure, PSEv.failsRun, beq_self_eq_true, if_true,
            Bool.false_eq_true, if_false, Nat.add_zero]
        all_goals first
          | omega
          | exact fun hh => absurd hh (hno _)
          | (intro r' hr' hid'
             have hm := hold r' hr' hid'
             cases hm <;> rename_i he hr'' <;> first
               | contradiction
               | (exfalso; simp at he; done)
               | (exfalso; rw [hqid] at he; simp [PgEv.touches, PgEv.finishes, PgEv.retries, PgEv.snoozes] at he; done)
               | (subst hr''
                  simp only [Row.markComplete, Row.markCancelled, Row.markSnoozed, Row.markDiscarded, Row.markRetryable, RowInBudget]
                  refine ⟨by omega, by omega, ?_⟩
                  first | omega | (split <;> rename_i hq' <;> split at hq' <;> simp_all <;> omega)))

private theorem pbudget_run (hash : HashFn) (defs : List Runner) (id : Int) (n : Nat) (hn : 1 ≤ n) (as : List TPSAct)
    (hq : OthersLeave id ((PgSys.init defs).trace hash defs as))
    (hi : PgEnqueuedWith id n (dbHistory ((PgSys.init defs).trace hash defs as))) :
    PBudget id n ((PgSys.init defs).trace hash defs as) ((PgSys.init defs).run hash defs as) := by
  induction as using snoc_induction with
  | nil =>
    have none : ∀ p, ¬ (PgSys.init defs).has id p := by
      rintro p ⟨r, x, c, h1, h2, -⟩
      have := (PTrackBy.init (fun _ _ => True) id defs).seen r x c h1 h2
      simp [dbHistory, pgInserted] at this
    exact ⟨fun r hr => by simp [PgSys.run, PgSys.init] at hr, Nat.zero_le _, Nat.zero_le _, Nat.le_refl _,
      fun hh => absurd hh (none _), Nat.le_refl _, fun hh => absurd hh (none _)⟩
  | snoc as a ih =>
    have I := pgSysInv hash defs as
    rw [PgSys.trace_append] at hq hi ⊢
    rw [PgSys.run_append]
    have T := pTrack id hash defs as hq.left
    rw [dbHistory_append] at hi
    refine (ih hq.left fun e he => hi e (List.mem_append_left _ he)).step T I hn ?_
      (c_step I.own I.reps.reportable hash defs a.tie a.now a.act id
        fun ev he ht => hq ⟨a.now, _⟩ (List.mem_append_right _ (by simp [PgSys.trace])) ev he ht)
    intro row uc hb hid
    exact hi ⟨a.now, .inserted row uc⟩ (List.mem_append_right _ (by simp [PgSys.trace, dbHistory, hb])) row uc rfl hid

/-- **C68, budget.** A job enqueued on Postgres with `max_attempts = n ≥ 1` that other
clients leave alone is executed with a failing outcome at most `n` times, and it is
handed out at most `n` times plus once for every snooze: in every history of any number
of runners on any number of nodes with any outcomes, crashes and lost calls. -/
theorem C68_failures_bounded (hash : HashFn) (defs : List Runner) (as : List TPSAct) (id : Int) (n : Nat) (hn : 1 ≤ n)
    (hq : OthersLeave id ((PgSys.init defs).trace hash defs as))
    (hi : PgEnqueuedWith id n (dbHistory ((PgSys.init defs).trace hash defs as))) :
    countPg (PSEv.failsRun id) ((PgSys.init defs).trace hash defs as) ≤ n ∧
    pgHandouts id (dbHistory ((PgSys.init defs).trace hash defs as)) ≤
      n + pgSnoozes id (dbHistory ((PgSys.init defs).trace hash defs as)) := by
  have B := pbudget_run hash defs id n hn as hq hi
  exact ⟨by have := B.count; have := B.hand; omega, B.hand⟩

/-- **C68, discarded.** As long as such a job is stored, it is `Discarded` exactly when
`n` failures have been recorded for it; before that it was never discarded. Every
recorded failure is one of a failed execution. -/
theorem C68_discarded_iff (hash : HashFn) (defs : List Runner) (as : List TPSAct) (id : Int) (n : Nat) (hn : 1 ≤ n)
    (hq : OthersLeave id ((PgSys.init defs).trace hash defs as))
    (hi : PgEnqueuedWith id n (dbHistory ((PgSys.init defs).trace hash defs as)))
    (r : Row) (hr : r ∈ ((PgSys.init defs).run hash defs as).conc.pg.rows) (hid : r.id = id) :
    (r.status = .discarded ↔ pgFailures id (dbHistory ((PgSys.init defs).trace hash defs as)) = n) ∧
    pgFailures id (dbHistory ((PgSys.init defs).trace hash defs as)) ≤
      countPg (PSEv.failsRun id) ((PgSys.init defs).trace hash defs as) := by
  have B := pbudget_run hash defs id n hn as hq hi
  refine ⟨?_, B.recorded⟩
  have h := (B.stored r hr hid).2.2
  unfold RowInBudget at h
  split at h <;> rename_i hs <;> simp_all <;> omega

/-- **C68, snoozes.** A snooze gives the attempt back: the attempt number of such a job
counts its recorded failures, plus one while it is being executed, however often it was
snoozed. So every job still waiting has failed less often than `n` times. -/
theorem C68_snoozes_free (hash : HashFn) (defs : List Runner) (as : List TPSAct) (id : Int) (n : Nat) (hn : 1 ≤ n)
    (hq : OthersLeave id ((PgSys.init defs).trace hash defs as))
    (hi : PgEnqueuedWith id n (dbHistory ((PgSys.init defs).trace hash defs as)))
    (r : Row) (hr : r ∈ ((PgSys.init defs).run hash defs as).conc.pg.rows) (hid : r.id = id) :
    r.maxAttempts = n ∧
    (r.status = .scheduled ∨ r.status = .retryable →
      r.attempt = pgFailures id (dbHistory ((PgSys.init defs).trace hash defs as)) ∧ r.attempt < n) ∧
    (r.status = .executing →
      r.attempt = pgFailures id (dbHistory ((PgSys.init defs).trace hash defs as)) + 1 ∧ r.attempt ≤ n) := by
  have B := pbudget_run hash defs id n hn as hq hi
  obtain ⟨h1, -, h⟩ := B.stored r hr hid
  refine ⟨h1, ?_, ?_⟩
  · rintro (hs | hs) <;> simp only [RowInBudget, hs] at h <;> omega
  · intro hs; simp only [RowInBudget, hs] at h; omega

/-- An action of the samples. -/
def psAct (now : Time) (a : PSAct) : TPSAct := ⟨now, fun _ => 0, a⟩

/-- A runner asks for a job, with hand-out statement `k`, and receives the answer. -/
def psPull (now : Time) (r k : Nat) : List TPSAct :=
  [psAct now (.pull r), psAct now (.db (.advance k)), psAct now (.db (.advance k)), psAct now (.db (.advance k)),
    psAct now (.take r)]

/-- The job of the examples (two attempts) fails on one node, is snoozed on another, and
fails again. -/
def pgTwoFailures : List TPSAct :=
  [psAct 5000 (.db (.plain sampleEnq))] ++ psPull 6000 0 0 ++
  [psAct 7000 (.finish 0 0 { ending := .returns (.error "oops" "it broke") }), psAct 7000 (.report 0 0)] ++
  psPull (11 * sec) 1 1 ++
  [psAct (12 * sec) (.finish 1 0 { ending := .returns (.snooze sec) }), psAct (12 * sec) (.report 1 0)] ++
  psPull (14 * sec) 0 2 ++
  [psAct (15 * sec) (.finish 0 1 { ending := .panics none }), psAct (15 * sec) (.report 0 1)]

example :
    (∀ e ∈ (PgSys.init [sampleRunner, sampleRunner]).trace sampleHash [sampleRunner, sampleRunner] pgTwoFailures, (match e.ev with
      | .db ev => !ev.touches 1 || ev.handsOut 1
      | _ => true) = true) ∧
    (∀ e ∈ dbHistory ((PgSys.init [sampleRunner, sampleRunner]).trace sampleHash [sampleRunner, sampleRunner] pgTwoFailures), (match e.ev with
      | .inserted row _ => row.maxAttempts == 2
      | _ => true) = true) ∧
    countPg (PSEv.failsRun 1) ((PgSys.init [sampleRunner, sampleRunner]).trace sampleHash [sampleRunner, sampleRunner] pgTwoFailures) = 2 ∧
    pgHandouts 1 (dbHistory ((PgSys.init [sampleRunner, sampleRunner]).trace sampleHash [sampleRunner, sampleRunner] pgTwoFailures)) = 3 ∧
    ((PgSys.init [sampleRunner, sampleRunner]).run sampleHash [sampleRunner, sampleRunner] pgTwoFailures).conc.pg.rows.map
      (fun r => (r.id, r.status, r.attempt)) = [(1, .discarded, 2)] := by
  decide

/-! ## C69 -/

theorem hasJob_iff {s : PgSys} {id : Int} : s.hasJob id ↔ ∃ r x c, s.carrier r x = some c ∧ c.id = id := by
  constructor
  · rintro ⟨rs, hrs, h⟩
    obtain ⟨r, hr⟩ := List.mem_iff_getElem?.mp hrs
    rcases h with ⟨f, hf, hid⟩ | ⟨k, j, h1, h2, hid⟩
    · obtain ⟨i, hi⟩ := List.mem_iff_getElem?.mp hf
      exact ⟨r, some i, .flight f, by rw [carrier_of hr]; simp [PgRunner.slot, hi], hid⟩
    · exact ⟨r, none, .loaded j, by rw [carrier_of hr]; exact slot_loaded h1 h2, hid⟩
  · rintro ⟨r, x, c, h, hid⟩
    obtain ⟨rs, hr, hsl⟩ := Option.bind_eq_some_iff.mp h
    refine ⟨rs, List.mem_of_getElem? hr, ?_⟩
    cases x with
    | some i => obtain ⟨f, hf, rfl⟩ := slot_flight_inv hsl; exact .inl ⟨f, List.mem_of_getElem? hf, hid⟩
    | none => obtain ⟨k, j, h1, h2, rfl⟩ := slot_loaded_inv hsl; exact .inr ⟨k, j, h1, h2, hid⟩

/-- A runner is told to stop while the hand-out statement of its stream is under way. -/
def stopWhileAsking : List TPSAct :=
  [psAct 5000 (.db (.plain sampleEnq)), psAct 6000 (.pull 0), psAct 6000 (.db (.advance 0)), psAct 6000 (.stop 0),
    psAct 6000 (.db (.advance 0)), psAct 6000 (.db (.advance 0))]

/-- **C69 fails.** Graceful shutdown can strand a job: it is handed out to a stream that
is gone, so it is stored as `Executing` though no runner has it. -/
theorem C69_violated :
    ((PgSys.init [sampleRunner]).run sampleHash [sampleRunner] stopWhileAsking).conc.pg.rows.map
      (fun r => (r.id, r.status, r.attempt)) = [(1, .executing, 1)] ∧
    ¬ ((PgSys.init [sampleRunner]).run sampleHash [sampleRunner] stopWhileAsking).hasJob 1 ∧
    (∀ e ∈ (PgSys.init [sampleRunner]).trace sampleHash [sampleRunner] stopWhileAsking, (match e.ev with
      | .stopped _ _ => true
      | ev => ev.smooth) = true) := by
  refine ⟨by decide, ?_, by decide⟩
  rintro ⟨rs, hrs, h⟩
  have hr : ((PgSys.init [sampleRunner]).run sampleHash [sampleRunner] stopWhileAsking).runners = [{ polling := false }] := rfl
  rw [hr, List.mem_singleton] at hrs
  subst hrs
  rcases h with ⟨f, hf, -⟩ | ⟨k, j, h, -⟩
  · simp at hf
  · cases h

/-- A job that is not waiting and that no runner has keeps its record, as long as other
clients leave it alone. -/
theorem kept_for_good (hash : HashFn) (defs : List Runner) (as bs : List TPSAct) (r₀ : Row)
    (hrow : r₀ ∈ ((PgSys.init defs).run hash defs as).conc.pg.rows)
    (hst : r₀.status ≠ .scheduled ∧ r₀.status ≠ .retryable)
    (hno : ¬ ((PgSys.init defs).run hash defs as).hasJob r₀.id)
    (hq : OthersLeave r₀.id (((PgSys.init defs).run hash defs as).trace hash defs bs)) :
    (∀ r ∈ ((PgSys.init defs).run hash defs (as ++ bs)).conc.pg.rows, r.id = r₀.id → r = r₀) ∧
    ¬ ((PgSys.init defs).run hash defs (as ++ bs)).hasJob r₀.id ∧
    (∀ e ∈ ((PgSys.init defs).run hash defs as).trace hash defs bs, e.ev.executes r₀.id = false) := by
  induction bs using snoc_induction with
  | nil =>
    rw [List.append_nil]
    refine ⟨?_, hno, by simp [PgSys.trace]⟩
    intro r hr hid
    exact row_unique (pgSysInv hash defs as).inv.nodup hr hrow hid
  | snoc bs b ih =>
    rw [PgSys.trace_append] at hq ⊢
    obtain ⟨i1, i2, i3⟩ := ih hq.left
    have hin : r₀.id ∈ pgInserted (dbHistory ((PgSys.init defs).trace hash defs (as ++ bs))) := by
      have := (pgSysInv hash defs as).hist.ids r₀ hrow
      rw [PgSys.trace_append, dbHistory_append]
      unfold pgInserted at this ⊢
      rw [List.filterMap_append]
      exact List.mem_append_left _ this
    have I := pgSysInv hash defs (as ++ bs)
    rw [← List.append_assoc, PgSys.run_append]
    rw [PgSys.run_append] at i1 i2 I ⊢
    have hq' := hq
    simp only [PgSys.trace, PgSys.run] at hq' ⊢
    generalize ((PgSys.init defs).run hash defs as).run hash defs bs = s at *
    rw [hasJob_iff] at i2
    have hc := c_step I.own I.reps.reportable hash defs b.tie b.now b.act r₀.id
      fun ev he ht => hq' ⟨b.now, _⟩ (List.mem_append_right _ (List.mem_singleton.mpr rfl)) ev he ht
    generalize (s.step hash defs b.tie b.now b.act).1 = ev at *
    generalize (s.step hash defs b.tie b.now b.act).2 = s' at *
    have hsub : (∀ r x c, s'.carrier r x = some c → c.id = r₀.id → s.carrier r x = some c) → ¬ s'.hasJob r₀.id := by
      intro hsub hh
      obtain ⟨r, x, c, h1, h2⟩ := hasJob_iff.mp hh
      exact i2 ⟨r, x, c, hsub r x c h1 h2, h2⟩
    have hev : ev.executes r₀.id = false → ∀ e ∈ (((PgSys.init defs).run hash defs as).trace hash defs bs ++ [⟨b.now, ev⟩]),
        e.ev.executes r₀.id = false := by
      intro hx e he
      rcases List.mem_append.mp he with he | he
      · exact i3 e he
      · rw [List.mem_singleton.mp he]; exact hx
    cases hc with
    | away _ _ hs hback hconc hend hx => exact ⟨by rw [hconc]; exact i1, hsub hs, hev hx⟩
    | other _ _ c hs hback hconc ht =>
      refine ⟨?_, hsub hs, hev ?_⟩
      · intro r hr hid
        rw [hconc] at hr
        rcases untouched_row I.inv I.hist ht hr hid with h1 | ⟨-, hn, -⟩
        · exact i1 r h1 hid
        · exact absurd hin hn
      · unfold PSEv.executes
        split
        · simp [PSEv.back] at hback
        · rfl
    | handed k row res _ he hid hconc hruns hnew =>
      exfalso
      obtain ⟨q, hq, hqid, -, y, t, -, hrd, -⟩ := handedOut_mem I.inv he
      have := i1 q hq (by rw [hqid, hid])
      rw [this] at hrd
      rcases (ready_iff'.mp hrd).waiting with h | h
      · exact hst.1 h
      · exact hst.2 h
    | taken r j st _ hid hhad => exact absurd ⟨r, none, _, hhad, hid⟩ i2
    | ended r i t j d o _ hid ho hhad => exact absurd ⟨r, some i, _, hhad, hid⟩ i2
    | overflowed r i t j _ hid hhad => exact absurd ⟨r, some i, _, hhad, hid⟩ i2
    | reported r i t o _ hid hhad => exact absurd ⟨r, some i, _, hhad, hid⟩ i2

/-- **C69 fails for good.** Once a job is stored as `Executing` and no runner has it, it
stays so as long as other clients leave it alone: in every continuation, whatever
runners ask for, it is never executed, and as long as it is stored its record does not
change. -/
theorem C69_stranded_for_good (hash : HashFn) (defs : List Runner) (as bs : List TPSAct) (r₀ : Row)
    (hrow : r₀ ∈ ((PgSys.init defs).run hash defs as).conc.pg.rows) (hex : r₀.status = .executing)
    (hno : ¬ ((PgSys.init defs).run hash defs as).hasJob r₀.id)
    (hq : OthersLeave r₀.id (((PgSys.init defs).run hash defs as).trace hash defs bs)) :
    (∀ r ∈ ((PgSys.init defs).run hash defs (as ++ bs)).conc.pg.rows, r.id = r₀.id → r = r₀) ∧
    ¬ ((PgSys.init defs).run hash defs (as ++ bs)).hasJob r₀.id ∧
    (∀ e ∈ ((PgSys.init defs).run hash defs as).trace hash defs bs, e.ev.executes r₀.id = false) :=
  kept_for_good hash defs as bs r₀ hrow (by rw [hex]; decide) hno hq

/-- `stopWhileAsking` meets the hypotheses, by `C69_violated`; here another runner asks for
jobs afterwards, and one is enqueued and executed, but job 1 is not. -/
example :
    let ds := [sampleRunner, sampleRunner]
    let s := (PgSys.init ds).run sampleHash ds stopWhileAsking
    let bs := psPull (9 * sec) 1 1 ++ [psAct (10 * sec) (.db (.plain sampleEnq))] ++ psPull (11 * sec) 1 2
    s.conc.pg.rows.map (fun r => (r.id, r.status)) = [(1, .executing)] ∧
    s.runners.map (fun rs => (rs.loading, rs.flights.length)) = [(none, 0), (none, 0)] ∧
    (∀ e ∈ s.trace sampleHash ds bs, (match e.ev with
      | .db ev => !ev.touches 1 || ev.handsOut 1
      | _ => true) = true) ∧
    (s.run sampleHash ds bs).conc.pg.rows.map (fun r => (r.id, r.status)) = [(1, .executing), (2, .executing)] ∧
    (s.run sampleHash ds bs).runners.map (fun rs => rs.flights.map fun f => f.map (·.task.id)) = [[], [some 2]] := by
  decide

/-- hand-out statements under way -/
private def asking : Session → Bool
  | .handout _ => true
  | .looking _ _ _ => true
  | .locked _ _ _ => true
  | _ => false

/-- every executing row is in someone's hands, every hand-out statement under way is waited for -/
private structure Served (s : PgSys) : Prop where
  exec : ∀ row ∈ s.conc.pg.rows, row.status = .executing → ∃ r x c, s.carrier r x = some c ∧ c.id = row.id
  owner : ∀ (k : Nat) (ss : Session), s.conc.sessions[k]? = some ss → asking ss = true →
    ∃ (r : Nat) (rs : PgRunner), s.runners[r]? = some rs ∧ rs.loading = some k

/-- A hand-out is the last step of a hand-out statement. -/
private theorem handedOut_session {c : PgConc} {hash : HashFn} {tie : Int → Nat} {now : Time} {k : Nat} {row : Row} {res : Res}
    (h : (c.step hash tie now (.advance k)).1 = .handedOut row res) :
    (∃ x t id, c.sessions[k]? = some (.locked x t id)) ∧
      (c.step hash tie now (.advance k)).2.sessions[k]? = some (.done res) ∧
      res = (match row.decode with | none => Res.err .encodeDecode | some j => .job (some j)) := by
  simp only [PgConc.step] at h ⊢
  split at h
  · simp at h
  · rename_i s hi
    have hlt : k < c.sessions.length := (List.getElem?_eq_some_iff.mp hi).1
    simp only [hi]
    cases s with
    | locked x t id =>
      refine ⟨⟨x, t, id, rfl⟩, ?_⟩
      simp only [PgConc.advance] at h ⊢
      split at h
      · simp at h
      · simp only [PgEv.handedOut.injEq] at h
        obtain ⟨h1, h2⟩ := h
        subst h1
        refine ⟨?_, ?_⟩
        · simp only [List.getElem?_set, if_true, hlt, if_true]; rw [h2]
        · rw [← h2]; cases Row.decode _ <;> rfl
    | replacing e uc rep id' => simp [PgConc.advance] at h
    | inserted e uc' row' => simp [PgConc.advance] at h
    | handout x => simp [PgConc.advance] at h
    | done r => simp [PgConc.advance] at h
    | looking x t snap => simp only [PgConc.advance] at h; split at h <;> simp at h
    | unique e uc t => simp only [PgConc.advance] at h; split at h <;> simp at h
    | holding e uc t => simp only [PgConc.advance] at h; split at h <;> simp at h
    | missing e uc t => simp only [PgConc.advance] at h; split at h <;> simp at h
    | found e uc id st =>
      simp only [PgConc.advance] at h
      split at h
      · split at h
        · split at h
          · simp at h
          · split at h <;> simp at h
        · simp at h
      · simp at h

/-- A statement under way after a step was under way before it. -/
private theorem asking_before {c : PgConc} {hash : HashFn} {tie : Int → Nat} {now : Time} {b : PgAct} {k : Nat} {ss : Session}
    (hs : (c.step hash tie now b).2.sessions[k]? = some ss) (ha : asking ss = true) :
    (∃ ss₀, c.sessions[k]? = some ss₀ ∧ asking ss₀ = true) ∨ (∃ x, b = .handout x ∧ k = c.sessions.length) := by
  cases hk : c.sessions[k]? with
  | some s₀ =>
    left
    refine ⟨s₀, rfl, ?_⟩
    rcases session_at hk hs with h | ⟨-, h⟩ | h
    · rw [← h]; exact ha
    · subst h
      cases s₀ with
      | done res => simp [PgConc.advance, asking] at ha
      | locked y t id => rfl
      | handout y => rfl
      | looking y t snap => rfl
      | unique e uc t => simp only [PgConc.advance] at ha; split at ha <;> simp [asking] at ha
      | holding e uc t => simp only [PgConc.advance] at ha; split at ha <;> simp [asking] at ha
      | missing e uc t => simp only [PgConc.advance] at ha; split at ha <;> simp [asking] at ha
      | inserted e uc row => simp [PgConc.advance, asking] at ha
      | replacing e uc rep i => simp [PgConc.advance, asking] at ha
      | found e uc id st =>
        simp only [PgConc.advance] at ha
        split at ha
        · split at ha
          · split at ha
            · simp [asking] at ha
            · split at ha <;> simp [asking] at ha
          · simp [asking] at ha
        · simp [asking] at ha
    · rw [h] at ha; simp [asking] at ha
  | none =>
    right
    have hge : c.sessions.length ≤ k := List.getElem?_eq_none_iff.mp hk
    cases b with
    | handout x =>
      refine ⟨x, rfl, ?_⟩
      have := (List.getElem?_eq_some_iff.mp hs).1
      simp only [PgConc.step, List.length_append, List.length_singleton] at this
      omega
    | unique e uc =>
      have := (List.getElem?_eq_some_iff.mp hs).1
      simp only [PgConc.step, List.length_append, List.length_singleton] at this
      have hk' : k = c.sessions.length := by omega
      simp only [PgConc.step, hk', List.getElem?_append_right (Nat.le_refl _), Nat.sub_self, List.getElem?_cons_zero,
        Option.some.injEq] at hs
      subst hs; cases ha
    | plain e => simp only [PgConc.step] at hs; split at hs <;> (rw [hk] at hs; cases hs)
    | stmt o => rw [stmt_sessions, hk] at hs; cases hs
    | abort j =>
      simp only [PgConc.step] at hs
      split at hs
      · rw [hk] at hs; cases hs
      · rw [hk] at hs; cases hs
      · rw [List.getElem?_eq_none (by simpa using hge)] at hs; cases hs
    | advance j =>
      simp only [PgConc.step] at hs
      split at hs
      · rw [hk] at hs; cases hs
      · rw [List.getElem?_eq_none (by simpa using hge)] at hs; cases hs

/-- A finished session stays finished. -/
theorem done_stays {c : PgConc} {hash : HashFn} {tie : Int → Nat} {now : Time} {b : PgAct} {k : Nat} {res : Res}
    (hs : c.sessions[k]? = some (.done res)) : (c.step hash tie now b).2.sessions[k]? = some (.done res) := by
  have hlt : k < c.sessions.length := (List.getElem?_eq_some_iff.mp hs).1
  cases b with
  | handout x => simp only [PgConc.step, List.getElem?_append_left hlt, hs]
  | unique e uc => simp only [PgConc.step, List.getElem?_append_left hlt, hs]
  | plain e => simp only [PgConc.step]; split <;> exact hs
  | stmt o => rw [stmt_sessions]; exact hs
  | abort j =>
    simp only [PgConc.step]
    split
    · exact hs
    · exact hs
    · rename_i s₀ hne hj
      rw [List.getElem?_set_ne (by rintro rfl; rw [hs] at hj; cases hj; exact hne _ rfl)]; exact hs
  | advance j =>
    simp only [PgConc.step]
    split
    · exact hs
    · rename_i s₀ hj
      by_cases hjk : j = k
      · subst hjk; rw [hs] at hj; cases hj; simp [PgConc.advance, hlt]
      · rw [List.getElem?_set_ne hjk]; exact hs

private theorem db_keeps {s : PgSys} {hash : HashFn} {tie : Int → Nat} {now : Time} {b : PgAct} {r : Nat} {x : Option Nat}
    {c : Carrier} (h : s.carrier r x = some c) :
    PgSys.carrier ⟨(s.conc.step hash tie now b).2, s.runners⟩ r x = some c := by
  obtain ⟨rs, hr, hsl⟩ := Option.bind_eq_some_iff.mp h
  rw [carrier_of (s := ⟨(s.conc.step hash tie now b).2, s.runners⟩) hr]
  cases x with
  | some i => exact hsl
  | none =>
    obtain ⟨k, j, hl, hs, rfl⟩ := slot_loaded_inv hsl
    exact slot_loaded hl (done_stays hs)

/-- A row is being executed after a step: it was so before, or was just handed out. -/
private theorem executing_before {c : PgConc} (H : PgInv c) (hI : PgHist h c) {hash : HashFn} {tie : Int → Nat} {now : Time} {b : PgAct} {row : Row}
    (hr : row ∈ (c.step hash tie now b).2.pg.rows) (hx : row.status = .executing) :
    (∃ r ∈ c.pg.rows, r.id = row.id ∧ r.status = .executing ∧ ∀ o, (c.step hash tie now b).1 = .stmt o .unit → ∀ t, Reportable t o → t.id ≠ row.id) ∨
    ∃ res, (c.step hash tie now b).1 = .handedOut row res := by
  rcases (table_step H hash tie now b).back hr with ⟨uc, he, -⟩ | ⟨q, hq, hid, hm, -⟩
  · obtain ⟨e, t, key, hrow⟩ := inserted_fresh hI he
    rw [hrow] at hx; cases hx
  · cases hm with
    | keep ht e =>
      subst e
      refine .inl ⟨row, hq, rfl, hx, ?_⟩
      intro o ho t hrep htid
      rw [ho] at ht
      rcases reportable_cases hrep with rfl | ⟨e, rfl⟩ | ⟨x, rfl⟩ | ⟨-, e, rfl⟩ | ⟨-, x, e, rfl⟩ <;>
        simp [PgEv.touches, PgEv.finishes, PgEv.retries, PgEv.snoozes, htid] at ht
    | handout x t res h hr e => exact .inr ⟨res, h⟩
    | replaced rep enq h e =>
      refine .inl ⟨q, hq, hid, by rw [e] at hx; exact hx, ?_⟩
      intro o ho; rw [h] at ho; cases ho
    | update job hj h e =>
      refine .inl ⟨q, hq, hid, by rw [e] at hx; exact hx, ?_⟩
      intro o ho t hrep
      rw [h] at ho
      cases ho
      rcases reportable_cases hrep with h | ⟨e, h⟩ | ⟨x, h⟩ | ⟨-, e, h⟩ | ⟨-, x, e, h⟩ <;> cases h
    | complete h e => rw [e] at hx; cases hx
    | retryable next err h e => rw [e] at hx; cases hx
    | discarded err h e => rw [e] at hx; cases hx
    | cancelled err h e => rw [e] at hx; cases hx
    | snoozed next h e => rw [e] at hx; simp only [Row.markSnoozed] at hx; split at hx <;> cases hx
    | rerun h e => rw [e] at hx; simp only [Row.markRerunable] at hx; split at hx <;> cases hx

private theorem stmt_unit {c : PgConc} (H : PgInv c) {hash : HashFn} {tie : Int → Nat} {now : Time} {t : Task} {o : Op}
    (hrep : Reportable t o) (hin : t.id ∈ rowIds c.pg.rows) (hnb : (c.step hash tie now (.stmt o)).1 ≠ .blocked) :
    (c.step hash tie now (.stmt o)).1 = .stmt o .unit := by
  have key : ∀ f, (c.pg.onRow t.id f).1 = .unit := by
    intro f
    rcases onRow_cases t.id f c.pg H.nodup with ⟨h, -⟩ | ⟨-, h⟩
    · exact absurd hin h
    · rw [h]
  rcases reportable_cases hrep with rfl | ⟨e, rfl⟩ | ⟨x, rfl⟩ | ⟨-, e, rfl⟩ | ⟨-, x, e, rfl⟩ <;>
  · simp only [PgConc.step] at hnb ⊢
    split
    · rename_i h; rw [if_pos h] at hnb; exact absurd rfl hnb
    · simp only [Pg.step, key]

private theorem Served.step {h : List TPSEv} {s : PgSys} (S : Served s) (I : PgSysInv h s) (hash : HashFn) (defs : List Runner)
    (tie : Int → Nat) (now : Time) (a : PSAct) (hno : ∀ x, a ≠ .db (.handout x))
    (hsm : (s.step hash defs tie now a).1.smooth = true) : Served (s.step hash defs tie now a).2 := by
  have same : ∀ (r : Nat) (rs rs' : PgRunner), s.runners[r]? = some rs →
      (∀ x c, rs.slot s.conc x = some c → ∃ x' c', rs'.slot s.conc x' = some c' ∧ c'.id = c.id) →
      (∀ k ss, rs.loading = some k → s.conc.sessions[k]? = some ss → asking ss = true → rs'.loading = some k) →
      Served ⟨s.conc, s.runners.set r rs'⟩ := by
    intro r rs rs' hr h1 h2
    have hlt : r < s.runners.length := (List.getElem?_eq_some_iff.mp hr).1
    refine ⟨fun row hrow hx => ?_, fun k ss hk ha => ?_⟩
    · obtain ⟨q, x, c, g1, g2⟩ := S.exec row hrow hx
      by_cases hq : q = r
      · subst hq
        rw [carrier_of hr] at g1
        obtain ⟨x', c', g3, g4⟩ := h1 x c g1
        exact ⟨q, x', c', by rw [carrier_set hr, if_pos rfl]; exact g3, by rw [g4, g2]⟩
      · exact ⟨q, x, c, by rw [carrier_set hr, if_neg hq]; exact g1, g2⟩
    · obtain ⟨q, qs, g1, g2⟩ := S.owner k ss hk ha
      by_cases hq : q = r
      · subst hq
        rw [hr] at g1; cases g1
        exact ⟨q, rs', by simp [hlt], h2 k ss g2 hk ha⟩
      · exact ⟨q, qs, by rw [List.getElem?_set_ne (Ne.symm hq)]; exact g1, g2⟩
  cases a with
  | db b =>
    refine ⟨fun row hrow hx => ?_, fun k ss hk ha => ?_⟩
    · rcases executing_before I.inv I.hist hrow hx with ⟨q, hq, hid, hxq, -⟩ | ⟨res, hev⟩
      · obtain ⟨r, x, c, g1, g2⟩ := S.exec q hq hxq
        exact ⟨r, x, c, db_keeps g1, by rw [g2, hid]⟩
      · obtain ⟨k, rfl⟩ := handedOut_advance hev
        obtain ⟨⟨x, t, id, hl⟩, hd, hres⟩ := handedOut_session hev
        obtain ⟨r, rs, g1, g2⟩ := S.owner k _ hl rfl
        simp only [PgSys.step, hev] at hsm
        cases hdec : row.decode with
        | none => rw [hdec] at hres; rw [hres] at hsm; cases hsm
        | some j =>
          rw [hdec] at hres
          rw [hres] at hd
          refine ⟨r, none, .loaded j, ?_, (decode_fields hdec).1⟩
          simp only [PgSys.step]
          rw [carrier_of (s := ⟨(s.conc.step hash tie now (.advance k)).2, s.runners⟩) g1]
          exact slot_loaded g2 hd
    · rcases asking_before hk ha with ⟨ss₀, g1, g2⟩ | ⟨x, rfl, -⟩
      · exact S.owner k ss₀ g1 g2
      · exact absurd rfl (hno x)
  | pull r =>
    simp only [PgSys.step]
    split
    · rename_i d rs hd hr
      split
      · rename_i hc
        simp only [Bool.and_eq_true, Option.isNone_iff_eq_none] at hc
        have hlt : r < s.runners.length := (List.getElem?_eq_some_iff.mp hr).1
        refine ⟨fun row hrow hx => ?_, fun k ss hk ha => ?_⟩
        · obtain ⟨q, x, c, g1, g2⟩ := S.exec row hrow hx
          refine ⟨q, x, c, ?_, g2⟩
          rw [carrier_set hr]
          split
          · rename_i hq; subst hq
            rw [carrier_of hr] at g1
            cases x with
            | some i => exact g1
            | none => obtain ⟨k, j, h1, -⟩ := slot_loaded_inv g1; rw [hc.2] at h1; cases h1
          · exact db_keeps g1
        · rcases asking_before hk ha with ⟨ss₀, g1, g2⟩ | ⟨x, -, hk'⟩
          · obtain ⟨q, qs, g3, g4⟩ := S.owner k ss₀ g1 g2
            have hq : q ≠ r := by rintro rfl; rw [hr] at g3; cases g3; rw [hc.2] at g4; cases g4
            exact ⟨q, qs, by rw [List.getElem?_set_ne (Ne.symm hq)]; exact g3, g4⟩
          · exact ⟨r, { rs with loading := some s.conc.sessions.length }, by simp [hlt], by rw [hk']⟩
      · exact S
    · exact S
  | take r =>
    simp only [PgSys.step] at hsm ⊢
    split
    · rename_i d rs hd hr
      simp only [hd, hr] at hsm
      split
      · rename_i j hj
        simp only [hj] at hsm
        obtain ⟨k, hl, hk⟩ := Option.bind_eq_some_iff.mp hj
        cases hst : d.start j with
        | undecodable => rw [hst] at hsm; cases hsm
        | runnerPanics => rw [hst] at hsm; cases hsm
        | running t =>
          obtain ⟨htid, -⟩ := start_running hst
          refine same r rs _ hr ?_ ?_
          · intro x c hc
            cases x with
            | none =>
              obtain ⟨k', j', h1, h2, rfl⟩ := slot_loaded_inv hc
              rw [hl] at h1; cases h1
              rw [hk] at h2; cases h2
              exact ⟨some rs.flights.length, .flight ⟨t, .running⟩, by simp [PgRunner.slot], htid⟩
            | some i =>
              obtain ⟨f, hf, rfl⟩ := slot_flight_inv hc
              have hlt : i < rs.flights.length := (List.getElem?_eq_some_iff.mp hf).1
              refine ⟨some i, .flight f, ?_, rfl⟩
              simp [PgRunner.slot, List.getElem?_append_left hlt, hf]
          · intro k' ss h1 h2 h3
            rw [hl] at h1; cases h1
            rw [hk] at h2; cases h2; cases h3
      · rename_i res hne hj
        obtain ⟨k, hl, hk⟩ := Option.bind_eq_some_iff.mp hj
        refine same r rs _ hr ?_ ?_
        · intro x c hc
          cases x with
          | none =>
            obtain ⟨k', j', h1, h2, rfl⟩ := slot_loaded_inv hc
            rw [hl] at h1; cases h1
            rw [hk] at h2; cases h2
            exact absurd rfl (hne j')
          | some i => exact ⟨some i, c, hc, rfl⟩
        · intro k' ss h1 h2 h3
          rw [hl] at h1; cases h1
          rw [hk] at h2; cases h2; cases h3
      · exact S
    · exact S
  | finish r i b =>
    simp only [PgSys.step] at hsm ⊢
    split
    · rename_i d rs hd hr
      simp only [hd, hr] at hsm
      split
      · rename_i t hfl
        simp only [hfl] at hsm
        split
        · exact S
        · rename_i j hj
          simp only [hj] at hsm
          split
          · rename_i o ho
            refine same r rs _ hr ?_ (fun k ss h1 _ _ => h1)
            intro x c hc
            by_cases hx : x = some i
            · subst hx
              obtain ⟨f, hf, rfl⟩ := slot_flight_inv hc
              rw [hfl] at hf; cases hf
              exact ⟨some i, .flight ⟨t, .reporting o⟩, by rw [slot_set hfl]; simp, rfl⟩
            · exact ⟨x, c, by rw [slot_set hfl, if_neg hx]; exact hc, rfl⟩
          · rename_i ho; rw [ho] at hsm; cases hsm
      · exact S
    · exact S
  | report r i =>
    simp only [PgSys.step]
    split
    · rename_i rs hr
      split
      · rename_i t o hfl
        have hhad : s.carrier r (some i) = some (.flight ⟨t, .reporting o⟩) := by rw [carrier_of hr]; simp [PgRunner.slot, hfl]
        have hrep := I.reps.reportable r (some i) t o hhad
        split
        · exact S
        · rename_i ev c hnb he
          have h2 : c = (s.conc.step hash tie now (.stmt o)).2 := by rw [he]
          have hnb' : (s.conc.step hash tie now (.stmt o)).1 ≠ .blocked := by
            rw [he]; intro h; exact hnb h
          subst h2
          have hlt : r < s.runners.length := (List.getElem?_eq_some_iff.mp hr).1
          refine ⟨fun row hrow hx => ?_, fun k ss hk ha => ?_⟩
          · rcases executing_before I.inv I.hist hrow hx with ⟨q, hq, hid, hxq, hne⟩ | ⟨res, hev⟩
            · by_cases htid : t.id = row.id
              · exfalso
                refine hne o (stmt_unit I.inv hrep ?_ hnb') t hrep htid
                exact mem_rowIds.mpr ⟨q, hq, by rw [htid, hid]⟩
              · obtain ⟨q', x, c, g1, g2⟩ := S.exec q hq hxq
                refine ⟨q', x, c, ?_, by rw [g2, hid]⟩
                rw [carrier_set hr]
                split
                · rename_i hqq; subst hqq
                  rw [carrier_of hr] at g1
                  rw [slot_set hfl]
                  split
                  · rename_i hxi; subst hxi
                    obtain ⟨f, hf, rfl⟩ := slot_flight_inv g1
                    rw [hfl] at hf; cases hf
                    exact absurd (g2.trans hid) htid
                  · cases x with
                    | none => simpa [PgRunner.slot, stmt_sessions] using g1
                    | some j => exact g1
                · rw [carrier_sessions (stmt_sessions _ _ _ _ _)]; exact g1
            · obtain ⟨k, hk⟩ := handedOut_advance hev; cases hk
          · rw [stmt_sessions] at hk
            obtain ⟨q, qs, g1, g2⟩ := S.owner k ss hk ha
            by_cases hq : q = r
            · subst hq; rw [hr] at g1; cases g1
              exact ⟨q, { rs with flights := rs.flights.set i none }, by simp [hlt], g2⟩
            · exact ⟨q, qs, by rw [List.getElem?_set_ne (Ne.symm hq)]; exact g1, g2⟩
      · exact S
    · exact S
  | lose r i =>
    simp only [PgSys.step] at hsm ⊢
    split
    · rename_i rs hr
      simp only [hr] at hsm
      split
      · rename_i t o hfl; simp only [hfl] at hsm; cases hsm
      · exact S
    · exact S
  | stop r =>
    simp only [PgSys.step] at hsm ⊢
    split
    · rename_i rs hr
      simp only [hr] at hsm
      have hl : rs.loading = none := by simpa [PSEv.smooth] using hsm
      refine same r rs _ hr (fun x c hc => ⟨x, c, ?_, rfl⟩) (fun k ss h1 => by rw [hl] at h1; cases h1)
      cases x with
      | none => obtain ⟨k, j, h1, -⟩ := slot_loaded_inv hc; rw [hl] at h1; cases h1
      | some i => exact hc
    · exact S
  | drop r =>
    simp only [PgSys.step] at hsm ⊢
    split
    · rename_i rs hr
      simp only [hr] at hsm
      have hl : rs.loading = none := by simpa [PSEv.smooth] using hsm
      refine same r rs _ hr (fun x c hc => ⟨x, c, ?_, rfl⟩) (fun k ss h1 => by rw [hl] at h1; cases h1)
      cases x with
      | none => obtain ⟨k, j, h1, -⟩ := slot_loaded_inv hc; rw [hl] at h1; cases h1
      | some i => exact hc
    · exact S
  | kill r =>
    simp only [PgSys.step] at hsm ⊢
    split
    · rename_i rs hr; simp only [hr] at hsm; cases hsm
    · exact S

/-- **C69.** In every history of runners in which no process ends, no connection fails,
no job is unreadable, no runner panics and no runner is told to stop while its stream
waits for a hand-out statement, every job stored as `Executing` is in the hands of a
runner: its stream has received it or it has an execution of it in flight. Other clients
may do whatever they like except ask for jobs to execute. Missing: runners told to stop
while their stream waits for a hand-out statement, where this fails (`C69_violated`). -/
theorem C69_executing_has_executor_partial (hash : HashFn) (defs : List Runner) (as : List TPSAct)
    (hno : ∀ a ∈ as, ∀ x, a.act ≠ .db (.handout x))
    (hsm : ∀ e ∈ (PgSys.init defs).trace hash defs as, e.ev.smooth = true) :
    ∀ r ∈ ((PgSys.init defs).run hash defs as).conc.pg.rows, r.status = .executing →
      ((PgSys.init defs).run hash defs as).hasJob r.id := by
  have S : Served ((PgSys.init defs).run hash defs as) := by
    induction as using snoc_induction with
    | nil => exact ⟨by simp [PgSys.run, PgSys.init], by simp [PgSys.run, PgSys.init]⟩
    | snoc as a ih =>
      rw [PgSys.trace_append] at hsm
      rw [PgSys.run_append]
      exact (ih (fun b hb => hno b (List.mem_append_left _ hb)) (fun e he => hsm e (List.mem_append_left _ he))).step
        (pgSysInv hash defs as) hash defs a.tie a.now a.act (fun x => hno a (by simp) x)
        (hsm ⟨a.now, _⟩ (List.mem_append_right _ (by simp [PgSys.trace])))
  intro r hr hx
  exact hasJob_iff.mpr (S.exec r hr hx)

/-- The job of the examples is being executed by node 1 while node 0 is told to stop. -/
example :
    let as := pgTwoFailures.take 8 ++ psPull (11 * sec) 1 1 ++ [psAct (11 * sec) (.stop 0)]
    (as.all fun a => match a.act with | .db (.handout _) => false | _ => true) = true ∧
    (∀ e ∈ (PgSys.init [sampleRunner, sampleRunner]).trace sampleHash [sampleRunner, sampleRunner] as, e.ev.smooth = true) ∧
    ((PgSys.init [sampleRunner, sampleRunner]).run sampleHash [sampleRunner, sampleRunner] as).conc.pg.rows.map
      (fun r => (r.id, r.status, r.attempt)) = [(1, .executing, 2)] := by
  decide

/-! ## C73 -/

private theorem inFlight_append (rs : PgRunner) (f : Flight) :
    PgRunner.inFlight { rs with loading := none, flights := rs.flights ++ [some f] } = rs.inFlight + 1 := by
  simp [PgRunner.inFlight, List.filterMap_append]

private theorem filterMap_set_le {l : List (Option Flight)} {i : Nat} {v w : Option Flight} (h : l[i]? = some v)
    (hw : w.isSome = true → v.isSome = true) : ((l.set i w).filterMap id).length ≤ (l.filterMap id).length := by
  induction l generalizing i with
  | nil => simp at h
  | cons a l ih =>
    cases i with
    | zero =>
      simp only [List.getElem?_cons_zero, Option.some.injEq] at h
      subst h
      simp only [List.set_cons_zero]
      cases w with
      | none => cases a <;> simp
      | some f =>
        cases a with
        | none => simp at hw
        | some g => simp
    | succ i =>
      simp only [List.getElem?_cons_succ] at h
      simp only [List.set_cons_succ]
      have := ih h
      cases a <;> simp_all

/-- how many jobs a runner has or has asked for -/
def PgRunner.inHand (rs : PgRunner) : Nat := rs.inFlight + if rs.loading.isSome then 1 else 0

/-- **C73.** In every history of any number of runners on Postgres, a runner whose
executor has `MAX_CONCURRENCY = Some(k)`, `k ≥ 1`, never has more than `k` executions in
flight, counting the one its stream is asking for. -/
theorem C73_limit (hash : HashFn) (defs : List Runner) (as : List TPSAct) (r k : Nat) (d : Runner) (rs : PgRunner)
    (hd : defs[r]? = some d) (hk : d.maxConcurrency = some k) (hk1 : 1 ≤ k)
    (hr : ((PgSys.init defs).run hash defs as).runners[r]? = some rs) : rs.inHand ≤ k := by
  induction as using snoc_induction generalizing rs with
  | nil =>
    have := List.mem_of_getElem? hr
    simp only [PgSys.run, PgSys.init, List.mem_map] at this
    obtain ⟨d, -, rfl⟩ := this
    simp [PgRunner.inHand, PgRunner.inFlight]
  | snoc as a ih =>
    rw [PgSys.run_append] at hr
    simp only [PgSys.run] at hr
    generalize (PgSys.init defs).run hash defs as = s at *
    have set : ∀ (c : PgConc) (q : Nat) (qs qs' : PgRunner), s.runners[q]? = some qs →
        (q = r → qs.inHand ≤ k → qs'.inHand ≤ k) →
        (⟨c, s.runners.set q qs'⟩ : PgSys).runners[r]? = some rs → rs.inHand ≤ k := by
      intro c q qs qs' hq h hset
      have hlt : q < s.runners.length := (List.getElem?_eq_some_iff.mp hq).1
      by_cases hqr : q = r
      · subst hqr
        simp only [List.getElem?_set, if_true, hlt] at hset
        cases hset
        exact h rfl (ih qs hq)
      · simp only [List.getElem?_set, if_neg hqr] at hset
        exact ih rs hset
    have crash : ∀ q : PgRunner, q.crash.inHand ≤ k := fun q => Nat.zero_le _
    cases hact : a.act with
    | db b => rw [hact] at hr; exact ih rs hr
    | pull q =>
      rw [hact] at hr
      simp only [PgSys.step] at hr
      split at hr
      · rename_i d' qs hd' hq
        split at hr
        · rename_i hc
          refine set _ q qs _ hq ?_ hr
          intro hqr _
          subst hqr
          rw [hd] at hd'; cases hd'
          simp only [hk, belowLimit, Bool.and_eq_true, Bool.or_eq_true, beq_iff_eq, decide_eq_true_eq] at hc
          simp only [PgRunner.inHand, PgRunner.inFlight, Option.isSome_some, if_true] at *
          omega
        · exact ih rs hr
      · exact ih rs hr
    | take q =>
      rw [hact] at hr
      simp only [PgSys.step] at hr
      split at hr
      · rename_i d' qs hd' hq
        split at hr
        · rename_i j hj
          obtain ⟨m, hl, -⟩ := Option.bind_eq_some_iff.mp hj
          refine set _ q qs _ hq ?_ hr
          intro hqr hle
          simp only [PgRunner.inHand, hl, Option.isSome_some, if_true] at hle
          split
          · simp only [PgRunner.inHand, inFlight_append]; simp; exact hle
          · simp only [PgRunner.inHand, PgRunner.inFlight] at hle ⊢; simp; omega
          · exact crash qs
        · refine set _ q qs _ hq ?_ hr
          intro hqr hle
          simp only [PgRunner.inHand, PgRunner.inFlight] at hle ⊢
          simp; omega
        · exact ih rs hr
      · exact ih rs hr
    | drop q =>
      rw [hact] at hr
      simp only [PgSys.step] at hr
      split at hr
      · rename_i qs hq
        refine set _ q qs _ hq ?_ hr
        intro hqr hle
        simp only [PgRunner.inHand, PgRunner.inFlight] at hle ⊢
        simp; omega
      · exact ih rs hr
    | finish q i b =>
      rw [hact] at hr
      simp only [PgSys.step] at hr
      split at hr
      · rename_i d' qs hd' hq
        split at hr
        · rename_i t hfl
          split at hr
          · exact ih rs hr
          · split at hr
            · refine set _ q qs _ hq ?_ hr
              intro hqr hle
              refine Nat.le_trans (Nat.add_le_add_right (filterMap_set_le hfl (fun _ => rfl)) _) hle
            · exact set _ q qs _ hq (fun _ _ => crash qs) hr
        · exact ih rs hr
      · exact ih rs hr
    | report q i =>
      rw [hact] at hr
      simp only [PgSys.step] at hr
      split at hr
      · rename_i qs hq
        split at hr
        · rename_i t o hfl
          split at hr
          · exact ih rs hr
          · refine set _ q qs _ hq ?_ hr
            intro hqr hle
            refine Nat.le_trans (Nat.add_le_add_right (filterMap_set_le hfl (fun _ => rfl)) _) hle
        · exact ih rs hr
      · exact ih rs hr
    | lose q i =>
      rw [hact] at hr
      simp only [PgSys.step] at hr
      split at hr
      · rename_i qs hq
        split at hr
        · rename_i t o hfl
          refine set _ q qs _ hq ?_ hr
          intro hqr hle
          refine Nat.le_trans (Nat.add_le_add_right (filterMap_set_le hfl (fun _ => rfl)) _) hle
        · exact ih rs hr
      · exact ih rs hr
    | stop q =>
      rw [hact] at hr
      simp only [PgSys.step] at hr
      split at hr
      · rename_i qs hq
        refine set _ q qs _ hq ?_ hr
        intro hqr hle
        simp only [PgRunner.inHand, PgRunner.inFlight] at hle ⊢
        simp; omega
      · exact ih rs hr
    | kill q =>
      rw [hact] at hr
      simp only [PgSys.step] at hr
      split at hr
      · rename_i qs hq; exact set _ q qs _ hq (fun _ _ => crash qs) hr
      · exact ih rs hr

/-- Two jobs are due and the limit is one: the second is not asked for. -/
example :
    let d := { sampleRunner with maxConcurrency := some 1 }
    let as := [psAct 5000 (.db (.plain sampleEnq)), psAct 5000 (.db (.plain sampleEnq))] ++ psPull 6000 0 0 ++
      [psAct 6000 (.pull 0)]
    ((PgSys.init [d]).run sampleHash [d] as).runners.map PgRunner.inHand = [1] ∧
    ((PgSys.init [d]).run sampleHash [d] as).conc.pg.rows.map (·.status) = [.executing, .scheduled] := by
  decide

/-! ## C74 -/

/-- The moves of a stored job's status under runners on Postgres. -/
inductive PgRunnerMove (before after : Row) : Prop where
  | stays (h : after.status = before.status)
  | starts (h : before.status = .scheduled ∨ before.status = .retryable) (h' : after.status = .executing)
  | ends (h : before.status = .executing)
      (h' : after.status = .complete ∨ after.status = .cancelled ∨ after.status = .discarded ∨
        after.status = .retryable)
  | snoozedFirst (h : before.status = .executing) (ha : before.attempt = 1) (h' : after.status = .scheduled)

/-- **C74.** In every history of runners on Postgres, as long as other clients leave a
job alone, every step moves its status only along the documented lifecycle: it is
inserted `Scheduled`; it goes from `Scheduled` or `Retryable` to `Executing`, and from
there to `Complete`, `Cancelled`, `Discarded` or `Retryable`, or back to `Scheduled` if
this was its first attempt. -/
theorem C74_runner_lifecycle (hash : HashFn) (defs : List Runner) (as : List TPSAct) (a : TPSAct) (id : Int)
    (hq : OthersLeave id ((PgSys.init defs).trace hash defs (as ++ [a])))
    (r' : Row) (hr' : r' ∈ ((PgSys.init defs).run hash defs (as ++ [a])).conc.pg.rows) (hid' : r'.id = id) :
    ((∀ r ∈ ((PgSys.init defs).run hash defs as).conc.pg.rows, r.id ≠ id) ∧ r'.status = .scheduled) ∨
    ∃ r ∈ ((PgSys.init defs).run hash defs as).conc.pg.rows, r.id = id ∧ PgRunnerMove r r' := by
  have I := pgSysInv hash defs as
  rw [PgSys.trace_append] at hq
  have T := pTrack id hash defs as hq.left
  rw [PgSys.run_append] at hr'
  simp only [PgSys.run] at hr'
  have hs := c_step I.own I.reps.reportable hash defs a.tie a.now a.act id
    fun ev he ht => hq ⟨a.now, _⟩ (List.mem_append_right _ (by simp [PgSys.trace])) ev he ht
  generalize (PgSys.init defs).run hash defs as = s at *
  generalize (s.step hash defs a.tie a.now a.act).1 = ev at *
  generalize (s.step hash defs a.tie a.now a.act).2 = s' at *
  have quiet : ∀ b, (s.conc.step hash a.tie a.now b).1.touches id = false → s'.conc = (s.conc.step hash a.tie a.now b).2 →
      ((∀ r ∈ s.conc.pg.rows, r.id ≠ id) ∧ r'.status = .scheduled) ∨
      ∃ r ∈ s.conc.pg.rows, r.id = id ∧ PgRunnerMove r r' := by
    intro b ht hc
    rw [hc] at hr'
    rcases untouched_row I.inv I.hist ht hr' hid' with h | ⟨-, -, hn, e, t, key, hrow⟩
    · exact .inr ⟨r', h, hid', .stays rfl⟩
    · exact .inl ⟨fun r hr hrid => hn (mem_rowIds.mpr ⟨r, hr, hrid⟩), by rw [hrow]; rfl⟩
  cases hs with
  | away _ _ hsub hback hconc hend _ => rw [hconc] at hr'; exact .inr ⟨r', hr', hid', .stays rfl⟩
  | other _ _ b hsub hback hconc ht => exact quiet b ht hconc
  | taken r j st _ hid hhad hconc hnew => rw [hconc] at hr'; exact .inr ⟨r', hr', hid', .stays rfl⟩
  | ended r i t j d o _ hid ho hhad hconc hnew => rw [hconc] at hr'; exact .inr ⟨r', hr', hid', .stays rfl⟩
  | overflowed r i t j _ hid hhad hconc hsub => rw [hconc] at hr'; exact .inr ⟨r', hr', hid', .stays rfl⟩
  | handed k row res _ hev hid hconc hruns hnew =>
    obtain ⟨q, hq, hqid, hmem, y, t, -, hrd, he⟩ := handedOut_mem I.inv hev
    rw [hconc] at hr'
    have : r' = row := row_unique (I.inv.step hash a.tie a.now _).nodup hr' hmem (by rw [hid', hid])
    exact .inr ⟨q, hq, by rw [hqid, hid], .starts (ready_iff'.mp hrd).waiting (by rw [this, he]; rfl)⟩
  | reported r i t o _ hid hhad hnb hconc hsub =>
    have hrep := I.reps.reportable r (some i) t o hhad
    cases htt : (s.conc.step hash a.tie a.now (.stmt o)).1.touches id with
    | false => exact quiet _ htt hconc
    | true =>
      rw [hconc] at hr'
      rcases (table_step I.inv hash a.tie a.now (.stmt o)).back hr' with ⟨uc, he, -⟩ | ⟨q, hq, hqid, hm, -⟩
      · rw [he] at htt; cases htt
      · have hqid' : q.id = id := by rw [hqid, hid']
        have hx := (T.exec r (some i) _ hhad hid q hq hqid').1
        refine .inr ⟨q, hq, hqid', ?_⟩
        cases hm with
        | keep ht e => rw [hqid', htt] at ht; cases ht
        | handout x t res h hr e => obtain ⟨k, hk⟩ := handedOut_advance h; cases hk
        | replaced rep enq h e => exact .stays (by rw [e]; rfl)
        | complete h e => exact .ends hx (.inl (by rw [e]; rfl))
        | retryable next err h e => exact .ends hx (.inr (.inr (.inr (by rw [e]; rfl))))
        | discarded err h e => exact .ends hx (.inr (.inr (.inl (by rw [e]; rfl))))
        | cancelled err h e => exact .ends hx (.inr (.inl (by rw [e]; rfl)))
        | snoozed next h e =>
          by_cases h1 : q.attempt = 1
          · exact .snoozedFirst hx h1 (by rw [e]; simp [Row.markSnoozed, h1])
          · exact .ends hx (.inr (.inr (.inr (by rw [e]; simp [Row.markSnoozed, h1]))))
        | rerun h e =>
          exfalso
          rcases stmt_event s.conc hash a.tie a.now o with g | g | ⟨res, g⟩
          · rw [g] at h; cases h
          · rw [g] at h; cases h
          · rw [g] at h
            cases h
            rcases reportable_cases hrep with h | ⟨e, h⟩ | ⟨x, h⟩ | ⟨-, e, h⟩ | ⟨-, x, e, h⟩ <;> cases h
        | update job hj h e => exact .stays (by rw [e]; rfl)

/-- The last step of `pgTwoFailures` discards the job. -/
example :
    let ds := [sampleRunner, sampleRunner]
    (∀ e ∈ (PgSys.init ds).trace sampleHash ds pgTwoFailures, (match e.ev with
      | .db ev => !ev.touches 1 || ev.handsOut 1
      | _ => true) = true) ∧
    ((PgSys.init ds).run sampleHash ds (pgTwoFailures.take 21)).conc.pg.rows.map (·.status) = [.executing] ∧
    ((PgSys.init ds).run sampleHash ds (pgTwoFailures.take 22)).conc.pg.rows.map (·.status) = [.discarded] := by
  decide

/-! ## C76 -/

/-- **C76.** In every history of any number of runners on any number of nodes, as long
as other clients leave a job alone, at most one runner has it: at most one execution of
it is in flight anywhere, and meanwhile no other stream is given it. -/
theorem C76_one_execution (hash : HashFn) (defs : List Runner) (as : List TPSAct) (id : Int)
    (hq : OthersLeave id ((PgSys.init defs).trace hash defs as)) (r r' : Nat) (rs rs' : PgRunner)
    (hr : ((PgSys.init defs).run hash defs as).runners[r]? = some rs)
    (hr' : ((PgSys.init defs).run hash defs as).runners[r']? = some rs') (i : Nat) (f : Flight)
    (hf : rs.flights[i]? = some (some f)) (hid : f.task.id = id) :
    (∀ (i' : Nat) (f' : Flight), rs'.flights[i']? = some (some f') → f'.task.id = id → r = r' ∧ i = i') ∧
    (∀ (k : Nat) (j : Job), rs'.loading = some k →
      ((PgSys.init defs).run hash defs as).conc.sessions[k]? = some (.done (.job (some j))) → j.id ≠ id) ∧
    (∀ row ∈ ((PgSys.init defs).run hash defs as).conc.pg.rows, row.id = id → row.status = .executing) := by
  have T := pTrack id hash defs as hq
  have hc : ((PgSys.init defs).run hash defs as).carrier r (some i) = some (.flight f) := by
    rw [carrier_of hr]; simp [PgRunner.slot, hf]
  refine ⟨fun i' f' hf' hid' => ?_, fun k j hl hs hj => ?_, fun row hrow hrid => (T.exec r (some i) _ hc hid row hrow hrid).1⟩
  · have hc' : ((PgSys.init defs).run hash defs as).carrier r' (some i') = some (.flight f') := by
      rw [carrier_of hr']; simp [PgRunner.slot, hf']
    have := T.one r (some i) _ r' (some i') _ hc hid hc' hid'
    exact ⟨this.1, Option.some.inj this.2⟩
  · have hc' : ((PgSys.init defs).run hash defs as).carrier r' none = some (.loaded j) := by
      rw [carrier_of hr']; exact slot_loaded hl hs
    have := T.one r (some i) _ r' none _ hc hid hc' hj
    cases this.2

/-- Node 1 executes the job of the examples while node 0 asks in vain. -/
example :
    let ds := [sampleRunner, sampleRunner]
    let as := pgTwoFailures.take 8 ++ psPull (11 * sec) 1 1 ++ psPull (12 * sec) 0 2
    (∀ e ∈ (PgSys.init ds).trace sampleHash ds as, (match e.ev with
      | .db ev => !ev.touches 1 || ev.handsOut 1
      | _ => true) = true) ∧
    ((PgSys.init ds).run sampleHash ds as).runners.map (fun rs => rs.flights.map fun f => f.map (·.task.id)) =
      [[none], [some 1]] := by
  decide

/-! ## C75 -/

/-- Runner `r` takes no more jobs. -/
def PgStopped (s : PgSys) (r : Nat) : Prop :=
  ∀ rs : PgRunner, s.runners[r]? = some rs → rs.polling = false ∧ rs.loading = none

/-- the runners where `r` has stopped -/
private def PgSys.quiet (s : PgSys) (r : Nat) : PgSys :=
  { s with runners := s.runners.modify r fun rs => { rs with polling := false, loading := none } }

private theorem stop_quiet (hash : HashFn) (defs : List Runner) (tie : Int → Nat) (now : Time) (s : PgSys) (r : Nat) :
    (s.step hash defs tie now (.stop r)).2 = s.quiet r := by
  simp only [PgSys.step, PgSys.quiet]
  split
  · rename_i rs hr
    simp only [PgSys.mk.injEq, true_and]
    apply List.ext_getElem?
    intro i
    simp only [List.getElem?_set, List.getElem?_modify]
    split
    · rename_i hi; subst hi
      rw [hr]
      simp [(List.getElem?_eq_some_iff.mp hr).1]
    · simp
  · rename_i hr
    cases s with
    | mk c rs =>
      simp only [PgSys.mk.injEq, true_and]
      apply List.ext_getElem?
      intro i
      simp only [List.getElem?_modify]
      split
      · rename_i hi; subst hi; simp only at hr; rw [hr]; rfl
      · simp

private theorem stopped_set {s : PgSys} {r q : Nat} {qs qs' : PgRunner} (h : PgStopped s r) (hq : s.runners[q]? = some qs)
    (hqs : qs.polling = false ∧ qs.loading = none → qs'.polling = false ∧ qs'.loading = none) (c : PgConc) :
    PgStopped ⟨c, s.runners.set q qs'⟩ r := by
  intro rs hr
  by_cases hqr : q = r
  · subst hqr
    simp only [List.getElem?_set, if_true, (List.getElem?_eq_some_iff.mp hq).1] at hr
    cases hr
    exact hqs (h qs hq)
  · simp only [List.getElem?_set, if_neg hqr] at hr
    exact h rs hr

private theorem stopped_set_ne {s : PgSys} {r q : Nat} (h : PgStopped s r) (hne : q ≠ r) (qs' : PgRunner) (c : PgConc) :
    PgStopped ⟨c, s.runners.set q qs'⟩ r := by
  intro rs hr
  simp only [List.getElem?_set, if_neg hne] at hr
  exact h rs hr

theorem pgStopped_step (hash : HashFn) (defs : List Runner) (tie : Int → Nat) (now : Time) {s : PgSys} {r : Nat}
    (h : PgStopped s r) (a : PSAct) :
    PgStopped (s.step hash defs tie now a).2 r ∧ (s.step hash defs tie now a).1 ≠ .pulled r ∧
      ∀ res st, (s.step hash defs tie now a).1 ≠ .took r res st := by
  cases a with
  | db b => exact ⟨h, by simp [PgSys.step], by simp [PgSys.step]⟩
  | pull q =>
    simp only [PgSys.step]
    split
    · rename_i d qs hd hq
      split
      · rename_i hc
        have hne : q ≠ r := by
          rintro rfl
          rw [(h qs hq).1] at hc
          simp at hc
        exact ⟨stopped_set_ne h hne _ _, by simp [hne], by simp⟩
      · exact ⟨h, by simp, by simp⟩
    · exact ⟨h, by simp, by simp⟩
  | take q =>
    simp only [PgSys.step]
    split
    · rename_i d qs hd hq
      split
      · rename_i j hj
        have hne : q ≠ r := by
          rintro rfl
          rw [(h qs hq).2] at hj
          simp at hj
        exact ⟨stopped_set_ne h hne _ _, by simp, by simp [hne]⟩
      · rename_i res hnj hj
        have hne : q ≠ r := by
          rintro rfl
          rw [(h qs hq).2] at hj
          simp at hj
        exact ⟨stopped_set_ne h hne _ _, by simp, by simp [hne]⟩
      · exact ⟨h, by simp, by simp⟩
    · exact ⟨h, by simp, by simp⟩
  | drop q =>
    simp only [PgSys.step]
    split
    · rename_i qs hq
      exact ⟨by refine stopped_set h hq ?_ _; exact fun x => ⟨x.1, rfl⟩, by simp, by simp⟩
    · exact ⟨h, by simp, by simp⟩
  | finish q i b =>
    simp only [PgSys.step]
    split
    · rename_i d qs hd hq
      split
      · split
        · exact ⟨h, by simp, by simp⟩
        · split
          · exact ⟨by refine stopped_set h hq ?_ _; exact fun x => x, by simp, by simp⟩
          · exact ⟨stopped_set h hq (fun x => ⟨rfl, rfl⟩) _, by simp, by simp⟩
      · exact ⟨h, by simp, by simp⟩
    · exact ⟨h, by simp, by simp⟩
  | report q i =>
    simp only [PgSys.step]
    split
    · rename_i qs hq
      split
      · split
        · exact ⟨h, by simp, by simp⟩
        · exact ⟨by refine stopped_set h hq ?_ _; exact fun x => x, by simp, by simp⟩
      · exact ⟨h, by simp, by simp⟩
    · exact ⟨h, by simp, by simp⟩
  | lose q i =>
    simp only [PgSys.step]
    split
    · rename_i qs hq
      split
      · exact ⟨by refine stopped_set h hq ?_ _; exact fun x => x, by simp, by simp⟩
      · exact ⟨h, by simp, by simp⟩
    · exact ⟨h, by simp, by simp⟩
  | stop q =>
    simp only [PgSys.step]
    split
    · rename_i qs hq
      exact ⟨stopped_set h hq (fun x => ⟨rfl, rfl⟩) _, by simp, by simp⟩
    · exact ⟨h, by simp, by simp⟩
  | kill q =>
    simp only [PgSys.step]
    split
    · rename_i qs hq
      exact ⟨stopped_set h hq (fun x => ⟨rfl, rfl⟩) _, by simp, by simp⟩
    · exact ⟨h, by simp, by simp⟩

/-- **C75.** Once a runner on Postgres has noticed that it was told to stop, in every
continuation it sends no further hand-out statement and starts no further execution.
Missing: a poll of the stream under way when the runner is told, which can still take a
job (`C75_violated`). -/
theorem C75_nothing_started_partial (hash : HashFn) (defs : List Runner) (s : PgSys) (a : TPSAct) (r : Nat)
    (ha : a.act = .stop r) (bs : List TPSAct) :
    ∀ e ∈ (s.run hash defs [a]).trace hash defs bs, e.ev ≠ .pulled r ∧ ∀ res st, e.ev ≠ .took r res st := by
  have h0 : PgStopped (s.run hash defs [a]) r := by
    simp only [PgSys.run]
    rw [ha, stop_quiet]
    intro rs hr
    simp only [PgSys.quiet, List.getElem?_modify, if_true] at hr
    obtain ⟨q, -, rfl⟩ := Option.map_eq_some_iff.mp hr
    exact ⟨rfl, rfl⟩
  generalize s.run hash defs [a] = s' at h0
  induction bs generalizing s' with
  | nil => simp [PgSys.trace]
  | cons b bs ih =>
    intro e he
    have := pgStopped_step hash defs b.tie b.now h0 b.act
    rcases List.mem_cons.mp he with rfl | he
    · exact this.2
    · exact ih _ this.1 e he

/-- Is this an action by which runner `r` gets more work or stops? -/
def PSAct.asks (r : Nat) : PSAct → Bool
  | .pull q | .take q | .drop q | .stop q => q == r
  | _ => false

private theorem quiet_get (s : PgSys) (r q : Nat) : (s.quiet r).runners[q]? =
    (s.runners[q]?).map fun rs => if r = q then { rs with polling := false, loading := none } else rs := by
  simp only [PgSys.quiet, List.getElem?_modify]
  split <;> simp

private theorem quiet_set (c : PgConc) (l : List PgRunner) (r q : Nat) (x : PgRunner) :
    PgSys.quiet ⟨c, l.set q x⟩ r = ⟨c, (l.modify r fun rs => { rs with polling := false, loading := none }).set q
      (if r = q then { x with polling := false, loading := none } else x)⟩ := by
  simp only [PgSys.quiet, PgSys.mk.injEq, true_and]
  apply List.ext_getElem?
  intro i
  simp only [List.getElem?_set, List.getElem?_modify, List.length_modify]
  by_cases h1 : q = i
  · subst h1
    simp only [if_true]
    by_cases h2 : r = q
    · subst h2; split <;> simp
    · simp [h2]
  · simp [h1]

private theorem quiet_step (hash : HashFn) (defs : List Runner) (tie : Int → Nat) (now : Time) (s : PgSys) (r : Nat)
    (a : PSAct) (ha : a.asks r = false) :
    (s.quiet r).step hash defs tie now a = ((s.step hash defs tie now a).1, (s.step hash defs tie now a).2.quiet r) := by
  have hc : (s.quiet r).conc = s.conc := rfl
  cases a with
  | db b => rfl
  | pull q =>
    have hne : ¬ r = q := by rintro rfl; simp [PSAct.asks] at ha
    simp only [PgSys.step, quiet_get, hc]
    cases defs[q]? <;> cases s.runners[q]? <;> try rfl
    simp only [Option.map_some, if_neg hne]
    split
    · simp only [quiet_set, if_neg hne]; rfl
    · rfl
  | take q =>
    have hne : ¬ r = q := by rintro rfl; simp [PSAct.asks] at ha
    simp only [PgSys.step, quiet_get, hc]
    cases defs[q]? <;> cases s.runners[q]? <;> try rfl
    simp only [Option.map_some, if_neg hne]
    split
    · simp only [quiet_set, if_neg hne]; rfl
    · simp only [quiet_set, if_neg hne]; rfl
    · rfl
  | drop q =>
    have hne : ¬ r = q := by rintro rfl; simp [PSAct.asks] at ha
    simp only [PgSys.step, quiet_get]
    cases s.runners[q]? <;> try rfl
    simp only [Option.map_some, if_neg hne, quiet_set]; rfl
  | stop q =>
    have hne : ¬ r = q := by rintro rfl; simp [PSAct.asks] at ha
    simp only [PgSys.step, quiet_get]
    cases s.runners[q]? <;> try rfl
    simp only [Option.map_some, if_neg hne, quiet_set]; rfl
  | finish q i b =>
    simp only [PgSys.step, quiet_get]
    cases defs[q]? <;> cases s.runners[q]? <;> try rfl
    rename_i d qs
    simp only [Option.map_some]
    have hf : (if r = q then ({ qs with polling := false, loading := none } : PgRunner) else qs).flights = qs.flights := by
      split <;> rfl
    rw [hf]
    split
    · split
      · rfl
      · split
        · simp only [quiet_set]; by_cases h : r = q <;> simp [h, PgSys.quiet]
        · simp only [quiet_set]; by_cases h : r = q <;> simp [h, PgSys.quiet, PgRunner.crash]
    · rfl
  | report q i =>
    simp only [PgSys.step, quiet_get, hc]
    cases s.runners[q]? <;> try rfl
    rename_i qs
    simp only [Option.map_some]
    have hf : (if r = q then ({ qs with polling := false, loading := none } : PgRunner) else qs).flights = qs.flights := by
      split <;> rfl
    rw [hf]
    split
    · split
      · rfl
      · simp only [quiet_set]; by_cases h : r = q <;> simp [h, PgSys.quiet]
    · rfl
  | lose q i =>
    simp only [PgSys.step, quiet_get]
    cases s.runners[q]? <;> try rfl
    rename_i qs
    simp only [Option.map_some]
    have hf : (if r = q then ({ qs with polling := false, loading := none } : PgRunner) else qs).flights = qs.flights := by
      split <;> rfl
    rw [hf]
    split
    · simp only [quiet_set]; by_cases h : r = q <;> simp [h, PgSys.quiet]
    · rfl
  | kill q =>
    simp only [PgSys.step, quiet_get]
    cases s.runners[q]? <;> try rfl
    simp only [Option.map_some, quiet_set]
    by_cases h : r = q <;> simp [h, PgSys.quiet, PgRunner.crash]

/-- **C75, executions in flight.** Telling a runner to stop does not affect the executions
it has in flight: in every continuation that the runner could also have gone through
without new work, the same things happen with and without the stop, the database ends up
the same, and so do the executions in flight at every runner. -/
theorem C75_in_flight_go_on (hash : HashFn) (defs : List Runner) (s : PgSys) (a : TPSAct) (r : Nat)
    (ha : a.act = .stop r) (bs : List TPSAct) (hb : ∀ b ∈ bs, b.act.asks r = false) :
    (s.run hash defs [a]).trace hash defs bs = s.trace hash defs bs ∧
    (s.run hash defs (a :: bs)).conc = (s.run hash defs bs).conc ∧
    (s.run hash defs (a :: bs)).runners.map (·.flights) = (s.run hash defs bs).runners.map (·.flights) := by
  have key : ∀ (bs : List TPSAct) (s : PgSys), (∀ b ∈ bs, b.act.asks r = false) →
      (s.quiet r).trace hash defs bs = s.trace hash defs bs ∧ (s.quiet r).run hash defs bs = (s.run hash defs bs).quiet r := by
    intro bs
    induction bs with
    | nil => exact fun s _ => ⟨rfl, rfl⟩
    | cons b bs ih =>
      intro s h
      have hs := quiet_step hash defs b.tie b.now s r b.act (h b (List.mem_cons_self ..))
      have := ih (s.step hash defs b.tie b.now b.act).2 (fun x hx => h x (List.mem_cons_of_mem _ hx))
      simp only [PgSys.trace, PgSys.run, hs, this.1, this.2, and_self]
  simp only [PgSys.run, ha, stop_quiet]
  obtain ⟨h1, h2⟩ := key bs s hb
  refine ⟨h1, by rw [h2]; rfl, ?_⟩
  rw [h2]
  apply List.ext_getElem?
  intro i
  simp only [List.getElem?_map, quiet_get, Option.map_map]
  congr 1
  funext rs
  simp only [Function.comp]
  split <;> rfl

/-- A runner told to stop during an execution lets it end and records it, and then does
not ask for the second job. -/
example :
    let ds := [sampleRunner]
    let s := (PgSys.init ds).run sampleHash ds ([psAct 5000 (.db (.plain sampleEnq)),
      psAct 5000 (.db (.plain sampleEnq))] ++ psPull 6000 0 0)
    let bs := [psAct 7000 (.finish 0 0 { ending := .returns .done }), psAct 7000 (.report 0 0)]
    (∀ b ∈ bs, b.act.asks 0 = false) ∧
    (s.run sampleHash ds (psAct 6000 (.stop 0) :: bs ++ [psAct 8000 (.pull 0)])).conc.pg.rows.map (·.status) =
      [.complete, .scheduled] ∧
    (s.run sampleHash ds (bs ++ [psAct 8000 (.pull 0)])).runners.map (·.loading.isSome) = [true] ∧
    (s.run sampleHash ds (psAct 6000 (.stop 0) :: bs ++ [psAct 8000 (.pull 0)])).runners.map (·.loading.isSome) =
      [false] := by
  decide

end Rexecutor
