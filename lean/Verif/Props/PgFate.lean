import Verif.Props.PgLifecycle

/-! # C78, C79, C80: cancelling, crashes and the number of executions on Postgres -/

namespace Rexecutor

/-! ## C79 -/

/-- A row that no event makes available is not handed out. -/
private theorem never_handed {hash : HashFn} {h : List TPgEv} {c : PgConc} {id : Int} (H : PgInv c) (I : PgHist h c)
    (hid : id ∈ pgInserted h) (P : Row → Prop) (ok : PgEv → Prop)
    (hmove : ∀ now ev r r', r.id = id → RowMove now ev r r' → ok ev → P r → P r')
    (hstuck : ∀ r, P r → r.status ≠ .scheduled ∧ r.status ≠ .retryable) (as : List TPgAct)
    (hok : ∀ e ∈ c.history hash as, ok e.ev) (hp : ∀ r ∈ c.pg.rows, r.id = id → P r) :
    ∀ e ∈ c.history hash as, e.ev.handsOut id = false := by
  intro e he
  obtain ⟨pre, post, h1⟩ := List.append_of_mem he
  obtain ⟨as₁, a, as₂, rfl, g1, g2, -⟩ := PgConc.history_split h1
  have hall := follow_row H I hid P ok hmove as₁
    (fun e he => hok e (by rw [h1, ← g1]; exact List.mem_append_left _ he)) hp
  cases hh : e.ev.handsOut id with
  | false => rfl
  | true =>
    exfalso
    have g3 := congrArg TPgEv.ev g2
    cases hev : e.ev with
    | handedOut row res =>
      rw [hev] at hh g3
      simp only [PgEv.handsOut, beq_iff_eq] at hh
      obtain ⟨r, hr, hrid, -, x, t, -, hrd, -⟩ := handedOut_mem (H.run hash as₁) g3.symm
      have hs := hstuck r (hall r hr (by rw [hrid, hh]))
      rcases (ready_iff'.mp hrd).waiting with h | h
      · exact hs.1 h
      · exact hs.2 h
    | _ => rw [hev] at hh; cases hh

/-- **C79.** Take any history of the database in which a job is handed out to a stream,
whatever the stream makes of the answer. In every continuation in which nobody completes,
retries, discards, cancels, snoozes, reruns or updates the job and no uniqueness conflict
replaces parts of it (its outcome is never recorded), no node is handed it again and, unless
pruned, it is still stored exactly as it was handed out: `Executing`, with the attempt
used. -/
theorem C79_crash (hash : HashFn) (as : List TPgAct) (pre post : List TPgEv) (now : Time) (row : Row) (res : Res)
    (h : PgConc.history hash {} as = pre ++ ⟨now, .handedOut row res⟩ :: post)
    (hc : ∀ e ∈ post, e.ev.finishes row.id = false ∧ e.ev.retries row.id = false ∧ e.ev.snoozes row.id = false ∧
      e.ev.reruns row.id = false ∧ e.ev.edits row.id = false) :
    (∀ e ∈ post, e.ev.handsOut row.id = false) ∧
    (∀ r ∈ (PgConc.run hash {} as).pg.rows, r.id = row.id → r = row) ∧ row.status = .executing := by
  obtain ⟨as₁, a, as₂, rfl, g1, g2, g3⟩ := PgConc.history_split h
  have H := pgInv hash as₁
  have H' := H.step hash a.tie a.now a.act
  have I' := (pgHist hash as₁).step H hash a.tie a.now a.act
  have hev := (congrArg TPgEv.ev g2).symm
  obtain ⟨r₀, hr₀, hid₀, hmem, x, t, -, -, hrow⟩ := handedOut_mem H hev
  have hst : row.status = .executing := by rw [hrow]; rfl
  have hin := I'.ids row hmem
  have hp : ∀ r ∈ ((PgConc.run hash {} as₁).step hash a.tie a.now a.act).2.pg.rows, r.id = row.id → r = row :=
    fun r hr hid => row_unique H'.nodup hr hmem hid
  have hmove : ∀ (now : Time) (ev : PgEv) (r r' : Row), r.id = row.id → RowMove now ev r r' →
      (ev.finishes row.id = false ∧ ev.retries row.id = false ∧ ev.snoozes row.id = false ∧
        ev.reruns row.id = false ∧ ev.edits row.id = false) → r = row → r' = row := by
    intro now ev r r' hid hm hok hr
    subst hr
    cases hm with
    | keep ht e => exact e
    | handout x t res he hrd e =>
      exfalso
      rcases (ready_iff'.mp hrd).waiting with h | h <;> rw [hst] at h <;> cases h
    | replaced rep enq he e => rw [he] at hok; simp [PgEv.edits] at hok
    | complete he e => rw [he] at hok; simp [PgEv.finishes] at hok
    | retryable next err he e => rw [he] at hok; simp [PgEv.retries] at hok
    | discarded err he e => rw [he] at hok; simp [PgEv.finishes] at hok
    | cancelled err he e => rw [he] at hok; simp [PgEv.finishes] at hok
    | snoozed next he e => rw [he] at hok; simp [PgEv.snoozes] at hok
    | rerun he e => rw [he] at hok; simp [PgEv.reruns] at hok
    | update job hid he e => rw [he] at hok; simp [PgEv.edits, hid] at hok
  refine ⟨?_, ?_, hst⟩
  · rw [← g3] at hc ⊢
    refine never_handed H' I' hin (fun r => r = row) _ hmove ?_ as₂ hc hp
    rintro r rfl
    rw [hst]; decide
  · rw [PgConc.run_append]
    simp only [PgConc.run]
    rw [← g3] at hc
    exact follow_row H' I' hin (fun r => r = row) _ hmove as₂ hc hp

/-- A history in which job 1 is handed out and nothing more is heard of it, though another
node asks. -/
def crashHistory : List TPgAct :=
  [pgAct 5000 (.plain sampleEnq), pgAct 6000 (.handout "mail"), pgAct 6000 (.advance 0), pgAct 6000 (.advance 0),
    pgAct 6000 (.advance 0), pgAct (99 * sec) (.handout "mail"), pgAct (99 * sec) (.advance 1),
    pgAct (99 * sec) (.advance 1)]

example : (PgConc.run sampleHash {} crashHistory).pg.rows.map (fun r => (r.id, r.status, r.attempt)) = [(1, .executing, 1)] ∧
    (PgConc.history sampleHash {} crashHistory).map (fun e => e.ev.handsOut 1) =
      [false, false, false, false, true, false, false, false] := by decide

/-- A step that leaves the database alone and after which nobody has the job. -/
private theorem gone_for_good (hash : HashFn) (defs : List Runner) (as bs : List TPSAct) (a : TPSAct) (r : Nat) (x : Option Nat)
    (c : Carrier) (hhad : ((PgSys.init defs).run hash defs as).carrier r x = some c)
    (hq : OthersLeave c.id ((PgSys.init defs).trace hash defs (as ++ a :: bs)))
    (hconc : (((PgSys.init defs).run hash defs as).step hash defs a.tie a.now a.act).2.conc = ((PgSys.init defs).run hash defs as).conc)
    (hx : (((PgSys.init defs).run hash defs as).step hash defs a.tie a.now a.act).1.executes c.id = false)
    (hsub : ∀ q y d, (((PgSys.init defs).run hash defs as).step hash defs a.tie a.now a.act).2.carrier q y = some d →
      ((PgSys.init defs).run hash defs as).carrier q y = some d ∧ (q, y) ≠ (r, x)) :
    ∀ r₀ ∈ ((PgSys.init defs).run hash defs as).conc.pg.rows, r₀.id = c.id → r₀.status = .executing ∧
      (∀ q ∈ ((PgSys.init defs).run hash defs (as ++ a :: bs)).conc.pg.rows, q.id = c.id → q = r₀) ∧
      ∀ e ∈ ((PgSys.init defs).run hash defs as).trace hash defs (a :: bs), e.ev.executes c.id = false := by
  intro r₀ hr₀ hid
  have hq' := hq
  rw [PgSys.trace_append] at hq
  have T := pTrack c.id hash defs as hq.left
  have hex := (T.exec r x c hhad rfl r₀ hr₀ hid).1
  refine ⟨hex, ?_⟩
  have hrun : (PgSys.init defs).run hash defs (as ++ [a]) =
      (((PgSys.init defs).run hash defs as).step hash defs a.tie a.now a.act).2 := by
    rw [PgSys.run_append]; rfl
  have hno : ¬ ((PgSys.init defs).run hash defs (as ++ [a])).hasJob r₀.id := by
    rw [hasJob_iff, hrun]
    rintro ⟨q, y, d, h1, h2⟩
    obtain ⟨h3, h4⟩ := hsub q y d h1
    obtain ⟨rfl, rfl⟩ := T.one q y d r x c h3 (h2.trans hid) hhad rfl
    exact h4 rfl
  have := kept_for_good hash defs (as ++ [a]) bs r₀ (by rw [hrun, hconc]; exact hr₀) (by rw [hex]; decide) hno (by
    intro e he
    rw [hid]
    refine hq' e ?_
    rw [show as ++ a :: bs = (as ++ [a]) ++ bs by simp, PgSys.trace_append]
    exact List.mem_append_right _ he)
  rw [hid] at this
  refine ⟨fun q hq1 hq2 => this.1 q (by rw [show (as ++ [a]) ++ bs = as ++ a :: bs by simp]; exact hq1) hq2, ?_⟩
  intro e he
  simp only [PgSys.trace, List.mem_cons] at he
  rcases he with rfl | he
  · exact hx
  · exact this.2.2 e (by rw [hrun]; exact he)

/-- **C79, the process ends.** A runner has an execution of a job in flight, and its process
ends. If other clients leave the job alone, then at that moment it is stored as `Executing`,
and in every continuation no runner executes it and, unless pruned, its record stays as it
is. -/
theorem C79_process_ends (hash : HashFn) (defs : List Runner) (as bs : List TPSAct) (t : Time) (tie : Int → Nat)
    (r : Nat) (rs : PgRunner) (f : Flight)
    (hr : ((PgSys.init defs).run hash defs as).runners[r]? = some rs) (hf : some f ∈ rs.flights)
    (hq : OthersLeave f.task.id ((PgSys.init defs).trace hash defs (as ++ ⟨t, tie, .kill r⟩ :: bs))) :
    ∀ r₀ ∈ ((PgSys.init defs).run hash defs as).conc.pg.rows, r₀.id = f.task.id → r₀.status = .executing ∧
      (∀ q ∈ ((PgSys.init defs).run hash defs (as ++ ⟨t, tie, .kill r⟩ :: bs)).conc.pg.rows, q.id = f.task.id → q = r₀) ∧
      ∀ e ∈ ((PgSys.init defs).run hash defs as).trace hash defs (⟨t, tie, .kill r⟩ :: bs), e.ev.executes f.task.id = false := by
  obtain ⟨i, hi⟩ := List.getElem?_of_mem hf
  have hc : ((PgSys.init defs).run hash defs as).carrier r (some i) = some (.flight f) := by
    rw [carrier_of hr]; simp [PgRunner.slot, hi]
  have hstep : ((PgSys.init defs).run hash defs as).step hash defs tie t (.kill r) =
      (.killed r, { ((PgSys.init defs).run hash defs as) with
        runners := ((PgSys.init defs).run hash defs as).runners.set r rs.crash }) := by
    simp only [PgSys.step, hr]
  refine gone_for_good hash defs as bs ⟨t, tie, .kill r⟩ r (some i) (.flight f) hc hq ?_ ?_ ?_
  · simp only [hstep]
  · simp only [hstep]; rfl
  · simp only [hstep]
    intro q y d h
    rw [carrier_set hr] at h
    split at h
    · rw [slot_crash] at h; cases h
    · rename_i hne; exact ⟨h, fun he => hne (by cases he; rfl)⟩

/-- **C79, the connection fails.** The same if the backend call that reports the execution
fails. -/
theorem C79_report_lost (hash : HashFn) (defs : List Runner) (as bs : List TPSAct) (t : Time) (tie : Int → Nat)
    (r i : Nat) (rs : PgRunner) (k : Task) (o : Op)
    (hr : ((PgSys.init defs).run hash defs as).runners[r]? = some rs) (hf : rs.flights[i]? = some (some ⟨k, .reporting o⟩))
    (hq : OthersLeave k.id ((PgSys.init defs).trace hash defs (as ++ ⟨t, tie, .lose r i⟩ :: bs))) :
    ∀ r₀ ∈ ((PgSys.init defs).run hash defs as).conc.pg.rows, r₀.id = k.id → r₀.status = .executing ∧
      (∀ q ∈ ((PgSys.init defs).run hash defs (as ++ ⟨t, tie, .lose r i⟩ :: bs)).conc.pg.rows, q.id = k.id → q = r₀) ∧
      ∀ e ∈ ((PgSys.init defs).run hash defs as).trace hash defs (⟨t, tie, .lose r i⟩ :: bs), e.ev.executes k.id = false := by
  have hc : ((PgSys.init defs).run hash defs as).carrier r (some i) = some (.flight ⟨k, .reporting o⟩) := by
    rw [carrier_of hr]; simp [PgRunner.slot, hf]
  have hstep : ((PgSys.init defs).run hash defs as).step hash defs tie t (.lose r i) =
      (.lost r k, { ((PgSys.init defs).run hash defs as) with
        runners := ((PgSys.init defs).run hash defs as).runners.set r { rs with flights := rs.flights.set i none } }) := by
    simp only [PgSys.step, hr, hf]
  refine gone_for_good hash defs as bs ⟨t, tie, .lose r i⟩ r (some i) (.flight ⟨k, .reporting o⟩) hc hq ?_ ?_ ?_
  · simp only [hstep]
  · simp only [hstep]; rfl
  · simp only [hstep]
    intro q y d h
    rw [carrier_set hr] at h
    split at h
    · rename_i hqr; subst hqr
      rw [slot_set hf] at h
      split at h
      · cases h
      · rename_i hne; exact ⟨by rw [carrier_of hr]; exact h, fun he => hne (by cases he; rfl)⟩
    · rename_i hne; exact ⟨h, fun he => hne (by cases he; rfl)⟩

/-- A runner executes job 1 when its process ends, or when its report is lost; another runner
asks for jobs afterwards. -/
example :
    let ds := [sampleRunner, sampleRunner]
    let as := [psAct 5000 (.db (.plain sampleEnq))] ++ psPull 6000 0 0
    let s := (PgSys.init ds).run sampleHash ds as
    let bs := psPull (9 * sec) 1 1
    s.conc.pg.rows.map (fun r => (r.id, r.status)) = [(1, .executing)] ∧
    s.runners.map (fun rs => rs.flights.map fun f => f.map (·.task.id)) = [[some 1], []] ∧
    (∀ e ∈ (PgSys.init ds).trace sampleHash ds (as ++ psAct 7000 (.kill 0) :: bs), (match e.ev with
      | .db ev => !ev.touches 1 || ev.handsOut 1
      | _ => true) = true) ∧
    (s.run sampleHash ds (psAct 7000 (.kill 0) :: bs)).conc.pg.rows.map (fun r => (r.id, r.status)) = [(1, .executing)] ∧
    (s.run sampleHash ds [psAct 7000 (.finish 0 0 { ending := .returns .done }), psAct 7000 (.lose 0 0)]).conc.pg.rows.map
      (fun r => (r.id, r.status)) = [(1, .executing)] := by
  decide

/-! ## C78 -/

/-- **C78, first half.** A job cancelled before it was ever handed out is never handed
out, on any node and in any continuation, unless it is retried, snoozed or rerun after the
cancellation. -/
theorem C78_cancel_before_start (hash : HashFn) (as : List TPgAct) (id : Int) (pre post : List TPgEv) (now : Time) (err : ExecError)
    (h : PgConc.history hash {} as = pre ++ ⟨now, .stmt (.cancelled id err) .unit⟩ :: post)
    (hpre : ∀ e ∈ pre, e.ev.handsOut id = false)
    (hc : ∀ e ∈ post, e.ev.retries id = false ∧ e.ev.snoozes id = false ∧ e.ev.reruns id = false) :
    ∀ e ∈ PgConc.history hash {} as, e.ev.handsOut id = false := by
  intro e he
  rw [h] at he
  rcases List.mem_append.mp he with he | he
  · exact hpre e he
  · rcases List.mem_cons.mp he with rfl | he
    · rfl
    · obtain ⟨mid, post', rfl⟩ := List.append_of_mem he
      refine C65_finished_not_handed_out hash as id pre mid post' _ e h (by simp [PgEv.finishes]) ?_
      intro e' he'
      obtain ⟨h1, h2, h3⟩ := hc e' (List.mem_append_left _ he')
      cases hev : e'.ev <;> rw [hev] at h1 h2 h3 <;> try rfl
      rename_i o res
      cases o <;> cases res <;> first | rfl | simp_all [PgEv.putsBack, PgEv.retries, PgEv.snoozes, PgEv.reruns]

example : (PgConc.history sampleHash {} (cancelHistory.take 6)).map (fun e => (e.ev.cancels 1, e.ev.handsOut 1)) =
    [(false, false), (true, false), (false, false), (false, false), (false, false), (false, false)] := by decide

/-- A job is cancelled while a runner executes it, which then completes. -/
def pgCancelWhileExecuting : List TPSAct :=
  [psAct 5000 (.db (.plain sampleEnq))] ++ psPull 6000 0 0 ++
  [psAct 7000 (.db (.stmt (.cancelled 1 { errorType := .cancelled, message := "no longer needed" }))),
    psAct 8000 (.finish 0 0 { ending := .returns .done }), psAct 9000 (.report 0 0)]

/-- **C78, second half: violated.** The runner's report overwrites the cancellation. -/
theorem C78_violated :
    ((PgSys.init [sampleRunner]).run sampleHash [sampleRunner] (pgCancelWhileExecuting.take 7)).conc.pg.rows.map
      (fun r => (r.id, r.status)) = [(1, .cancelled)] ∧
    ((PgSys.init [sampleRunner]).run sampleHash [sampleRunner] pgCancelWhileExecuting).conc.pg.rows.map
      (fun r => (r.id, r.status, r.cancelledAt, r.completedAt)) = [(1, .complete, some 7000, some 9000)] := by
  decide

/-- **C78, what holds instead of the second half.** Once a job is stored as `Cancelled` (or
as `Complete` or `Discarded`) and no runner has it, it keeps its record and is never
executed again, in every continuation in which other clients leave it alone. Missing: a
cancellation made while a runner has the job, see `C78_violated`. -/
theorem C78_stays_cancelled_partial (hash : HashFn) (defs : List Runner) (as bs : List TPSAct) (r₀ : Row)
    (hrow : r₀ ∈ ((PgSys.init defs).run hash defs as).conc.pg.rows)
    (hs : r₀.status = .cancelled ∨ r₀.status = .complete ∨ r₀.status = .discarded)
    (hno : ¬ ((PgSys.init defs).run hash defs as).hasJob r₀.id)
    (hq : OthersLeave r₀.id (((PgSys.init defs).run hash defs as).trace hash defs bs)) :
    (∀ r ∈ ((PgSys.init defs).run hash defs (as ++ bs)).conc.pg.rows, r.id = r₀.id → r = r₀) ∧
    ∀ e ∈ ((PgSys.init defs).run hash defs as).trace hash defs bs, e.ev.executes r₀.id = false := by
  have := kept_for_good hash defs as bs r₀ hrow (by rcases hs with h | h | h <;> rw [h] <;> decide) hno hq
  exact ⟨this.1, this.2.2⟩

/-- A job cancelled by its execution; afterwards runners ask for jobs. -/
def pgCancelled : List TPSAct :=
  [psAct 5000 (.db (.plain sampleEnq))] ++ psPull 6000 0 0 ++
  [psAct 8000 (.finish 0 0 { ending := .returns (.cancel "no") }), psAct 9000 (.report 0 0)]

example :
    ((PgSys.init [sampleRunner]).run sampleHash [sampleRunner] pgCancelled).conc.pg.rows.map
      (fun r => (r.id, r.status)) = [(1, .cancelled)] ∧
    ((PgSys.init [sampleRunner]).run sampleHash [sampleRunner] pgCancelled).runners.map
      (fun rs => (rs.loading, rs.inFlight)) = [(none, 0)] ∧
    ((PgSys.init [sampleRunner]).run sampleHash [sampleRunner] (pgCancelled ++ psPull (9 * sec) 0 1)).conc.pg.rows.map
      (fun r => (r.id, r.status)) = [(1, .cancelled)] := by
  decide

/-! ## C80 -/

private def Carrier.isLoaded : Carrier → Bool
  | .loaded _ => true
  | .flight _ => false

/-- executions of a job against hand-outs of it -/
private structure Exec (id : Int) (h : List TPSEv) (s : PgSys) : Prop where
  le : countPg (PSEv.executes id) h ≤ pgHandouts id (dbHistory h)
  owed : (∃ r x c, s.carrier r x = some c ∧ c.id = id ∧ c.isLoaded = true) →
    countPg (PSEv.executes id) h + 1 ≤ pgHandouts id (dbHistory h)

private theorem execs_snoc (id : Int) (h : List TPSEv) (now : Time) (ev : PSEv) :
    countPg (PSEv.executes id) (h ++ [⟨now, ev⟩]) = countPg (PSEv.executes id) h + if ev.executes id then 1 else 0 := by
  simp [countPg, List.countP_append, List.countP_cons]

private theorem handouts_mono (id : Int) (h : List TPSEv) (now : Time) (ev : PSEv) :
    pgHandouts id (dbHistory h) ≤ pgHandouts id (dbHistory (h ++ [⟨now, ev⟩])) := by
  rw [dbHistory_append]
  simp [pgHandouts, List.countP_append]

private theorem exec_step {R : Bool → Row → Prop} {id : Int} {h : List TPSEv} {s s' : PgSys} {hash : HashFn} {tie : Int → Nat}
    {now : Time} {ev : PSEv} (T : PTrackBy R id h s) (E : Exec id h s) (hs : CStep hash tie now id s ev s') : Exec id (h ++ [⟨now, ev⟩]) s' := by
  have hmono := handouts_mono id h now ev
  have calm : ev.executes id = false →
      (∀ r x c, s'.carrier r x = some c → c.id = id → c.isLoaded = true → s.carrier r x = some c) →
      Exec id (h ++ [⟨now, ev⟩]) s' := by
    intro hx hsub
    refine ⟨?_, ?_⟩
    · rw [execs_snoc, hx]; exact Nat.le_trans E.le hmono
    · rintro ⟨r, x, c, h1, h2, h3⟩
      rw [execs_snoc, hx]
      exact Nat.le_trans (E.owed ⟨r, x, c, hsub r x c h1 h2 h3, h2, h3⟩) hmono
  cases hs with
  | away _ _ hsub hback hconc hend hx => exact calm hx fun r x c h1 h2 _ => hsub r x c h1 h2
  | other _ _ b hsub hback hconc ht =>
    refine calm ?_ fun r x c h1 h2 _ => hsub r x c h1 h2
    unfold PSEv.executes
    split
    · simp [PSEv.back] at hback
    · rfl
  | handed k row res _ hev hid hconc hruns hnew =>
    have : pgHandouts id (dbHistory (h ++ [⟨now, .db (.handedOut row res)⟩])) = pgHandouts id (dbHistory h) + 1 := by
      rw [db_some (b := .handedOut row res) rfl]
      simp [pgHandouts, List.countP_append, List.countP_cons, PgEv.handsOut, hid]
    have hle := E.le
    constructor
    · rw [execs_snoc, this]; simp only [PSEv.executes]; simp; omega
    · intro _; rw [execs_snoc, this]; simp only [PSEv.executes]; simp; omega
  | taken r j st _ hid hhad hconc hnew =>
    have howed := E.owed ⟨r, none, _, hhad, hid, rfl⟩
    constructor
    · rw [execs_snoc]
      split <;> omega
    · rintro ⟨q, x, c, h1, h2, h3⟩
      exfalso
      rcases hnew q x c h1 h2 with ⟨h4, h5⟩ | ⟨-, -, t, rfl, -⟩
      · obtain ⟨rfl, rfl⟩ := T.one q x c r none _ h4 h2 hhad hid
        exact h5 rfl
      · cases h3
  | ended r i t j d o _ hid ho hhad hconc hnew =>
    refine calm rfl ?_
    intro q x c h1 h2 h3
    rw [hnew] at h1
    split at h1
    · cases h1; cases h3
    · exact h1
  | overflowed r i t j _ hid hhad hconc hsub => exact calm rfl fun q x c h1 _ _ => (hsub q x c h1).2
  | reported r i t o _ hid hhad hnb hconc hsub => exact calm rfl fun q x c h1 _ _ => (hsub q x c h1).1

/-- **C80: violated for `max_attempts = 0`.** As in memory, a job enqueued with
`max_attempts = 0` is retried again and again (here three times). -/
theorem C80_violated_zero :
    let h := [psAct 5000 (.db (.plain { sampleEnq with maxAttempts := 0 }))] ++
      (psPull sec 0 0 ++ [psAct sec (.finish 0 0 { ending := .returns (.error "oops" "it broke") }), psAct sec (.report 0 0)]) ++
      (psPull (20 * sec) 0 1 ++ [psAct (20 * sec) (.finish 0 1 { ending := .returns (.error "oops" "it broke") }), psAct (20 * sec) (.report 0 1)]) ++
      (psPull (40 * sec) 0 2 ++ [psAct (40 * sec) (.finish 0 2 { ending := .returns (.error "oops" "it broke") }), psAct (40 * sec) (.report 0 2)])
    countPg (PSEv.executes 1) ((PgSys.init [sampleRunner]).trace sampleHash [sampleRunner] h) = 3 ∧
    ((PgSys.init [sampleRunner]).run sampleHash [sampleRunner] h).conc.pg.rows.map
      (fun r => (r.id, r.status, r.attempt, r.maxAttempts)) = [(1, .retryable, 3, 0)] := by
  decide

/-- **C80: violated if `max_attempts` is lowered.** A job with three attempts fails twice, then
`update_job` lowers `max_attempts` to one; it is executed twice more and still waits. -/
theorem C80_violated_lowered :
    let h := [psAct 5000 (.db (.plain { sampleEnq with maxAttempts := 3 }))] ++
      (psPull sec 0 0 ++ [psAct sec (.finish 0 0 { ending := .returns (.error "oops" "it broke") }), psAct sec (.report 0 0)]) ++
      (psPull (20 * sec) 0 1 ++ [psAct (20 * sec) (.finish 0 1 { ending := .returns (.error "oops" "it broke") }), psAct (20 * sec) (.report 0 1)]) ++
      [psAct (30 * sec) (.db (.stmt (.update { sampleJob 1 with maxAttempts := 1 })))] ++
      (psPull (40 * sec) 0 2 ++ [psAct (40 * sec) (.finish 0 2 { ending := .returns (.error "oops" "it broke") }), psAct (40 * sec) (.report 0 2)]) ++
      (psPull (60 * sec) 0 3 ++ [psAct (60 * sec) (.finish 0 3 { ending := .returns (.error "oops" "it broke") }), psAct (60 * sec) (.report 0 3)])
    countPg (PSEv.executes 1) ((PgSys.init [sampleRunner]).trace sampleHash [sampleRunner] h) = 4 ∧
    ((PgSys.init [sampleRunner]).run sampleHash [sampleRunner] h).conc.pg.rows.map
      (fun r => (r.id, r.status, r.attempt, r.maxAttempts)) = [(1, .retryable, 4, 1)] := by
  decide

/-- **C80: violated if a job is rerun during an execution**, as in memory: five executions of
a job with at most three attempts, and it still waits. -/
theorem C80_violated_rerun :
    let fails (i : Nat) (t : Time) : List TPSAct :=
      [psAct t (.finish 0 i { ending := .returns (.error "oops" "it broke") }), psAct t (.report 0 i)]
    let h := [psAct 5000 (.db (.plain sampleEnq))] ++ psPull sec 0 0 ++ [psAct (2 * sec) (.db (.stmt (.rerun 1)))] ++
      psPull (3 * sec) 0 1 ++ fails 1 (3 * sec) ++ psPull (20 * sec) 0 2 ++ fails 2 (20 * sec) ++ fails 0 (21 * sec) ++
      psPull (60 * sec) 0 3 ++ fails 3 (60 * sec) ++ psPull (90 * sec) 0 4 ++ fails 4 (90 * sec)
    countPg (PSEv.executes 1) ((PgSys.init [sampleRunner]).trace sampleHash [sampleRunner] h) = 5 ∧
    ((PgSys.init [sampleRunner]).run sampleHash [sampleRunner] h).conc.pg.rows.map
      (fun r => (r.id, r.status, r.attempt, r.maxAttempts)) = [(1, .retryable, 5, 3)] := by
  decide

/-- **C80, what holds.** A job enqueued on Postgres with `max_attempts = n ≥ 1` that other
clients leave alone keeps that number and is executed, by all nodes together, at most `n`
times, not counting snoozed executions. Missing: `max_attempts = 0` and jobs whose
`max_attempts` was lowered, for which the claim is false. -/
theorem C80_never_exceeded_partial (hash : HashFn) (defs : List Runner) (as : List TPSAct) (id : Int) (n : Nat) (hn : 1 ≤ n)
    (hq : OthersLeave id ((PgSys.init defs).trace hash defs as))
    (hi : PgEnqueuedWith id n (dbHistory ((PgSys.init defs).trace hash defs as))) :
    countPg (PSEv.executes id) ((PgSys.init defs).trace hash defs as) ≤
      n + pgSnoozes id (dbHistory ((PgSys.init defs).trace hash defs as)) ∧
    ∀ r ∈ ((PgSys.init defs).run hash defs as).conc.pg.rows, r.id = id → r.maxAttempts = n := by
  refine ⟨Nat.le_trans ?_ (C68_failures_bounded hash defs as id n hn hq hi).2,
    fun r hr hid => (C68_snoozes_free hash defs as id n hn hq hi r hr hid).1⟩
  suffices h : Exec id ((PgSys.init defs).trace hash defs as) ((PgSys.init defs).run hash defs as) from h.le
  clear hi
  induction as using snoc_induction with
  | nil =>
    refine ⟨by simp [countPg, PgSys.trace], ?_⟩
    rintro ⟨r, x, c, h1, h2, -⟩
    have := (PTrackBy.init (fun _ _ => True) id defs).seen r x c h1 h2
    simp [dbHistory, pgInserted] at this
  | snoc as a ih =>
    have I := pgSysInv hash defs as
    rw [PgSys.trace_append] at hq ⊢
    rw [PgSys.run_append]
    exact exec_step (pTrack id hash defs as hq.left) (ih hq.left) (c_step I.own I.reps.reportable hash defs a.tie a.now a.act id
      fun ev he ht => hq ⟨a.now, _⟩ (List.mem_append_right _ (by simp [PgSys.trace])) ev he ht)

/-- `pgTwoFailures` meets the hypotheses for `n = 2`; the job is executed three times, one of
them snoozed. -/
example :
    let ds := [sampleRunner, sampleRunner]
    countPg (PSEv.executes 1) ((PgSys.init ds).trace sampleHash ds pgTwoFailures) = 3 ∧
    pgSnoozes 1 (dbHistory ((PgSys.init ds).trace sampleHash ds pgTwoFailures)) = 1 := by
  decide

/-! ## C80 with edits -/

private theorem pgGoodEdits_append {hash : HashFn} {defs : List Runner} {id : Int} {as bs : List TPSAct} {s : PgSys}
    (h : PgGoodEdits hash defs id s (as ++ bs)) :
    PgGoodEdits hash defs id s as ∧ PgGoodEdits hash defs id (s.run hash defs as) bs := by
  induction as generalizing s with
  | nil => exact ⟨trivial, h⟩
  | cons a as ih => exact ⟨⟨h.1, (ih h.2).1⟩, (ih h.2).2⟩

private def RowLeft (r : Row) : Prop :=
  r.attempt ≤ r.maxAttempts ∧ (r.status = .scheduled ∨ r.status = .retryable → r.attempt < r.maxAttempts)

/-- the counters of a row that may be edited -/
private structure PEdited (id : Int) (h : List TPSEv) (s : PgSys) : Prop where
  track : PTrackBy (fun f row => f = false → row.attempt < row.maxAttempts) id h s
  rows : ∀ r ∈ s.conc.pg.rows, r.id = id → RowLeft r
  exec : Exec id h s

/-- a step that edits the row -/
private theorem PEdited.edit {hash : HashFn} {tie : Int → Nat} {id : Int} {h : List TPSEv} {s : PgSys} {now : Time} {b : PgAct}
    (E : PEdited id h s) (I : PgSysInv h s) (hg : PgGoodEdit hash id s tie now (.db b))
    (ht : (s.conc.step hash tie now b).1.touches id = true) (hh : (s.conc.step hash tie now b).1.handsOut id = false) :
    PEdited id (h ++ [⟨now, .db (s.conc.step hash tie now b).1⟩]) ⟨(s.conc.step hash tie now b).2, s.runners⟩ := by
  have hg := hg hh
  have hsub : ∀ r x c, PgSys.carrier ⟨(s.conc.step hash tie now b).2, s.runners⟩ r x = some c → c.id = id →
      s.carrier r x = some c := by
    intro r x c hc hid
    rcases db_carrier I.own hc with h1 | ⟨k, rs, row, j, -, -, -, -, rfl, hd, hev⟩
    · exact h1
    · rw [hev] at hh
      simp only [PgEv.handsOut, beq_eq_false_iff_ne] at hh
      exact absurd ((decode_fields hd).1.symm.trans hid) hh
  have old : ∀ r' ∈ (s.conc.step hash tie now b).2.pg.rows, r'.id = id → ∃ r ∈ s.conc.pg.rows, r.id = id ∧
      EditOk (s.hasJob id) r.status r.attempt r.maxAttempts r'.status r'.attempt r'.maxAttempts := by
    intro r' hr' hid
    rcases (table_step I.inv hash tie now b).back hr' with ⟨uc, he, -⟩ | ⟨r, hr, hrid, -, -⟩
    · rw [he] at ht; cases ht
    · exact ⟨r, hr, hrid.trans hid, hg r hr r' hr' (hrid.trans hid) hid⟩
  refine ⟨⟨fun r x c hc hid => inserted_grow (E.track.seen r x c (hsub r x c hc hid) hid),
    fun r x c r' x' c' h1 h2 h3 h4 => E.track.one r x c r' x' c' (hsub _ _ _ h1 h2) h2 (hsub _ _ _ h3 h4) h4, ?_⟩, ?_, ?_⟩
  · intro r x c hc hid row' hrow' hrid
    obtain ⟨row, hrow, hid', e1, e2, e3⟩ := old row' hrow' hrid
    have hc' := hsub r x c hc hid
    obtain ⟨g1, g2⟩ := E.track.exec r x c hc' hid row hrow hid'
    have hb : s.hasJob id := hasJob_iff.mpr ⟨r, x, c, hc', hid⟩
    refine ⟨?_, fun hf => ?_⟩
    · rcases e3 with e3 | e3
      · rw [e3]; exact g1
      · exact absurd hb e3.1
    · have := g2 hf
      rcases e2 with e2 | e2 <;> omega
  · intro row' hrow' hrid
    obtain ⟨row, hrow, hid', e1, e2, e3⟩ := old row' hrow' hrid
    obtain ⟨s1, s2⟩ := E.rows row hrow hid'
    refine ⟨by rcases e2 with e2 | e2 <;> omega, fun hw => ?_⟩
    rcases e3 with e3 | e3
    · rw [e3] at hw
      have := s2 hw
      rcases e2 with e2 | e2 <;> omega
    · have := e3.2.2 hw; omega
  · have hmono := handouts_mono id h now (.db (s.conc.step hash tie now b).1)
    refine ⟨?_, ?_⟩
    · rw [execs_snoc]; exact Nat.le_trans E.exec.le hmono
    · rintro ⟨r, x, c, h1, h2, h3⟩
      rw [execs_snoc]
      exact Nat.le_trans (E.exec.owed ⟨r, x, c, hsub r x c h1 h2, h2, h3⟩) hmono

/-- only clients and sessions do something in the database directly -/
theorem step_db {hash : HashFn} {defs : List Runner} {tie : Int → Nat} {now : Time} {s : PgSys} {a : PSAct} {ev : PgEv}
    (h : (s.step hash defs tie now a).1 = .db ev) : ∃ b, a = .db b := by
  cases a with
  | db b => exact ⟨b, rfl⟩
  | _ =>
    exfalso
    simp only [PgSys.step] at h
    repeat' (first | (split at h) | cases h)

/-- any other step -/
private theorem PEdited.cstep {hash : HashFn} {tie : Int → Nat} {id : Int} {h : List TPSEv} {s s' : PgSys} {now : Time} {ev : PSEv}
    (E : PEdited id h s) (I : PgSysInv h s)
    (hi : ∀ row uc, ev.back = some (.inserted row uc) → row.id = id → 1 ≤ row.maxAttempts)
    (hs : CStep hash tie now id s ev s') : PEdited id (h ++ [⟨now, ev⟩]) s' := by
  have hR : ∀ k row res, (s.conc.step hash tie now (.advance k)).1 = .handedOut row res → row.id = id →
      row.attempt ≤ row.maxAttempts ∧ row.status = .executing := by
    intro k row res hev hid
    obtain ⟨q, hq, hqid, -, y, t, -, hrd, he⟩ := handedOut_mem I.inv hev
    have := (E.rows q hq (hqid.trans hid)).2 (ready_iff'.mp hrd).waiting
    rw [he]
    simp only [Row.markExecuting]
    exact ⟨by omega, trivial⟩
  have quiet : ∀ b, ev.back = some (s.conc.step hash tie now b).1 → s'.conc = (s.conc.step hash tie now b).2 →
      (s.conc.step hash tie now b).1.touches id = false → ∀ r ∈ s'.conc.pg.rows, r.id = id → RowLeft r := by
    intro b hback hconc ht r hr hid
    rw [hconc] at hr
    rcases untouched_row I.inv I.hist ht hr hid with h1 | ⟨⟨uc, he⟩, hni, -, e, t, key, hrow⟩
    · exact E.rows r h1 hid
    · have := hi r uc (by rw [hback, he]) hid
      have h0 : r.attempt = 0 := by rw [hrow]; rfl
      exact ⟨by omega, fun _ => by omega⟩
  refine ⟨E.track.step I hs ?_, ?_, exec_step E.track E.exec hs⟩
  · rintro row hrow hid ⟨res, rfl⟩ hf
    have : ∃ k, (s.conc.step hash tie now (.advance k)).1 = .handedOut row res := by
      cases hs with
      | away _ _ _ hback => cases hback
      | other _ _ b _ hback _ ht =>
        simp only [PSEv.back, Option.some.injEq] at hback
        rw [← hback] at ht
        simp [PgEv.touches, PgEv.handsOut, hid] at ht
      | handed k _ _ _ hev => exact ⟨k, hev⟩
    obtain ⟨k, hev⟩ := this
    have := (hR k row res hev hid).1
    have := of_decide_eq_false hf
    omega
  · cases hs with
    | away _ _ hsub hback hconc => rw [hconc]; exact E.rows
    | other _ _ b hsub hback hconc ht => exact quiet b hback hconc ht
    | handed k row res _ hev hid hconc hruns hnew =>
      intro r hr hrid
      obtain ⟨q, hq, hqid, hmem, -⟩ := handedOut_mem I.inv hev
      rw [hconc] at hr
      have : r = row := row_unique (I.inv.step hash tie now _).nodup hr hmem (by rw [hrid, hid])
      have hr2 := hR k row res hev hid
      rw [this]
      exact ⟨hr2.1, fun hw => by rw [hr2.2] at hw; rcases hw with hw | hw <;> cases hw⟩
    | taken r j st _ hid hhad hconc hnew => rw [hconc]; exact E.rows
    | ended r i t j d o _ hid ho hhad hconc hnew => rw [hconc]; exact E.rows
    | overflowed r i t j _ hid hhad hconc hsub => rw [hconc]; exact E.rows
    | reported r i t o _ hid hhad hnb hconc hsub =>
      have hbk : (PSEv.reported r t (s.conc.step hash tie now (.stmt o)).1).back = some (s.conc.step hash tie now (.stmt o)).1 := rfl
      have hrep := I.reps.reportable r (some i) t o hhad
      have hex := E.track.exec r (some i) _ hhad hid
      cases htt : (s.conc.step hash tie now (.stmt o)).1.touches id with
      | false => exact quiet _ hbk hconc htt
      | true =>
        have hres : (s.conc.step hash tie now (.stmt o)).1 = .stmt o .unit := by
          rcases stmt_event s.conc hash tie now o with g | g | ⟨res, g⟩
          · rw [g] at htt; cases htt
          · rw [g] at htt; cases htt
          · rw [g] at htt ⊢
            rcases reportable_cases hrep with rfl | ⟨e, rfl⟩ | ⟨x, rfl⟩ | ⟨-, e, rfl⟩ | ⟨-, x, e, rfl⟩ <;>
              cases res <;> first | rfl | cases htt
        intro r' hr' hrid
        rw [hconc] at hr'
        obtain ⟨q, hq, hqid, hm⟩ : ∃ q ∈ s.conc.pg.rows, q.id = id ∧ RowMove now (.stmt o .unit) q r' := by
          rcases (table_step I.inv hash tie now (.stmt o)).back hr' with ⟨uc, he, -⟩ | ⟨q, hq, hqid, hm, -⟩
          · rw [hres] at he; cases he
          · exact ⟨q, hq, hqid.trans hrid, by rw [← hres]; exact hm⟩
        obtain ⟨s1, s2⟩ := E.rows q hq hqid
        obtain ⟨d1, d2⟩ := hex q hq hqid
        simp only [Carrier.final] at d2
        subst hid
        rcases reportable_cases hrep with rfl | ⟨e, rfl⟩ | ⟨x, rfl⟩ | ⟨hfin, e, rfl⟩ | ⟨hfin, x, e, rfl⟩ <;>
        · try have hf2 := d2 hfin
          cases hm <;> rename_i he hr'' <;> first
            | contradiction
            | (exfalso; simp at he; done)
            | (exfalso; rw [hqid] at he; simp [PgEv.touches, PgEv.finishes, PgEv.retries, PgEv.snoozes] at he; done)
            | (subst hr''
               simp only [Row.markComplete, Row.markCancelled, Row.markSnoozed, Row.markDiscarded, Row.markRetryable, RowLeft]
               refine ⟨by omega, fun hw => ?_⟩
               first | omega | (rcases hw with hw | hw <;> cases hw))

/-- **C80, what holds when the job is edited.** Other clients may update the row, replace parts
of it, cancel it, rerun it and so on, any number of times and concurrently with its
executions on any node, as long as every edit leaves `max_attempts` as it is or sets it above
the number of attempts made, and no edit changes the status while a runner has the job. Then
the job is executed, by all nodes together, at most as often as its current
`max_attempts` says, not counting snoozed executions. Missing: `max_attempts = 0`, edits that
set `max_attempts` to at most the attempts made (for these the claim is false) and edits of
the status during an execution. -/
theorem C80_edited_partial (hash : HashFn) (defs : List Runner) (as : List TPSAct) (id : Int)
    (hg : PgGoodEdits hash defs id (PgSys.init defs) as)
    (hi : ∀ e ∈ dbHistory ((PgSys.init defs).trace hash defs as), ∀ row uc, e.ev = .inserted row uc → row.id = id →
      1 ≤ row.maxAttempts) :
    ∀ r ∈ ((PgSys.init defs).run hash defs as).conc.pg.rows, r.id = id →
      r.attempt ≤ r.maxAttempts ∧
      (countPg (PSEv.executes id) ((PgSys.init defs).trace hash defs as) : Int) ≤
        r.maxAttempts + pgSnoozes id (dbHistory ((PgSys.init defs).trace hash defs as)) := by
  suffices h : PEdited id ((PgSys.init defs).trace hash defs as) ((PgSys.init defs).run hash defs as) by
    intro r hr hid
    have h1 := (h.rows r hr hid).1
    have h2 := h.exec.le
    obtain ⟨bs, g1, g2⟩ := psys_schedule hash defs as
    have h3 := C62_attempt_counts_executions hash bs r (by rw [← g1]; exact hr)
    rw [← g2, hid] at h3
    exact ⟨h1, by omega⟩
  revert hg hi
  induction as using snoc_induction with
  | nil =>
    intro _ _
    refine ⟨PTrackBy.init _ id defs, by simp [PgSys.run, PgSys.init], by simp [countPg, PgSys.trace], ?_⟩
    rintro ⟨r, x, c, h1, h2, -⟩
    have := (PTrackBy.init (fun _ _ => True) id defs).seen r x c h1 h2
    simp [dbHistory, pgInserted] at this
  | snoc as a ih =>
    intro hg hi
    obtain ⟨hg1, hg2⟩ := pgGoodEdits_append hg
    have I := pgSysInv hash defs as
    rw [PgSys.trace_append] at hi ⊢
    rw [PgSys.run_append]
    rw [dbHistory_append] at hi
    have E := ih hg1 (fun e he => hi e (List.mem_append_left _ he))
    have hi' : ∀ row uc, (((PgSys.init defs).run hash defs as).step hash defs a.tie a.now a.act).1.back = some (.inserted row uc) →
        row.id = id → 1 ≤ row.maxAttempts := by
      intro row uc he hid
      refine hi ⟨a.now, .inserted row uc⟩ (List.mem_append_right _ ?_) row uc rfl hid
      simp [PgSys.trace, dbHistory, he]
    have hg3 := hg2.1
    simp only [PgSys.trace, PgSys.run]
    generalize (PgSys.init defs).run hash defs as = s at *
    by_cases hq : ∀ ev, (s.step hash defs a.tie a.now a.act).1 = .db ev → ev.touches id = true → ev.handsOut id = true
    · exact E.cstep I hi' (c_step I.own I.reps.reportable hash defs a.tie a.now a.act id hq)
    · simp only [Classical.not_forall] at hq
      obtain ⟨ev, h1, h2, h3⟩ := hq
      obtain ⟨b, hb⟩ : ∃ b, a.act = .db b := step_db h1
      rw [hb] at h1 hg3 ⊢
      simp only [PgSys.step, PSEv.db.injEq] at h1 ⊢
      subst h1
      exact E.edit I hg3 h2 (by simpa using h3)

/-- A job of two attempts. Its first execution fails. While node 1 executes it for the second
time another client sets `max_attempts` to five; the execution fails and, being the last of two when it
began, is recorded as the last one. The job is rerun and executed once more. -/
def pgEditedLife : List TPSAct :=
  [psAct 5000 (.db (.plain sampleEnq))] ++
  (psPull sec 0 0 ++ [psAct sec (.finish 0 0 { ending := .returns (.error "oops" "it broke") }), psAct sec (.report 0 0)]) ++
  psPull (20 * sec) 1 1 ++
  [psAct (21 * sec) (.db (.stmt (.update { sampleJob 1 with status := .executing, attempt := 2, maxAttempts := 5 }))),
    psAct (22 * sec) (.finish 1 0 { ending := .returns (.error "oops" "it broke") }), psAct (23 * sec) (.report 1 0),
    psAct (24 * sec) (.db (.stmt (.rerun 1)))] ++
  (psPull (40 * sec) 0 2 ++ [psAct (40 * sec) (.finish 0 1 { ending := .returns .done }), psAct (40 * sec) (.report 0 1)])

example :
    let ds := [sampleRunner, sampleRunner]
    PgGoodEdits sampleHash ds 1 (PgSys.init ds) pgEditedLife ∧
    countPg (PSEv.executes 1) ((PgSys.init ds).trace sampleHash ds pgEditedLife) = 3 ∧
    ((PgSys.init ds).run sampleHash ds pgEditedLife).conc.pg.rows.map (fun r => (r.id, r.status, r.attempt, r.maxAttempts)) =
      [(1, .complete, 3, 6)] := by
  decide

end Rexecutor
