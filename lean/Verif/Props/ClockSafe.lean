import Verif.Lemmas.LiveSys
import Verif.Model.StreamClock
import Verif.Props.Dispatch
import Verif.Props.PgDispatch
import Verif.Props.StreamClock

/-!
# C137: clocks that are set, and what is handed out
-/

namespace Rexecutor

/-- What a step of the streams is for somebody who sees calls only: the calls of clients, and the
jobs handed out. -/
def StEv.asCall : StEv → Option Ev
  | .client ev => some ev
  | .returned _ j => some (.op (.load j.executor) (.job (some j)))
  | _ => none

/-- The calls of a schedule, each with what the clock showed. -/
def Streams.callsAt (s : Streams) (as : List ClockedAct) : List TEv :=
  (as.zip (s.traceAt as)).filterMap fun x => x.2.asCall.map fun ev => ⟨x.1.now, ev⟩

private theorem callsAt_cons (s : Streams) (a : ClockedAct) (as : List ClockedAct) :
    s.callsAt (a :: as) =
      ((s.stepAt a.real a.now a.act).1.asCall.map fun ev => (⟨a.now, ev⟩ : TEv)).toList ++
        (s.stepAt a.real a.now a.act).2.callsAt as := by
  simp only [Streams.callsAt, Streams.traceAt, List.zip_cons_cons, List.filterMap_cons]
  cases (s.stepAt a.real a.now a.act).1.asCall <;> rfl

private theorem load_executor {now : Time} {x : String} {m m' : Mem} {j : Job} (h : m.load now x = (some j, m')) :
    j.executor = x := by
  obtain ⟨i, k, -, he, hj, -⟩ := (C04_only_due_jobs now x m).1 j (by rw [h])
  rw [hj]
  simp only [handedOut]
  exact he.executor

/-- One step: a call with what the clock shows, or nothing. -/
private theorem clocked_step (real now : Time) (s : Streams) (a : StAct) (c : Conc) (h : SameConcBut s.conc c) :
    ∃ ts : List TAct, (∀ t ∈ ts, t.now = now) ∧
      c.trace ts = ((s.stepAt real now a).1.asCall.map fun ev => (⟨now, ev⟩ : TEv)).toList ∧
      SameConcBut (s.stepAt real now a).2.conc (c.run ts) := by
  have skip : ∀ {e : StEv} {s' : Streams}, e.asCall = none → SameConcBut s'.conc c →
      ∃ ts : List TAct, (∀ t ∈ ts, t.now = now) ∧
        c.trace ts = (e.asCall.map fun ev => (⟨now, ev⟩ : TEv)).toList ∧ SameConcBut s'.conc (c.run ts) := by
    intro e s' he hs
    exact ⟨[], by simp, by simp [he, Conc.trace], hs⟩
  cases a with
  | client b =>
    obtain ⟨h1, h2⟩ := same_conc h now b
    exact ⟨[⟨now, b⟩], by simp, by simp [Conc.trace, Streams.stepAt, Streams.step, StEv.asCall, h1], h2⟩
  | subscribe x => exact skip rfl ⟨⟨h.mem.1, h.mem.2, h.mem.3⟩, h.calls⟩
  | stream i timer =>
    simp only [Streams.stepAt]
    cases s.readers[i]? with
    | none => exact skip rfl h
    | some r =>
      simp only [Streams.streamStepAt]
      cases r.wait with
      | ready => exact skip rfl h
      | looked f => exact skip rfl h
      | decided clock delay =>
        simp only
        split
        · cases hl : s.conc.mem.load now r.executor with
          | mk o m =>
            cases o with
            | none => exact skip rfl h
            | some j =>
              obtain ⟨h1, h2⟩ := same_conc h now (.op (.load r.executor))
              refine ⟨[⟨now, .op (.load r.executor)⟩], by simp, ?_, ?_⟩
              · simp only [Conc.trace, StEv.asCall, h1]
                simp [Conc.step, Mem.step, hl, load_executor hl]
              · simp only [Conc.step, Mem.step, hl] at h2
                exact h2
        · exact skip rfl h
      | asleep clock since delay =>
        simp only
        split
        · exact skip rfl ⟨⟨h.mem.1, h.mem.2, h.mem.3⟩, h.calls⟩
        · split <;> exact skip rfl h

private theorem conc_run_app (c : Conc) (as bs : List TAct) : c.run (as ++ bs) = (c.run as).run bs := Conc.run_append ..

private theorem conc_trace_app (c : Conc) (as bs : List TAct) : c.trace (as ++ bs) = c.trace as ++ (c.run as).trace bs := by
  induction as generalizing c with
  | nil => rfl
  | cons a as ih => simp [Conc.trace, Conc.run, ih]

private theorem clocked_run (s : Streams) (c : Conc) (h : SameConcBut s.conc c) (as : List ClockedAct) :
    ∃ ts : List TAct, (∀ t ∈ ts, ∃ a ∈ as, t.now = a.now) ∧ c.trace ts = s.callsAt as ∧
      SameConcBut (s.runAt as).conc (c.run ts) := by
  induction as generalizing s c with
  | nil => exact ⟨[], by simp, rfl, h⟩
  | cons a as ih =>
    obtain ⟨t1, h1, h2, h3⟩ := clocked_step a.real a.now s a.act c h
    obtain ⟨t2, h4, h5, h6⟩ := ih _ _ h3
    refine ⟨t1 ++ t2, ?_, ?_, ?_⟩
    · intro t ht
      rcases List.mem_append.mp ht with ht | ht
      · exact ⟨a, by simp, h1 t ht⟩
      · obtain ⟨b, hb, e⟩ := h4 t ht
        exact ⟨b, by simp [hb], e⟩
    · rw [conc_trace_app, callsAt_cons, h2, h5]
    · rw [conc_run_app]; exact h6

/-- **C137, in memory.** Whatever the clock shows and whenever the streams move, the calls are
those of a schedule of calls at the times the clock showed, and the stored jobs are the ones it
leaves. -/
theorem C137_in_memory (paused : Bool) (as : List ClockedAct) :
    ∃ ts : List TAct, (∀ t ∈ ts, ∃ a ∈ as, t.now = a.now) ∧
      (fresh paused).trace ts = (Streams.init paused).callsAt as ∧
      ((fresh paused).run ts).mem.jobs = ((Streams.init paused).runAt as).conc.mem.jobs := by
  obtain ⟨ts, h1, h2, h3⟩ := clocked_run (Streams.init paused) (fresh paused) ⟨.rfl', rfl⟩ as
  exact ⟨ts, h1, h2, h3.mem.jobs⟩

/-- **C137, never early.** In every state and whatever the real time, a stream returns only a
stored job of its executor that is waiting and, by the clock it asks, due within a tenth of a second. -/
theorem C137_due (real now : Time) (s : Streams) (a : StAct) (i : Nat) (j : Job)
    (h : (s.stepAt real now a).1 = .returned i j) :
    ∃ r k, s.readers[i]? = some r ∧ k ∈ s.conc.mem.jobs ∧ (k.job.status = .scheduled ∨ k.job.status = .retryable) ∧
      k.job.executor = r.executor ∧ k.job.scheduledAt < now + 100000000 ∧
      j = { k.job with status := .executing, attempt := k.job.attempt + 1, attemptedAt := some now } := by
  cases a with
  | client b => cases h
  | subscribe x => cases h
  | stream q timer =>
    simp only [Streams.stepAt] at h
    cases hr : s.readers[q]? with
    | none => rw [hr] at h; cases h
    | some r =>
      simp only [hr, Streams.streamStepAt] at h
      cases hw : r.wait with
      | ready => simp only [hw] at h; cases h
      | looked f => simp only [hw] at h; cases h
      | asleep c since d => simp only [hw] at h; repeat' (split at h <;> try cases h)
      | decided c d =>
        simp only [hw] at h
        split at h
        · cases hl : s.conc.mem.load now r.executor with
          | mk o m =>
            cases o with
            | none => simp only [hl] at h; cases h
            | some j' =>
              simp only [hl] at h
              injection h with h1 h2
              subst h1 h2
              obtain ⟨n, k, hk, he, hj, -⟩ := (C04_only_due_jobs now r.executor s.conc.mem).1 j' (by rw [hl])
              exact ⟨r, k, hr, List.mem_of_getElem? hk, he.waiting, he.executor, he.due, hj⟩
        · cases h

/-- **C137, not twice.** Between two hand-outs of a job, it has been put back by a call. -/
theorem C137_once (paused : Bool) (as : List ClockedAct) (id : Int)
    (hb : idsTaken ((Streams.init paused).callsAt as) ≤ 2 ^ 32) (pre mid post : List TEv) (e₁ e₂ : TEv)
    (h : (Streams.init paused).callsAt as = pre ++ e₁ :: mid ++ e₂ :: post)
    (h₁ : e₁.ev.handsOut id = true) (h₂ : e₂.ev.handsOut id = true) :
    ∃ e ∈ mid, e.ev.putsBack id = true := by
  obtain ⟨ts, -, ht, -⟩ := C137_in_memory paused as
  rw [← ht] at hb h
  exact C06_no_double_handout paused ts id hb pre mid post e₁ e₂ h h₁ h₂

/-! ## On Postgres -/

/-- What happened in the database. -/
def NetEv.inDb : NetEv → Option PgEv
  | .db ev _ => some ev
  | _ => none

private theorem clockedNet_step (hash : HashFn) (parses : Parses) (tie : Int → Nat) (real now : Time) (s : PgNet) (a : NetAct) :
    ∃ ts : List TPgAct, (∀ t ∈ ts, t.now = now) ∧
      PgConc.trace hash s.conc ts = (s.stepAt hash parses tie real now a).1.inDb.toList ∧
      (s.stepAt hash parses tie real now a).2.conc = PgConc.run hash s.conc ts := by
  have skip : ∀ {e : NetEv} {s' : PgNet}, e.inDb = none → s'.conc = s.conc →
      ∃ ts : List TPgAct, (∀ t ∈ ts, t.now = now) ∧ PgConc.trace hash s.conc ts = e.inDb.toList ∧
        s'.conc = PgConc.run hash s.conc ts :=
    fun he hs => ⟨[], by simp, by simp [he, PgConc.trace], hs⟩
  have one : ∀ (b : PgAct) {s' : PgNet}, s'.conc = (s.conc.step hash tie now b).2 →
      ∃ ts : List TPgAct, (∀ t ∈ ts, t.now = now) ∧
        PgConc.trace hash s.conc ts = (s.dbStep hash tie now b).1.inDb.toList ∧
        s'.conc = PgConc.run hash s.conc ts :=
    fun b s' hs => ⟨[⟨now, tie, b⟩], by simp, rfl, hs⟩
  cases a with
  | db b => exact one b rfl
  | connect => exact skip rfl rfl
  | subscribe n x => exact skip rfl rfl
  | reconnect n => exact skip rfl rfl
  | fail n => exact skip rfl rfl
  | deliver n =>
    refine skip rfl ?_
    simp only [PgNet.stepAt, PgNet.step, PgNet.deliver]
    repeat' split
    all_goals rfl
  | streamFails i =>
    simp only [PgNet.stepAt, PgNet.step]
    split <;> exact skip rfl rfl
  | stream i timer =>
    simp only [PgNet.stepAt]
    cases s.readers[i]? with
    | none => exact skip rfl rfl
    | some r =>
      simp only [PgNet.streamStepAt]
      cases r.wait with
      | ready => exact skip rfl rfl
      | looked f => exact skip rfl rfl
      | decided clock delay =>
        simp only
        split
        · exact one (.handout r.executor) rfl
        · exact skip rfl rfl
      | loading clock delay k =>
        simp only
        split
        · exact skip rfl rfl
        · exact skip rfl rfl
        · exact skip rfl rfl
        · exact one (.advance k) rfl
      | asleep clock since delay =>
        simp only
        split
        · split <;> exact skip rfl rfl
        · split <;> exact skip rfl rfl

private theorem pgConc_trace_app (hash : HashFn) (c : PgConc) (as bs : List TPgAct) :
    PgConc.trace hash c (as ++ bs) = PgConc.trace hash c as ++ PgConc.trace hash (PgConc.run hash c as) bs := by
  induction as generalizing c with
  | nil => rfl
  | cons a as ih => simp [PgConc.trace, PgConc.run, ih]

private theorem pgConc_run_app (hash : HashFn) (c : PgConc) (as bs : List TPgAct) :
    PgConc.run hash c (as ++ bs) = PgConc.run hash (PgConc.run hash c as) bs := by
  induction as generalizing c with
  | nil => rfl
  | cons a as ih => exact ih _

/-- **C137, on Postgres.** Whatever the clocks of the nodes and of the database show, what happens
in the database is a schedule of statements at the times shown. -/
theorem C137_on_postgres (hash : HashFn) (parses : Parses) (s : PgNet) (as : List ClockedNet) :
    ∃ ts : List TPgAct, (∀ t ∈ ts, ∃ a ∈ as, t.now = a.now) ∧
      PgConc.trace hash s.conc ts = (s.traceAt hash parses as).filterMap NetEv.inDb ∧
      (s.runAt hash parses as).conc = PgConc.run hash s.conc ts := by
  induction as generalizing s with
  | nil => exact ⟨[], by simp, rfl, rfl⟩
  | cons a as ih =>
    obtain ⟨t1, h1, h2, h3⟩ := clockedNet_step hash parses a.tie a.real a.now s a.act
    obtain ⟨t2, h4, h5, h6⟩ := ih (s.stepAt hash parses a.tie a.real a.now a.act).2
    rw [h3] at h5 h6
    refine ⟨t1 ++ t2, ?_, ?_, ?_⟩
    · intro t ht
      rcases List.mem_append.mp ht with ht | ht
      · exact ⟨a, by simp, h1 t ht⟩
      · obtain ⟨b, hb, e⟩ := h4 t ht
        exact ⟨b, by simp [hb], e⟩
    · rw [pgConc_trace_app, h2, h5]
      simp only [PgNet.traceAt, List.filterMap_cons]
      cases (s.stepAt hash parses a.tie a.real a.now a.act).1.inDb <;> rfl
    · rw [pgConc_run_app]; exact h6

/-- **C137, never early on Postgres.** A row handed out is one that was available, and due within a tenth of a second of what
the clock showed at a step of the schedule; that time is recorded as the one of the attempt. -/
theorem C137_due_on_postgres (hash : HashFn) (parses : Parses) (as : List ClockedNet) (a : ClockedNet) (row : Row)
    (res : Res) (rows : List Row)
    (h : ((PgNet.runAt hash parses {} as).stepAt hash parses a.tie a.real a.now a.act).1 = .db (.handedOut row res) rows) :
    ∃ b ∈ as, ∃ r ∈ (PgNet.runAt hash parses {} as).conc.pg.rows,
      (r.status = .scheduled ∨ r.status = .retryable) ∧ r.scheduledAt < pgTime b.now + 100000000 ∧
      row = { r with status := .executing, attempt := r.attempt + 1, attemptedAt := some (pgTime b.now) } := by
  obtain ⟨ts, h1, -, h3⟩ := C137_on_postgres hash parses {} as
  obtain ⟨t1, -, h5, -⟩ := clockedNet_step hash parses a.tie a.real a.now (PgNet.runAt hash parses {} as) a.act
  rw [h, h3] at h5
  simp only [NetEv.inDb, Option.toList_some] at h5
  obtain ⟨t, rfl, ht⟩ : ∃ t, t1 = [t] ∧ ((PgConc.run hash {} ts).step hash t.tie t.now t.act).1 = .handedOut row res := by
    cases t1 with
    | nil => cases h5
    | cons t t1 =>
      simp only [PgConc.trace, List.cons.injEq] at h5
      cases t1 with
      | nil => exact ⟨t, rfl, h5.1⟩
      | cons _ _ => cases h5.2
  obtain ⟨i, x, u, r, -, -, ⟨b, hb, -, hu⟩, hr, he, hrow, -⟩ := C45_effect hash ts t row res ht
  obtain ⟨c, hc, hbc⟩ := h1 b hb
  have : u = c.now := hu.symm.trans hbc
  subst this
  exact ⟨c, hc, r, by rw [h3]; exact hr, he.waiting, he.due, hrow⟩

/-- **C137, not twice on Postgres.** -/
theorem C137_once_on_postgres (hash : HashFn) (parses : Parses) (as : List ClockedNet) (id : Int)
    (pre mid post : List PgEv) (e₁ e₂ : PgEv)
    (h : (PgNet.traceAt hash parses {} as).filterMap NetEv.inDb = pre ++ e₁ :: (mid ++ e₂ :: post))
    (h₁ : e₁.handsOut id = true) (h₂ : e₂.handsOut id = true) :
    ∃ e ∈ mid, e.putsBack id = true := by
  obtain ⟨ts, -, ht, -⟩ := C137_on_postgres hash parses {} as
  rw [← ht] at h
  exact C46_no_double_handout hash ts id pre mid post e₁ e₂ h h₁ h₂

/-! ## Examples -/

/-- A job is handed out when the clock shows 10 s. The clock is set back to 3 s. The execution fails
and is to be tried again at 4 s, which is what happens. -/
def clockSetBack : List ClockedAct :=
  [⟨0, 10 * sec, .client (.start sampleEnq)⟩, ⟨0, 10 * sec, .client (.advance 0)⟩, ⟨0, 10 * sec, .client (.advance 0)⟩,
   ⟨0, 10 * sec, .client (.advance 0)⟩, ⟨0, 10 * sec, .subscribe "mail"⟩, ⟨1 * sec, 11 * sec, .stream 0 false⟩,
   ⟨1 * sec, 11 * sec, .stream 0 false⟩, ⟨1 * sec, 11 * sec, .stream 0 false⟩,
   ⟨2 * sec, 3 * sec, .client (.op (.retryable 0 (4 * sec) sampleErr))⟩,
   ⟨4 * sec, 5 * sec, .stream 0 false⟩, ⟨4 * sec, 5 * sec, .stream 0 false⟩, ⟨4 * sec, 5 * sec, .stream 0 false⟩]

/-- The hypotheses of `C137_once` are met: two hand-outs with one call between. -/
example : idsTaken ((Streams.init false).callsAt clockSetBack) ≤ 2 ^ 32 ∧
    ((Streams.init false).callsAt clockSetBack).map (fun e => (e.now, e.ev.handsOut 0, e.ev.putsBack 0)) =
      [(10 * sec, false, false), (10 * sec, false, false), (10 * sec, false, false), (10 * sec, false, false),
        (11 * sec, true, false), (3 * sec, false, true), (5 * sec, true, false)] := by
  decide

/-- And that of `C137_due`. -/
example : ∃ j, (((Streams.init false).runAt (clockSetBack.take 11)).stepAt (4 * sec) (5 * sec) (.stream 0 false)).1 = .returned 0 j :=
  ⟨_, rfl⟩

/-- The same on Postgres. -/
def netSetBack : List ClockedNet :=
  [clockedNet 0 (10 * sec) .connect, clockedNet 0 (10 * sec) (.db (.plain sampleEnq)), clockedNet 0 (10 * sec) (.subscribe 0 "mail")] ++
  List.replicate 7 (clockedNet sec (11 * sec) (.stream 0 false)) ++
  [clockedNet (2 * sec) (3 * sec) (.db (.stmt (.retryable 1 (4 * sec) sampleErr)))] ++
  List.replicate 7 (clockedNet (4 * sec) (5 * sec) (.stream 0 false))

/-- The hypotheses of `C137_once_on_postgres` are met. -/
example : ((PgNet.traceAt sampleHash sampleParses {} netSetBack).filterMap NetEv.inDb).map
    (fun e => (e.handsOut 1, e.putsBack 1)) =
    [(false, false), (false, false), (false, false), (false, false), (true, false), (false, true), (false, false), (false, false),
      (false, false), (true, false)] := by
  decide

end Rexecutor
