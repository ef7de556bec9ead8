import Verif.Lemmas.LiveSys
import Verif.Props.LiveShutdown
import Verif.Props.OwnJobs
import Verif.Props.Lifecycle

/-!
# C125: how a runner waits makes no difference to what it does

Runners with their streams (`Live`) against runners that ask the backend directly (`Sys`).
-/

namespace Rexecutor

/-- What a schedule of runners with streams looks like from outside. -/
def Live.seen (defs : List Runner) (paused : Bool) (as : List TLvAct) : List TSEv :=
  ((Live.init defs paused).trace defs as).filterMap fun e => (e.ev.visible defs).map fun v => ⟨e.now, v⟩

/-- **C125.** Whatever runners with streams do is what runners do that ask the backend directly: for every
schedule of the former there is one of the latter with the same calls, hand-outs, ends of executions and reports,
at the same times, in the same order, and in the end the same jobs, ids, enqueue calls and executions in
flight. This includes schedules with a shutdown. -/
theorem C125_same (defs : List Runner) (paused : Bool) (as : List TLvAct) :
    ∃ bs : List TSAct, (Sys.init defs paused).trace defs bs = Live.seen defs paused as ∧
      ((Sys.init defs paused).run defs bs).conc.mem.jobs = ((Live.init defs paused).run defs as).streams.conc.mem.jobs ∧
      ((Sys.init defs paused).run defs bs).conc.mem.allocated = ((Live.init defs paused).run defs as).streams.conc.mem.allocated ∧
      ((Sys.init defs paused).run defs bs).conc.calls = ((Live.init defs paused).run defs as).streams.conc.calls ∧
      ∀ (r : Nat) (q : LiveRunner), ((Live.init defs paused).run defs as).runners[r]? = some q →
        ((Sys.init defs paused).run defs bs).flightsOf r = q.state.flights := by
  obtain ⟨bs, h1, h2⟩ := live_refines defs (liveSim_init defs paused) as
  refine ⟨bs, h1, h2.conc.mem.jobs, h2.conc.mem.allocated, h2.conc.calls, fun r q hq => ?_⟩
  obtain ⟨rs, g1, g2, -⟩ := h2.runners r q hq
  rw [flightsOf_some g1, g2]

/-- **C125, limit.** A runner with its stream never has more executions in flight than its limit, which has to be
at least 1 (see C27). -/
theorem C125_limit (defs : List Runner) (paused : Bool) (as : List TLvAct) (r k : Nat) (d : Runner) (q : LiveRunner)
    (hd : defs[r]? = some d) (hk : d.maxConcurrency = some k) (hk1 : 1 ≤ k)
    (hq : ((Live.init defs paused).run defs as).runners[r]? = some q) : q.state.flights.length ≤ k := by
  obtain ⟨bs, -, -, -, -, h⟩ := C125_same defs paused as
  rw [← h r q hq]
  exact C27_limit_partial defs paused bs r k d hd hk hk1

/-- **C125, own jobs.** A runner's stream returns jobs of the runner's executor only, due (up to 100 ms early) and
marked as executing, and an execution that is started is of the job returned. -/
theorem C125_own_jobs (defs : List Runner) (paused : Bool) (as : List TLvAct) (e : TLvEv)
    (he : e ∈ (Live.init defs paused).trace defs as) (r i : Nat) (d : Runner) (j : Job) (st : Started)
    (hd : defs[r]? = some d) (hev : e.ev = .moved r (.returned i j) (some st)) :
    j.executor = d.name ∧ j.status = .executing ∧ j.scheduledAt < e.now + 100000000 ∧ ∀ t, st = .running t → t.id = j.id := by
  obtain ⟨bs, h, -⟩ := C125_same defs paused as
  have hmem : (⟨e.now, .pulled r (.op (.load d.name) (.job (some j))) (some st)⟩ : TSEv) ∈ (Sys.init defs paused).trace defs bs := by
    rw [h]
    exact List.mem_filterMap.mpr ⟨e, he, by rw [hev]; simp [LvEv.visible, hd]⟩
  obtain ⟨-, h2, h3, h4, h5⟩ := C89_own_jobs defs paused bs _ hmem r d _ j _ hd rfl
  exact ⟨h2, h3, h4, fun t ht => h5 t (by rw [ht])⟩

/-- **C125, attempts.** A job enqueued with `max_attempts = n ≥ 1` that other clients leave alone fails at most `n`
times and is handed out at most `n` times plus once for every snooze, by runners with their streams. -/
theorem C125_attempts (defs : List Runner) (paused : Bool) (as : List TLvAct) (id : Int) (n : Nat) (hn : 1 ≤ n)
    (hb : idsTaken (backHistory (Live.seen defs paused as)) ≤ 2 ^ 32) (hq : ClientsLeave id (Live.seen defs paused as))
    (hi : EnqueuedWith id n (backHistory (Live.seen defs paused as))) :
    countEv (SEv.failsRun id) (Live.seen defs paused as) ≤ n ∧
    handouts id (backHistory (Live.seen defs paused as)) ≤ n + snoozes id (backHistory (Live.seen defs paused as)) := by
  obtain ⟨bs, h, -⟩ := C125_same defs paused as
  rw [← h] at hb hq hi ⊢
  exact C08_failures_bounded defs paused bs id n hn hb hq hi

/-- The runner of `liveRest`, seen from outside: eight steps of two enqueues, two jobs taken, two ends, two reports and
two queries. -/
example : (Live.seen [eagerRunner (some 1)] false (⟨0, .begin 0⟩ :: liveStart ++ liveRest)).map (fun e => match e.ev with
      | .client _ => 1
      | .pulled .. => 2
      | .ended .. => 3
      | .reported .. => 4
      | _ => 0) = [1, 1, 1, 1, 1, 1, 1, 1, 2, 3, 4, 2, 1, 3, 4, 1] := by decide +kernel

/-- The first job of that schedule meets the hypotheses of `C125_attempts` with 2 attempts. -/
example : idsTaken (backHistory (Live.seen [eagerRunner (some 1)] false (⟨0, .begin 0⟩ :: liveStart ++ liveRest))) = 2 ∧
    (∀ e ∈ Live.seen [eagerRunner (some 1)] false (⟨0, .begin 0⟩ :: liveStart ++ liveRest), e.ev.clientTouches 0 = false) ∧
    (∀ e ∈ backHistory (Live.seen [eagerRunner (some 1)] false (⟨0, .begin 0⟩ :: liveStart ++ liveRest)), match e.ev with
      | .inserted id enq => (id != 0 || enq.maxAttempts == 2) = true
      | _ => true = true) ∧
    handouts 0 (backHistory (Live.seen [eagerRunner (some 1)] false (⟨0, .begin 0⟩ :: liveStart ++ liveRest))) = 1 := by
  refine ⟨by decide +kernel, by decide +kernel, ?_, by decide +kernel⟩
  intro e he
  have : (backHistory (Live.seen [eagerRunner (some 1)] false (⟨0, .begin 0⟩ :: liveStart ++ liveRest))).all (fun e => match e.ev with
      | .inserted id enq => id != 0 || enq.maxAttempts == 2
      | _ => true) = true := by decide +kernel
  have := List.all_eq_true.mp this e he
  split <;> simp_all

end Rexecutor
