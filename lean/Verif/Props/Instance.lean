import Verif.Model.Instance
import Verif.Props.OwnJobs
import Verif.Props.PgLifecycle

/-! # C97, C98, C99: what an instance executes, how much of it at once, and shutting it down -/

namespace Rexecutor

/-! ## C97 -/

private theorem setup_from (calls : List (SetupCall K)) (i : Instance K) :
    (calls.foldl Instance.call i).runners = i.runners ++ calls.filterMap SetupCall.executor := by
  induction calls generalizing i with
  | nil => simp
  | cons c cs ih =>
    rw [List.foldl_cons, ih]
    cases c with
    | withExecutor d => simp [Instance.call, SetupCall.executor]
    | withCron d k => simp [Instance.call, SetupCall.executor]
    | withPruner c => rw [List.filterMap_cons]; rfl

private theorem setup_runners (calls : List (SetupCall K)) :
    (Instance.setup calls).runners = calls.filterMap SetupCall.executor := by
  unfold Instance.setup
  rw [setup_from]; rfl

/-- A call that enables the executor named `x`: `with_executor` or one of the
`with_cron_executor` calls. -/
def SetupCall.Enables (x : String) : SetupCall K → Prop
  | .withExecutor d => d.name = x
  | .withCron d _ => d.name = x
  | .withPruner _ => False

private theorem enabled_of {calls : List (SetupCall K)} {d : Runner} (h : d ∈ (Instance.setup calls).runners) :
    ∃ c ∈ calls, c.Enables d.name := by
  rw [setup_runners, List.mem_filterMap] at h
  obtain ⟨c, hc, hcd⟩ := h
  refine ⟨c, hc, ?_⟩
  cases c <;> simp [SetupCall.executor] at hcd
  · subst hcd; rfl
  · subst hcd; rfl

/-- **C97, in memory.** Whatever calls an instance was set up with, whatever other clients
do, in every schedule: every job the instance takes is of an executor it was set up for. -/
theorem C97_only_enabled (calls : List (SetupCall K)) (paused : Bool) (as : List TSAct) (e : TSEv)
    (he : e ∈ (Sys.init (Instance.setup calls).runners paused).trace (Instance.setup calls).runners as)
    (r : Nat) (o : Op) (j : Job) (st : Option Started) (hp : e.ev = .pulled r (.op o (.job (some j))) st) :
    ∃ c ∈ calls, c.Enables j.executor := by
  have hr : ∃ d, (Instance.setup calls).runners[r]? = some d := by
    cases hd : (Instance.setup calls).runners[r]? with
    | some d => exact ⟨d, rfl⟩
    | none =>
      exfalso
      generalize hs : Sys.init (Instance.setup calls).runners paused = s at he
      clear hs
      induction as generalizing s with
      | nil => simp [Sys.trace] at he
      | cons a as ih =>
        rcases List.mem_cons.mp he with h | h
        · rw [h] at hp
          have hst := step_sstep (Instance.setup calls).runners a.now s a.act
          simp only at hp
          rw [hp] at hst
          generalize (s.step (Instance.setup calls).runners a.now a.act).2 = s' at hst
          generalize a.act = act at hst
          cases hst with
          | started r d rs j t hd' => rw [hd] at hd'; cases hd'
          | undecodable r d rs j hd' => rw [hd] at hd'; cases hd'
          | panicked r d rs j hd' => rw [hd] at hd'; cases hd'
        · exact ih _ h
  obtain ⟨d, hd⟩ := hr
  rw [(C89_own_jobs _ paused as e he r d o j st hd hp).2.1]
  exact enabled_of (List.mem_of_getElem? hd)

/-- **C97, Postgres.** The same for an instance on Postgres next to any number of runners of
other nodes (`before` and `after`). -/
theorem C97_only_enabled_postgres (hash : HashFn) (calls : List (SetupCall K)) (before after : List Runner) (as : List TPSAct)
    (e : TPSEv)
    (he : e ∈ (PgSys.init (before ++ (Instance.setup calls).runners ++ after)).trace hash
      (before ++ (Instance.setup calls).runners ++ after) as)
    (r : Nat) (j : Job) (st : Option Started) (hp : e.ev = .took (before.length + r) (.job (some j)) st)
    (hr : r < (Instance.setup calls).runners.length) :
    ∃ c ∈ calls, c.Enables j.executor := by
  obtain ⟨pre, post, h⟩ := List.append_of_mem he
  have hd : (before ++ (Instance.setup calls).runners ++ after)[before.length + r]? = some ((Instance.setup calls).runners[r]) := by
    rw [List.append_assoc, List.getElem?_append_right (by omega), Nat.add_sub_cancel_left, List.getElem?_append_left hr,
      List.getElem?_eq_getElem hr]
  rw [(C89_own_jobs_postgres hash _ as pre post e h _ _ j st hd hp).1]
  exact enabled_of (List.getElem_mem hr)

open scoped Classical in
/-- **C97, every enabled executor.** There is one runner for every call that enables an
executor: `n` calls for the same name make `n` runners for it. -/
theorem C97_one_runner_per_call (calls : List (SetupCall K)) (x : String) :
    (Instance.setup calls).runners.countP (fun d => d.name == x) = calls.countP (fun c => decide (c.Enables x)) := by
  rw [setup_runners]
  induction calls with
  | nil => rfl
  | cons c cs ih =>
    cases c with
    | withExecutor d => by_cases h : d.name = x <;> simp [SetupCall.executor, ih, SetupCall.Enables, h]
    | withCron d k => by_cases h : d.name = x <;> simp [SetupCall.executor, ih, SetupCall.Enables, h]
    | withPruner p =>
      rw [List.filterMap_cons, List.countP_cons]
      simp only [SetupCall.executor, ih]
      rw [if_neg (fun h => (of_decide_eq_true h : SetupCall.Enables x (.withPruner p)))]
      rfl

/-- **C97, the loops.** There is one loop that enqueues jobs for every call of
`with_cron_executor`, with the executor and the schedule of that call, and one pruner for every
call of `with_job_pruner`, with its configuration, and no others. -/
theorem C97_loops (calls : List (SetupCall K)) :
    (Instance.setup calls).crons = calls.filterMap (fun c => match c with | .withCron d k => some (d, k) | _ => none) ∧
    (Instance.setup calls).pruners = calls.filterMap (fun c => match c with | .withPruner p => some p | _ => none) := by
  have : ∀ i : Instance K,
      (calls.foldl Instance.call i).crons =
        i.crons ++ calls.filterMap (fun c => match c with | .withCron d k => some (d, k) | _ => none) ∧
      (calls.foldl Instance.call i).pruners =
        i.pruners ++ calls.filterMap (fun c => match c with | .withPruner p => some p | _ => none) := by
    induction calls with
    | nil => simp
    | cons c cs ih =>
      intro i
      rw [List.foldl_cons, (ih _).1, (ih _).2]
      cases c <;> simp [Instance.call]
  simpa [Instance.setup] using this {}

/-- A cron job and its executor enabled separately, and a pruner. -/
def sampleSetup : List (SetupCall Unit) :=
  [.withExecutor (eagerRunner (some 1)), .withPruner .new, .withCron (eagerRunner (some 1)) (), .withExecutor otherRunner]

example : (Instance.setup sampleSetup).runners.map (·.name) = ["mail", "mail", "sms"] ∧
    (Instance.setup sampleSetup).crons.length = 1 ∧ (Instance.setup sampleSetup).pruners.length = 1 := by decide

/-! ## C98 -/

/-- How many executions are in flight, counting the runners of executor `x` only. `n` says
how many each runner has. -/
def inFlightFor (x : String) (defs : List Runner) (n : Nat → Nat) : Nat :=
  ((List.range defs.length).map fun r => if defs[r]?.map (·.name) = some x then n r else 0).sum

/-- The limits of the calls that enable executor `x`, added up. -/
def SetupCall.limitFor (x : String) : SetupCall K → Nat
  | .withExecutor d => if d.name = x then d.maxConcurrency.getD 0 else 0
  | .withCron d _ => if d.name = x then d.maxConcurrency.getD 0 else 0
  | .withPruner _ => 0

private theorem sum_range (f : Runner → Nat) (g : Nat → Nat) (defs : List Runner)
    (h : ∀ (r : Nat) (d : Runner), defs[r]? = some d → g r ≤ f d) :
    ((List.range defs.length).map g).sum ≤ (defs.map f).sum := by
  induction defs generalizing g with
  | nil => simp
  | cons d ds ih =>
    have h0 := h 0 d rfl
    have := ih (fun r => g (r + 1)) (fun r d' hd => h (r + 1) d' hd)
    simp only [List.length_cons, List.range_succ_eq_map, List.map_cons, List.map_map, List.sum_cons]
    have e : (List.map (g ∘ Nat.succ) (List.range ds.length)) = (List.map (fun r => g (r + 1)) (List.range ds.length)) := rfl
    rw [e]
    omega

private theorem limits (calls : List (SetupCall K)) (x : String) :
    (((Instance.setup calls).runners).map fun d => if d.name = x then d.maxConcurrency.getD 0 else 0).sum =
      (calls.map (SetupCall.limitFor x)).sum := by
  rw [setup_runners]
  induction calls with
  | nil => rfl
  | cons c cs ih =>
    cases c with
    | withExecutor d => simp [SetupCall.executor, SetupCall.limitFor, ih]
    | withCron d k => simp [SetupCall.executor, SetupCall.limitFor, ih]
    | withPruner p =>
      rw [List.filterMap_cons, List.map_cons, List.sum_cons]
      simp [SetupCall.executor, SetupCall.limitFor, ih]

/-- The calls that enable `x` are for an executor with a limit of at least one. -/
def Limited (calls : List (SetupCall K)) (x : String) : Prop :=
  ∀ d ∈ (Instance.setup calls).runners, d.name = x → ∃ k, d.maxConcurrency = some k ∧ 1 ≤ k

/-- **C98, what holds.** In every schedule an instance has at most as many executions of an
executor in flight as the limits of all calls that enable this executor allow together. So
if it is enabled once, its limit holds. Missing: executors enabled more than once, for which
the claim is false (`C98_violated`). -/
theorem C98_limit_partial (calls : List (SetupCall K)) (paused : Bool) (as : List TSAct) (x : String) (hl : Limited calls x) :
    inFlightFor x (Instance.setup calls).runners
      (fun r => (((Sys.init (Instance.setup calls).runners paused).run (Instance.setup calls).runners as).flightsOf r).length)
      ≤ (calls.map (SetupCall.limitFor x)).sum := by
  rw [← limits]
  unfold inFlightFor
  refine sum_range _ _ _ fun r d hd => ?_
  rw [hd]
  simp only [Option.map_some, Option.some.injEq]
  split
  · rename_i hx
    obtain ⟨k, hk, hk1⟩ := hl d (List.mem_of_getElem? hd) hx
    rw [hk]
    exact C27_limit_partial _ paused as r k d hd hk hk1
  · exact Nat.le_refl _

/-- **C98, what holds on Postgres.** The same there, counting what the streams are asking
for, for an instance next to any number of runners of other nodes. -/
theorem C98_limit_postgres_partial (hash : HashFn) (calls : List (SetupCall K)) (before after : List Runner) (as : List TPSAct)
    (x : String) (hl : Limited calls x) :
    inFlightFor x (Instance.setup calls).runners
      (fun r => (((PgSys.init (before ++ (Instance.setup calls).runners ++ after)).run hash
        (before ++ (Instance.setup calls).runners ++ after) as).runners[before.length + r]?.map PgRunner.inHand).getD 0)
      ≤ (calls.map (SetupCall.limitFor x)).sum := by
  rw [← limits]
  unfold inFlightFor
  refine sum_range _ _ _ fun r d hd => ?_
  have hlt := (List.getElem?_eq_some_iff.mp hd).1
  have hd' : (before ++ (Instance.setup calls).runners ++ after)[before.length + r]? = some d := by
    rw [List.append_assoc, List.getElem?_append_right (by omega), Nat.add_sub_cancel_left, List.getElem?_append_left hlt, hd]
  rw [hd]
  simp only [Option.map_some, Option.some.injEq]
  split
  · rename_i hx
    obtain ⟨k, hk, hk1⟩ := hl d (List.mem_of_getElem? hd) hx
    rw [hk]
    cases hrs : ((PgSys.init (before ++ (Instance.setup calls).runners ++ after)).run hash
        (before ++ (Instance.setup calls).runners ++ after) as).runners[before.length + r]? with
    | none => exact Nat.zero_le _
    | some rs => exact C73_limit hash _ as _ k d rs hd' hk hk1 hrs
  · exact Nat.le_refl _

/-- Two jobs are enqueued, and both runners of the executor take one. -/
def bothPull : List TSAct :=
  (enqSteps 0 0 sampleEnq ++ enqSteps 0 1 sampleEnq).map (fun a => ⟨a.now, .client a.act⟩) ++ [⟨1, .pull 0⟩, ⟨1, .pull 1⟩]

/-- **C98 fails.** `with_cron_executor` spawns a runner of its own. An executor with
`MAX_CONCURRENCY = Some(1)` that is enabled with `with_executor` and `with_cron_executor`
executes two jobs at once, in memory and on Postgres. -/
theorem C98_violated :
    let calls : List (SetupCall Unit) := [.withExecutor (eagerRunner (some 1)), .withCron (eagerRunner (some 1)) ()]
    let defs := (Instance.setup calls).runners
    inFlightFor "mail" defs (fun r => (((Sys.init defs).run defs bothPull).flightsOf r).length) = 2 ∧
    (((PgSys.init defs).run sampleHash defs ([psAct 5000 (.db (.plain sampleEnq)), psAct 5000 (.db (.plain sampleEnq))] ++
      psPull 6000 0 0 ++ psPull 6000 1 1)).runners.map PgRunner.inFlight) = [1, 1] := by
  decide

/-- `n` jobs are waiting for executor `x` at time `t`, and all that are waiting were enqueued as `e` then -/
private def Stock (e : EnqueuableJob) (x : String) (t : Time) (n : Nat) (s : Sys) : Prop :=
  n ≤ (s.conc.mem.jobs.filter fun k => readyFor t x k.job).length ∧
  ∀ k ∈ s.conc.mem.jobs, readyFor t x k.job = true → ∃ id, k.job = (e.intoJob t id).job

private theorem stock_enqueue {defs : List Runner} {e : EnqueuableJob} {x : String} {t : Time} {n : Nat} {s : Sys}
    (hx : e.executor = x) (hc : e.criteria = none) (hdue : e.scheduledAt ≤ t) (h : Stock e x t n s) :
    ∃ as, Stock e x t (n + 1) (s.run defs as) ∧ (s.run defs as).runners = s.runners := by
  refine ⟨(enqSteps t s.conc.calls.length e).map fun a => ⟨a.now, .client a.act⟩, ?_⟩
  have hjobs : ∃ id, (s.run defs ((enqSteps t s.conc.calls.length e).map fun a => ⟨a.now, .client a.act⟩)).conc.mem.jobs =
      s.conc.mem.jobs ++ [e.intoJob t id] ∧
      (s.run defs ((enqSteps t s.conc.calls.length e).map fun a => ⟨a.now, .client a.act⟩)).runners = s.runners := by
    refine ⟨wrapI32 s.conc.mem.allocated, ?_⟩
    simp [enqSteps, Sys.run, Sys.step, Conc.step, Mem.advance, hc]
  obtain ⟨id, hj, hr⟩ := hjobs
  refine ⟨⟨?_, ?_⟩, hr⟩
  · rw [hj, List.filter_append, List.length_append]
    have : readyFor t x (e.intoJob t id).job = true :=
      readyFor_iff.mpr ⟨hx, by simp only [EnqueuableJob.intoJob, ms, Time] at *; omega, .inl rfl⟩
    have h1 := h.1
    simp only [List.filter_cons, this, if_true, List.filter_nil, List.length_singleton]
    omega
  · intro k hk hrdy
    rw [hj] at hk
    rcases List.mem_append.mp hk with hk | hk
    · exact h.2 k hk hrdy
    · exact ⟨id, by rw [List.mem_singleton.mp hk]⟩

private theorem stock_pull {defs : List Runner} {e : EnqueuableJob} {x : String} {t : Time} {n r k : Nat} {s : Sys}
    {d : Runner} {rs : RunnerState} (hd : defs[r]? = some d) (hname : d.name = x) (hk : d.maxConcurrency = some k)
    (hst : ∀ id, ∃ task, d.start ((e.intoJob t id).job.markExecuting t) = .running task)
    (hr : s.runners[r]? = some rs) (hp : rs.polling = true) (hlt : rs.flights.length < k) (h : Stock e x t (n + 1) s) :
    ∃ rs' : RunnerState, Stock e x t n (s.step defs t (.pull r)).2 ∧ rs'.polling = true ∧ rs'.flights.length = rs.flights.length + 1 ∧
      (s.step defs t (.pull r)).2.runners = s.runners.set r rs' := by
  have hb : belowLimit d.maxConcurrency rs.flights.length = true := by simp [belowLimit, hk, hlt]
  simp only [Sys.step, hd, hr, hp, hb, Bool.and_self, if_true, Conc.step, Mem.step]
  rcases load_cases t d.name s.conc.mem with ⟨hne, -⟩ | ⟨l, y, q, h1, h2, -, -, h5⟩
  · exfalso
    have : s.conc.mem.jobs.filter (fun k => readyFor t x k.job) = [] :=
      List.filter_eq_nil_iff.mpr fun k hk => by rw [← hname, hne k hk]; simp
    have h1 := h.1
    rw [this] at h1
    simp at h1
  · rw [hname] at h2
    have hy : y ∈ s.conc.mem.jobs := by rw [h1]; simp
    obtain ⟨id, hid⟩ := h.2 y hy h2
    obtain ⟨task, htask⟩ := hst id
    rw [h5, hid]
    simp only [htask]
    refine ⟨_, ⟨?_, ?_⟩, ?_, ?_, rfl⟩
    · have h1' := h.1
      rw [h1] at h1'
      have hnot : readyFor t x ((e.intoJob t id).job.markExecuting t) = false :=
        Bool.eq_false_iff.mpr fun hb => by
          have := (readyFor_iff.mp hb).2.2
          simp [Job.markExecuting] at this
      simp only [List.filter_append, List.filter_cons, h2, if_true, List.length_append, List.length_cons, hnot,
        Bool.false_eq_true, if_false] at h1' ⊢
      omega
    · intro k hk hrdy
      rcases List.mem_append.mp hk with hk | hk
      · exact h.2 k (by rw [h1]; simp [hk]) hrdy
      · rcases List.mem_cons.mp hk with rfl | hk
        · exfalso
          have := (readyFor_iff.mp hrdy).2.2
          simp [Job.markExecuting] at this
        · exact h.2 k (by rw [h1]; simp [hk]) hrdy
    · first | exact hp | rfl
    · simp

private theorem stock_pulls {defs : List Runner} {e : EnqueuableJob} {x : String} {t : Time} {n r k : Nat}
    {d : Runner} (hd : defs[r]? = some d) (hname : d.name = x) (hk : d.maxConcurrency = some k)
    (hst : ∀ id, ∃ task, d.start ((e.intoJob t id).job.markExecuting t) = .running task) (m : Nat) :
    ∀ (s : Sys) (rs : RunnerState), s.runners[r]? = some rs → rs.polling = true → rs.flights.length + m ≤ k →
      Stock e x t (n + m) s →
    ∃ (as : List TSAct) (rs' : RunnerState), Stock e x t n (s.run defs as) ∧ rs'.polling = true ∧ rs'.flights.length = rs.flights.length + m ∧
      (s.run defs as).runners = s.runners.set r rs' := by
  induction m with
  | zero =>
    intro s rs hr hp _ h
    refine ⟨[], rs, h, hp, rfl, ?_⟩
    obtain ⟨hl, rfl⟩ := List.getElem?_eq_some_iff.mp hr
    simp [Sys.run]
  | succ m ih =>
    intro s rs hr hp hle h
    obtain ⟨rs₁, g1, g2, g3, g4⟩ := stock_pull hd hname hk hst hr hp (by omega) h
    have hl := (List.getElem?_eq_some_iff.mp hr).1
    obtain ⟨as, rs₂, f1, f2, f3, f4⟩ := ih (s.step defs t (.pull r)).2 rs₁ (by rw [g4]; simp [hl]) g2 (by omega) g1
    refine ⟨⟨t, .pull r⟩ :: as, rs₂, f1, f2, by omega, ?_⟩
    simp only [Sys.run, f4, g4, List.set_set]

/-- **C98: how far it fails.** The limits of the calls that enable an executor add up: for
every sequence of set-up calls there is a schedule in which as many executions of the
executor are in flight at once as these limits allow together, given a job it can start. So
the limit of an executor is exceeded whenever it is enabled twice with a limit. -/
theorem C98_reached (calls : List (SetupCall K)) (paused : Bool) (x : String) (e : EnqueuableJob) (t : Time)
    (hx : e.executor = x) (hc : e.criteria = none) (hdue : e.scheduledAt ≤ t)
    (hst : ∀ d ∈ (Instance.setup calls).runners, d.name = x →
      ∀ id, ∃ task, d.start ((e.intoJob t id).job.markExecuting t) = .running task) :
    ∃ as, inFlightFor x (Instance.setup calls).runners
      (fun r => (((Sys.init (Instance.setup calls).runners paused).run (Instance.setup calls).runners as).flightsOf r).length)
      = (calls.map (SetupCall.limitFor x)).sum := by
  rw [← limits]
  generalize (Instance.setup calls).runners = defs at *
  obtain ⟨lim, hlim⟩ : ∃ lim : Nat → Nat, ∀ r, lim r = match defs[r]? with
    | some d => if d.name = x then d.maxConcurrency.getD 0 else 0
    | none => 0 := ⟨_, fun _ => rfl⟩
  have hsum : (defs.map fun d => if d.name = x then d.maxConcurrency.getD 0 else 0) = (List.range defs.length).map lim := by
    refine List.ext_getElem (by simp) fun i h1 h2 => ?_
    simp only [List.length_map] at h1
    simp [hlim, h1]
  rw [hsum]
  have hstock : ∀ N, ∃ as, Stock e x t N ((Sys.init defs paused).run defs as) ∧
      ((Sys.init defs paused).run defs as).runners = (Sys.init defs paused).runners := by
    intro N
    induction N with
    | zero => exact ⟨[], ⟨Nat.zero_le _, fun k hk => nomatch hk⟩, rfl⟩
    | succ N ih =>
      obtain ⟨as, h, hr⟩ := ih
      obtain ⟨bs, h', hr'⟩ := stock_enqueue (defs := defs) hx hc hdue h
      exact ⟨as ++ bs, by rw [Sys.run_append]; exact h', by rw [Sys.run_append, hr', hr]⟩
  have hfill : ∀ n, n ≤ defs.length → ∀ M, ∃ as, Stock e x t M ((Sys.init defs paused).run defs as) ∧
      ((Sys.init defs paused).run defs as).runners.length = defs.length ∧
      ∀ (r : Nat) (rs : RunnerState), ((Sys.init defs paused).run defs as).runners[r]? = some rs →
        rs.polling = true ∧ rs.flights.length = if r < n then lim r else 0 := by
    intro n
    induction n with
    | zero =>
      intro _ M
      obtain ⟨as, h, hr⟩ := hstock M
      refine ⟨as, h, by rw [hr]; simp [Sys.init], fun r rs hrs => ?_⟩
      rw [hr] at hrs
      simp only [Sys.init, List.getElem?_map, Option.map_eq_some_iff] at hrs
      obtain ⟨_, _, rfl⟩ := hrs
      simp
    | succ n ih =>
      intro hn M
      obtain ⟨as, h, hl, hr⟩ := ih (by omega) (M + lim n)
      have hlt : n < ((Sys.init defs paused).run defs as).runners.length := by omega
      have hget : ((Sys.init defs paused).run defs as).runners[n]? = some ((Sys.init defs paused).run defs as).runners[n] :=
        List.getElem?_eq_getElem hlt
      have hd : defs[n]? = some defs[n] := List.getElem?_eq_getElem hn
      have hrn := hr n _ hget
      simp only [Nat.lt_irrefl, if_false] at hrn
      have done : lim n = 0 → Stock e x t M ((Sys.init defs paused).run defs as) → ∃ as, Stock e x t M ((Sys.init defs paused).run defs as) ∧
          ((Sys.init defs paused).run defs as).runners.length = defs.length ∧
          ∀ (r : Nat) (rs : RunnerState), ((Sys.init defs paused).run defs as).runners[r]? = some rs →
            rs.polling = true ∧ rs.flights.length = if r < n + 1 then lim r else 0 := by
        intro h0 hs
        refine ⟨as, hs, hl, fun r rs hrs => ⟨(hr r rs hrs).1, ?_⟩⟩
        rw [(hr r rs hrs).2]
        by_cases hrn' : r = n
        · subst hrn'; simp [h0]
        · have : r < n + 1 ↔ r < n := by omega
          simp [this]
      have hlimn := hlim n
      rw [hd] at hlimn
      simp only at hlimn
      by_cases hname : defs[n].name = x
      · rw [if_pos hname] at hlimn
        cases hk : defs[n].maxConcurrency with
        | none =>
          rw [hk] at hlimn
          exact done hlimn (by simpa [hlimn] using h)
        | some k =>
          rw [hk] at hlimn
          simp only [Option.getD_some] at hlimn
          rw [hlimn] at h
          obtain ⟨bs, rs', f1, f2, f3, f4⟩ := stock_pulls (n := M) hd hname hk (hst _ (List.getElem_mem hn) hname) k
            _ _ hget hrn.1 (by omega) h
          refine ⟨as ++ bs, ?_⟩
          rw [Sys.run_append]
          refine ⟨f1, by rw [f4]; simp [hl], fun r rs hrs => ?_⟩
          rw [f4, List.getElem?_set] at hrs
          split at hrs
          · rename_i hnr
            subst hnr
            simp only [hlt, if_true, Option.some.injEq] at hrs
            subst hrs
            refine ⟨f2, ?_⟩
            rw [f3, hrn.2, if_pos (Nat.lt_succ_self _), hlimn, Nat.zero_add]
          · rename_i hnr
            refine ⟨(hr r rs hrs).1, ?_⟩
            rw [(hr r rs hrs).2]
            have : r < n + 1 ↔ r < n := by omega
            simp [this]
      · rw [if_neg hname] at hlimn
        exact done hlimn (by simpa [hlimn] using h)
  obtain ⟨as, -, hl, hr⟩ := hfill defs.length (Nat.le_refl _) 0
  refine ⟨as, ?_⟩
  unfold inFlightFor
  congr 1
  refine List.map_congr_left fun r hmem => ?_
  have hlt : r < defs.length := List.mem_range.mp hmem
  have hget := List.getElem?_eq_getElem (l := ((Sys.init defs paused).run defs as).runners) (i := r) (by omega)
  have hrn := (hr r _ hget).2
  rw [if_pos hlt] at hrn
  simp only []
  rw [flightsOf_some hget, hrn]
  split
  · rfl
  · rename_i hne
    rw [hlim, List.getElem?_eq_getElem hlt] at *
    simp only [Option.map_some, Option.some.injEq] at hne
    simp [hne]

/-- The set-up of `C98_violated` with other limits: five executions at once. -/
example :
    let calls : List (SetupCall Unit) := [.withExecutor (eagerRunner (some 2)), .withCron (eagerRunner (some 3)) ()]
    (calls.map (SetupCall.limitFor "mail")).sum = 5 ∧ sampleEnq.executor = "mail" ∧ sampleEnq.criteria = none ∧ sampleEnq.scheduledAt ≤ 0 ∧
    ∀ d ∈ (Instance.setup calls).runners, d.name = "mail" →
      ∀ id, ∃ task, d.start ((sampleEnq.intoJob 0 id).job.markExecuting 0) = .running task := by
  refine ⟨by decide, by decide, by decide, by decide, fun d hd _ id => ?_⟩
  rcases List.mem_cons.mp hd with rfl | hd
  · exact ⟨_, rfl⟩
  · rw [List.mem_singleton.mp hd]; exact ⟨_, rfl⟩

/-- No row is ready for the executor, no session holds a row, and `n` more rows can be
inserted. -/
private structure Idle (x : String) (t : Time) (n : Nat) (c : PgConc) : Prop where
  none_ready : ∀ r ∈ c.pg.rows, r.ready t x = false
  ids : ∀ r ∈ c.pg.rows, r.id ≤ (c.pg.seq : Int)
  unlocked : ∀ s ∈ c.sessions, s.rowLock = none
  room : c.pg.seq + n ≤ 2147483647

private theorem idle_round {hash : HashFn} {defs : List Runner} {e : EnqueuableJob} {x : String} {t : Time} {n r k : Nat} {s : PgSys}
    {d : Runner} {rs : PgRunner} (hx : e.executor = x) (hdue : e.scheduledAt ≤ t)
    (hd : defs[r]? = some d) (hname : d.name = x) (hk : d.maxConcurrency = some k)
    (hst : ∀ id j, ((e.toRow t id none).markExecuting t).decode = some j → ∃ task, d.start j = .running task)
    (hr : s.runners[r]? = some rs) (hp : rs.polling = true) (hlo : rs.loading = none) (hlt : rs.inFlight < k)
    (h : Idle x t (n + 1) s.conc) :
    ∃ (as : List TPSAct) (rs' : PgRunner), Idle x t n (s.run hash defs as).conc ∧ rs'.polling = true ∧ rs'.loading = none ∧
      rs'.inFlight = rs.inFlight + 1 ∧ (s.run hash defs as).runners = s.runners.set r rs' := by
  have hroom := h.room
  generalize hrow : e.toRow t ((s.conc.pg.seq + 1 : Nat) : Int) none = row
  have hid : row.id = ((s.conc.pg.seq + 1 : Nat) : Int) := by rw [← hrow]; rfl
  have hrdy : row.ready t x = true := by
    rw [← hrow]
    have := pgTime_mono hdue
    simp only [Row.ready, EnqueuableJob.toRow, hx, Bool.and_eq_true, Bool.or_eq_true, beq_iff_eq, decide_eq_true_eq, ms, Time] at *
    exact ⟨⟨by omega, .inl trivial⟩, trivial⟩
  obtain ⟨j, hj⟩ : ∃ j, (row.markExecuting t).decode = some j := by
    rw [← hrow]; exact ⟨_, rfl⟩
  obtain ⟨task, htask⟩ := hst _ j (by rw [hrow]; exact hj)
  have hb : belowLimit d.maxConcurrency rs.inFlight = true := by simp [belowLimit, hk, hlt]
  have hl := (List.getElem?_eq_some_iff.mp hr).1
  let tie : Int → Nat := fun _ => 0
  let m := s.conc.sessions.length
  let c₁ : PgConc := { pg := { rows := s.conc.pg.rows ++ [row], seq := s.conc.pg.seq + 1 }, sessions := s.conc.sessions }
  let c₄ : PgConc := { c₁ with sessions := s.conc.sessions ++ [.locked x t row.id] }
  let c₅ : PgConc :=
    { pg := { rows := s.conc.pg.rows ++ [row.markExecuting t], seq := s.conc.pg.seq + 1 }
      sessions := s.conc.sessions ++ [.done (.job (some j))] }
  have e₁ : s.conc.step hash tie t (.plain e) = (.inserted row none, c₁) := by
    simp only [PgConc.step]
    rw [if_neg (by omega), hrow]
  have hf : c₁.pg.rows.filter (Row.ready t x) = [row] := by
    simp only [c₁, List.filter_append]
    rw [List.filter_eq_nil_iff.mpr fun r hr => by rw [h.none_ready r hr]; simp]
    simp [hrdy]
  have e₄ : ∀ c : PgConc, c.pg = c₁.pg → c.sessions = s.conc.sessions ++ [.looking x t c₁.pg.rows] →
      c.step hash tie t (.advance m) = (.internal, c₄) := by
    intro c hc hs
    have hfree : c.rowLocked row.id = false := by
      unfold PgConc.rowLocked
      rw [hs, List.any_eq_false]
      intro q hq
      rcases List.mem_append.mp hq with hq | hq
      · rw [h.unlocked q hq]; simp
      · rw [List.mem_singleton.mp hq]; simp [Session.rowLock]
    have hany : (c.pg.rows.any fun r' => r'.id == row.id && r'.ready t x) = true := by
      rw [hc, List.any_eq_true]
      exact ⟨row, by simp [c₁], by simp [hrdy]⟩
    have hg : c.sessions[m]? = some (.looking x t c₁.pg.rows) := by rw [hs]; simp [m]
    have hsort : sortBy (Row.before tie) [row] = [row] := rfl
    have hfind : ([row].find? fun r => !c.rowLocked r.id && c.pg.rows.any fun r' => r'.id == r.id && r'.ready t x) = some row := by
      simp only [List.find?_cons, hfree, hany, Bool.not_false, Bool.and_self]
    simp only [PgConc.step, hg, PgConc.advance, hf, hsort, hfind]
    simp [hs, hc, c₄, m]
  have e₅ : c₄.step hash tie t (.advance m) = (.handedOut (row.markExecuting t) (.job (some j)), c₅) := by
    have hg : c₄.sessions[m]? = some (.locked x t row.id) := by simp [c₄, m]
    have hne : ∀ r ∈ s.conc.pg.rows, r.id ≠ row.id := fun r hr => by
      have := h.ids r hr
      rw [hid]; omega
    have hfind : c₄.pg.rows.find? (fun r => r.id == row.id) = some row := by
      simp only [c₄, c₁, List.find?_append]
      rw [List.find?_eq_none.mpr fun r hr => by simp [hne r hr]]
      simp
    have hup : (updateRows row.id (Row.markExecuting t) c₄.pg.rows).1 = s.conc.pg.rows ++ [row.markExecuting t] := by
      simp only [updateRows, c₄, c₁, List.map_append, List.map_cons, if_true, List.map_nil]
      congr 1
      exact (List.map_congr_left fun r hr => if_neg (hne r hr)).trans (List.map_id' _)
    simp only [PgConc.step, hg, PgConc.advance, hfind, hj, hup]
    simp [c₅, c₄, c₁, m]
  refine ⟨[⟨t, tie, .db (.plain e)⟩, ⟨t, tie, .pull r⟩, ⟨t, tie, .db (.advance m)⟩, ⟨t, tie, .db (.advance m)⟩, ⟨t, tie, .db (.advance m)⟩, ⟨t, tie, .take r⟩],
    { rs with flights := rs.flights ++ [some { task := task }] }, ?_⟩
  have hrun : s.run hash defs [⟨t, tie, .db (.plain e)⟩, ⟨t, tie, .pull r⟩, ⟨t, tie, .db (.advance m)⟩, ⟨t, tie, .db (.advance m)⟩, ⟨t, tie, .db (.advance m)⟩, ⟨t, tie, .take r⟩] =
      { conc := c₅, runners := s.runners.set r { rs with flights := rs.flights ++ [some { task := task }] } } := by
    have s₁ : (s.step hash defs tie t (.db (.plain e))).2 = { s with conc := c₁ } := by simp only [PgSys.step, e₁]
    have s₂ : (PgSys.step hash defs tie t { s with conc := c₁ } (.pull r)).2 =
        { conc := { c₁ with sessions := s.conc.sessions ++ [.handout x] }, runners := s.runners.set r { rs with loading := some m } } := by
      simp only [PgSys.step, hd, hr, hp, hb, hlo, Option.isNone_none, Bool.and_self, if_true, PgConc.step, hname]
      rfl
    have s₃ : ∀ rr, (PgSys.step hash defs tie t { conc := { c₁ with sessions := s.conc.sessions ++ [.handout x] }, runners := rr } (.db (.advance m))).2 =
        { conc := { c₁ with sessions := s.conc.sessions ++ [.looking x t c₁.pg.rows] }, runners := rr } := by
      intro rr
      simp [PgSys.step, PgConc.step, PgConc.advance, m]
    have s₄ : ∀ rr, (PgSys.step hash defs tie t { conc := { c₁ with sessions := s.conc.sessions ++ [.looking x t c₁.pg.rows] }, runners := rr } (.db (.advance m))).2 =
        { conc := c₄, runners := rr } := by
      intro rr
      simp only [PgSys.step]
      rw [e₄ { c₁ with sessions := s.conc.sessions ++ [.looking x t c₁.pg.rows] } rfl rfl]
    have s₅ : ∀ rr, (PgSys.step hash defs tie t { conc := c₄, runners := rr } (.db (.advance m))).2 = { conc := c₅, runners := rr } := by
      intro rr
      simp only [PgSys.step, e₅]
    have s₆ : (PgSys.step hash defs tie t { conc := c₅, runners := s.runners.set r { rs with loading := some m } } (.take r)).2 =
        { conc := c₅, runners := s.runners.set r { rs with flights := rs.flights ++ [some { task := task }] } } := by
      have hg : c₅.sessions[m]? = some (.done (.job (some j))) := by simp [c₅, m]
      simp only [PgSys.step, hd, List.getElem?_set_self hl, Option.bind_some, hg, htask, List.set_set, ← hlo]
    simp only [PgSys.run, s₁, s₂, s₃, s₄, s₅, s₆]
  rw [hrun]
  refine ⟨⟨?_, ?_, ?_, ?_⟩, hp, hlo, ?_, rfl⟩
  · intro q hq
    rcases List.mem_append.mp hq with hq | hq
    · exact h.none_ready q hq
    · rw [List.mem_singleton.mp hq]
      simp [Row.ready, Row.markExecuting]
  · intro q hq
    rcases List.mem_append.mp hq with hq | hq
    · have := h.ids q hq
      simp only [c₅]; omega
    · rw [List.mem_singleton.mp hq]
      simp only [Row.markExecuting, hid, c₅]
      exact Int.le_refl _
  · intro q hq
    rcases List.mem_append.mp hq with hq | hq
    · exact h.unlocked q hq
    · rw [List.mem_singleton.mp hq]; rfl
  · simp only [c₅]; omega
  · simp [PgRunner.inFlight]

private theorem idle_rounds {hash : HashFn} {defs : List Runner} {e : EnqueuableJob} {x : String} {t : Time} {n r k : Nat}
    {d : Runner} (hx : e.executor = x) (hdue : e.scheduledAt ≤ t)
    (hd : defs[r]? = some d) (hname : d.name = x) (hk : d.maxConcurrency = some k)
    (hst : ∀ id j, ((e.toRow t id none).markExecuting t).decode = some j → ∃ task, d.start j = .running task) (m : Nat) :
    ∀ (s : PgSys) (rs : PgRunner), s.runners[r]? = some rs → rs.polling = true → rs.loading = none → rs.inFlight + m ≤ k →
      Idle x t (n + m) s.conc →
    ∃ (as : List TPSAct) (rs' : PgRunner), Idle x t n (s.run hash defs as).conc ∧ rs'.polling = true ∧ rs'.loading = none ∧
      rs'.inFlight = rs.inFlight + m ∧ (s.run hash defs as).runners = s.runners.set r rs' := by
  induction m with
  | zero =>
    intro s rs hr hp hlo _ h
    refine ⟨[], rs, h, hp, hlo, rfl, ?_⟩
    obtain ⟨hl, rfl⟩ := List.getElem?_eq_some_iff.mp hr
    simp [PgSys.run]
  | succ m ih =>
    intro s rs hr hp hlo hle h
    obtain ⟨as, rs₁, g1, g2, g3, g4, g5⟩ := idle_round (hash := hash) (n := n + m) hx hdue hd hname hk hst hr hp hlo (by omega) h
    have hl := (List.getElem?_eq_some_iff.mp hr).1
    obtain ⟨bs, rs₂, f1, f2, f3, f4, f5⟩ := ih (s.run hash defs as) rs₁ (by rw [g5]; simp [hl]) g2 g3 (by omega) g1
    refine ⟨as ++ bs, rs₂, ?_⟩
    rw [PgSys.run_append]
    refine ⟨f1, f2, f3, by omega, ?_⟩
    rw [f5, g5, List.set_set]

/-- **C98: how far it fails, on Postgres.** The same there, as long as the table has room for
that many jobs: for every sequence of set-up calls there is a schedule in which as many
executions of the executor are in flight at once as the limits of the calls allow together. -/
theorem C98_reached_on_postgres (hash : HashFn) (calls : List (SetupCall K)) (x : String) (e : EnqueuableJob) (t : Time)
    (hx : e.executor = x) (hdue : e.scheduledAt ≤ t) (hroom : (calls.map (SetupCall.limitFor x)).sum ≤ 2147483647)
    (hst : ∀ d ∈ (Instance.setup calls).runners, d.name = x →
      ∀ id j, ((e.toRow t id none).markExecuting t).decode = some j → ∃ task, d.start j = .running task) :
    ∃ as, inFlightFor x (Instance.setup calls).runners
      (fun r => (((PgSys.init (Instance.setup calls).runners).run hash (Instance.setup calls).runners as).runners[r]?.map
        PgRunner.inFlight).getD 0)
      = (calls.map (SetupCall.limitFor x)).sum := by
  rw [← limits] at hroom ⊢
  generalize (Instance.setup calls).runners = defs at *
  obtain ⟨lim, hlim⟩ : ∃ lim : Nat → Nat, ∀ r, lim r = match defs[r]? with
    | some d => if d.name = x then d.maxConcurrency.getD 0 else 0
    | none => 0 := ⟨_, fun _ => rfl⟩
  have hsum : (defs.map fun d => if d.name = x then d.maxConcurrency.getD 0 else 0) = (List.range defs.length).map lim := by
    refine List.ext_getElem (by simp) fun i h1 h2 => ?_
    simp only [List.length_map] at h1
    simp [hlim, h1]
  rw [hsum] at hroom ⊢
  have hfill : ∀ n, n ≤ defs.length → ∀ M, M + ((List.range n).map lim).sum ≤ 2147483647 →
      ∃ as, Idle x t M ((PgSys.init defs).run hash defs as).conc ∧
      ((PgSys.init defs).run hash defs as).runners.length = defs.length ∧
      ∀ (r : Nat) (rs : PgRunner), ((PgSys.init defs).run hash defs as).runners[r]? = some rs →
        rs.polling = true ∧ rs.loading = none ∧ rs.inFlight = if r < n then lim r else 0 := by
    intro n
    induction n with
    | zero =>
      intro _ M hM
      refine ⟨[], ⟨fun r hr => (by cases hr), fun r hr => (by cases hr), fun q hq => (by cases hq), ?_⟩, by simp [PgSys.run, PgSys.init], fun r rs hrs => ?_⟩
      · simpa [PgSys.run, PgSys.init] using hM
      · simp only [PgSys.run, PgSys.init, List.getElem?_map, Option.map_eq_some_iff] at hrs
        obtain ⟨_, _, rfl⟩ := hrs
        simp [PgRunner.inFlight]
    | succ n ih =>
      intro hn M hM
      simp only [List.range_succ, List.map_append, List.map_cons, List.map_nil, List.sum_append, List.sum_cons, List.sum_nil] at hM
      obtain ⟨as, h, hl, hr⟩ := ih (by omega) (M + lim n) (by omega)
      have hlt : n < ((PgSys.init defs).run hash defs as).runners.length := by omega
      have hget : ((PgSys.init defs).run hash defs as).runners[n]? = some ((PgSys.init defs).run hash defs as).runners[n] :=
        List.getElem?_eq_getElem hlt
      have hd : defs[n]? = some defs[n] := List.getElem?_eq_getElem hn
      have hrn := hr n _ hget
      simp only [Nat.lt_irrefl, if_false] at hrn
      have done : lim n = 0 → Idle x t M ((PgSys.init defs).run hash defs as).conc →
          ∃ as, Idle x t M ((PgSys.init defs).run hash defs as).conc ∧
          ((PgSys.init defs).run hash defs as).runners.length = defs.length ∧
          ∀ (r : Nat) (rs : PgRunner), ((PgSys.init defs).run hash defs as).runners[r]? = some rs →
            rs.polling = true ∧ rs.loading = none ∧ rs.inFlight = if r < n + 1 then lim r else 0 := by
        intro h0 hs
        refine ⟨as, hs, hl, fun r rs hrs => ⟨(hr r rs hrs).1, (hr r rs hrs).2.1, ?_⟩⟩
        rw [(hr r rs hrs).2.2]
        by_cases hrn' : r = n
        · subst hrn'; simp [h0]
        · have : r < n + 1 ↔ r < n := by omega
          simp [this]
      have hlimn := hlim n
      rw [hd] at hlimn
      simp only at hlimn
      by_cases hname : defs[n].name = x
      · rw [if_pos hname] at hlimn
        cases hk : defs[n].maxConcurrency with
        | none =>
          rw [hk] at hlimn
          exact done hlimn (by simpa [hlimn] using h)
        | some k =>
          rw [hk] at hlimn
          simp only [Option.getD_some] at hlimn
          rw [hlimn] at h
          obtain ⟨bs, rs', f1, f2, f3, f4, f5⟩ := idle_rounds (hash := hash) (n := M) hx hdue hd hname hk
            (hst _ (List.getElem_mem hn) hname) k _ _ hget hrn.1 hrn.2.1 (by omega) h
          refine ⟨as ++ bs, ?_⟩
          rw [PgSys.run_append]
          refine ⟨f1, by rw [f5]; simp [hl], fun r rs hrs => ?_⟩
          rw [f5, List.getElem?_set] at hrs
          split at hrs
          · rename_i hnr
            subst hnr
            simp only [hlt, if_true, Option.some.injEq] at hrs
            subst hrs
            refine ⟨f2, f3, ?_⟩
            rw [f4, hrn.2.2, if_pos (Nat.lt_succ_self _), hlimn, Nat.zero_add]
          · rename_i hnr
            refine ⟨(hr r rs hrs).1, (hr r rs hrs).2.1, ?_⟩
            rw [(hr r rs hrs).2.2]
            have : r < n + 1 ↔ r < n := by omega
            simp [this]
      · rw [if_neg hname] at hlimn
        exact done hlimn (by simpa [hlimn] using h)
  obtain ⟨as, -, hl, hr⟩ := hfill defs.length (Nat.le_refl _) 0 (by omega)
  refine ⟨as, ?_⟩
  unfold inFlightFor
  congr 1
  refine List.map_congr_left fun r hmem => ?_
  have hlt : r < defs.length := List.mem_range.mp hmem
  have hget := List.getElem?_eq_getElem (l := ((PgSys.init defs).run hash defs as).runners) (i := r) (by omega)
  have hrn := (hr r _ hget).2.2
  rw [if_pos hlt] at hrn
  simp only []
  rw [hget, Option.map_some, Option.getD_some, hrn]
  split
  · rfl
  · rename_i hne
    rw [hlim, List.getElem?_eq_getElem hlt] at *
    simp only [Option.map_some, Option.some.injEq] at hne
    simp [hne]

/-- The same set-up there. -/
example :
    let calls : List (SetupCall Unit) := [.withExecutor (eagerRunner (some 2)), .withCron (eagerRunner (some 3)) ()]
    (calls.map (SetupCall.limitFor "mail")).sum = 5 ∧ sampleEnq.executor = "mail" ∧ sampleEnq.scheduledAt ≤ 0 ∧
    ∀ d ∈ (Instance.setup calls).runners, d.name = "mail" →
      ∀ id j, ((sampleEnq.toRow 0 id none).markExecuting 0).decode = some j → ∃ task, d.start j = .running task := by
  refine ⟨by decide, by decide, by decide, fun d hd _ id j hj => ?_⟩
  cases hj
  rcases List.mem_cons.mp hd with rfl | hd
  · exact ⟨_, rfl⟩
  · rw [List.mem_singleton.mp hd]; exact ⟨_, rfl⟩

/-- Enabled once, the limit holds: the second job is not taken. -/
example :
    let calls : List (SetupCall Unit) := [.withCron (eagerRunner (some 1)) (), .withExecutor otherRunner]
    let defs := (Instance.setup calls).runners
    (calls.map (SetupCall.limitFor "mail")).sum = 1 ∧
    inFlightFor "mail" defs (fun r => (((Sys.init defs).run defs (bothPull ++ [⟨1, .pull 0⟩])).flightsOf r).length) = 1 := by
  decide

/-! ## C99 -/

/-- A job is handed out and its execution started; then `graceful_shutdown` is called and
returns, and the process ends. -/
def endAfterShutdown : List TPSAct :=
  [psAct 5000 (.db (.plain sampleEnq))] ++ psPull 6000 0 0 ++ [psAct 7000 (.stop 0), psAct 7000 (.kill 0)]

/-- **C99 fails.** `graceful_shutdown` (rexecutor/src/lib.rs:997-1000) only cancels the token
and returns; nothing can be awaited. If the process ends after it has returned, as when it is
the last call of `main`, the executions in flight are lost: the job stays `Executing`, no
runner has it, and in no continuation is it ever executed again as long as nobody reruns
or edits it. -/
theorem C99_violated :
    let s := (PgSys.init [sampleRunner, sampleRunner]).run sampleHash [sampleRunner, sampleRunner] endAfterShutdown
    s.conc.pg.rows.map (fun r => (r.id, r.status, r.attempt)) = [(1, .executing, 1)] ∧ ¬ s.hasJob 1 ∧
    ∀ bs : List TPSAct, OthersLeave 1 (s.trace sampleHash [sampleRunner, sampleRunner] bs) →
      ∀ e ∈ s.trace sampleHash [sampleRunner, sampleRunner] bs, e.ev.executes 1 = false := by
  intro s
  have hno : ¬ s.hasJob 1 := by
    rintro ⟨rs, hrs, h⟩
    have hr : s.runners = [{ polling := false }, {}] := rfl
    rw [hr] at hrs
    simp only [List.mem_cons, List.not_mem_nil, or_false] at hrs
    rcases hrs with rfl | rfl
    · rcases h with ⟨f, hf, -⟩ | ⟨k, j, h, -⟩
      · simp at hf
      · cases h
    · rcases h with ⟨f, hf, -⟩ | ⟨k, j, h, -⟩
      · simp at hf
      · cases h
  refine ⟨by decide, hno, fun bs hq => ?_⟩
  have hlen : 0 < s.conc.pg.rows.length := by decide
  have hid : s.conc.pg.rows[0].id = 1 := rfl
  have hst : s.conc.pg.rows[0].status = .executing := rfl
  have := C69_stranded_for_good sampleHash [sampleRunner, sampleRunner] endAfterShutdown bs s.conc.pg.rows[0]
    (List.getElem_mem hlen) hst (by rw [hid]; exact hno) (by rw [hid]; exact hq)
  rw [hid] at this
  exact this.2.2

/-- **C99, what holds.** If the process of a runner ends only when the runner has no execution
in flight and its stream is not waiting for a hand-out statement, then every job stored as
`Executing` is still in the hands of a runner (of another process). Missing: a process that
ends earlier, although `graceful_shutdown` has returned (`C99_violated`). -/
theorem C99_waited_partial (hash : HashFn) (defs : List Runner) (as : List TPSAct) (a : TPSAct) (r : Nat) (rs : PgRunner)
    (hno : ∀ a ∈ as, ∀ x, a.act ≠ .db (.handout x))
    (hsm : ∀ e ∈ (PgSys.init defs).trace hash defs as, e.ev.smooth = true)
    (hr : ((PgSys.init defs).run hash defs as).runners[r]? = some rs) (hl : rs.loading = none) (hf : rs.inFlight = 0)
    (ha : a.act = .kill r) :
    ∀ row ∈ ((PgSys.init defs).run hash defs (as ++ [a])).conc.pg.rows, row.status = .executing →
      ((PgSys.init defs).run hash defs (as ++ [a])).hasJob row.id := by
  intro row hrow hex
  rw [PgSys.run_append] at hrow ⊢
  generalize hs : (PgSys.init defs).run hash defs as = s at *
  have hstep : s.run hash defs [a] = { s with runners := s.runners.set r rs.crash } := by
    simp only [PgSys.run, ha, PgSys.step, hr]
  rw [hstep] at hrow ⊢
  have hhas := C69_executing_has_executor_partial hash defs as hno hsm row (by rw [hs]; exact hrow) hex
  rw [hs] at hhas
  obtain ⟨qs, hqs, h⟩ := hhas
  obtain ⟨q, hq⟩ := List.mem_iff_getElem?.mp hqs
  have hqr : q ≠ r := by
    rintro rfl
    rw [hr] at hq
    cases hq
    rcases h with ⟨f, hfm, -⟩ | ⟨k, j, h, -⟩
    · have : rs.flights.filterMap id = [] := List.length_eq_zero_iff.mp hf
      rw [List.filterMap_eq_nil_iff] at this
      have := this _ hfm
      cases this
    · rw [hl] at h; cases h
  exact ⟨qs, List.mem_iff_getElem?.mpr ⟨q, by rw [List.getElem?_set_ne (Ne.symm hqr)]; exact hq⟩, h⟩

/-- Two nodes; the first one executes the job, is told to stop, reports and ends, while the
second one executes another job. -/
example :
    let ds := [sampleRunner, sampleRunner]
    let as := [psAct 5000 (.db (.plain sampleEnq)), psAct 5000 (.db (.plain sampleEnq))] ++ psPull 6000 0 0 ++ psPull 6000 1 1 ++
      [psAct 7000 (.stop 0), psAct 8000 (.finish 0 0 { ending := .returns .done }), psAct 8000 (.report 0 0)]
    let s := (PgSys.init ds).run sampleHash ds as
    (as.all fun a => match a.act with | .db (.handout _) => false | _ => true) = true ∧
    (∀ e ∈ (PgSys.init ds).trace sampleHash ds as, e.ev.smooth = true) ∧
    s.runners[0]?.map (fun rs => (rs.loading, rs.inFlight)) = some (none, 0) ∧
    s.conc.pg.rows.map (·.status) = [.complete, .executing] := by
  decide

end Rexecutor
