import Verif.Props.Outcome
import Verif.Spec.Store

/-! # C27, C28: concurrency limit and shutdown -/

namespace Rexecutor

/-! ## C27 -/

/-- **C27.** In every history of any number of runners, a runner whose executor has
`MAX_CONCURRENCY = Some(k)`, `k ≥ 1`, never has more than `k` executions in flight. -/
theorem C27_limit_partial (defs : List Runner) (paused : Bool) (as : List TSAct) (r k : Nat) (d : Runner)
    (hd : defs[r]? = some d) (hk : d.maxConcurrency = some k) (hk1 : 1 ≤ k) :
    (((Sys.init defs paused).run defs as).flightsOf r).length ≤ k := by
  refine sys_induction (fun _ s => (s.flightsOf r).length ≤ k) ?_ ?_ as
  · rw [flightsOf_init]; simp
  · intro h s now a ev s' ih hs
    cases hs with
    | client a => exact ih
    | idle => exact ih
    | empty => exact ih
    | undecodable => exact ih
    | started r' d' rs j t hd' hr hp hl hev hst =>
      rw [flightsOf_set hr]
      split
      · rename_i hrr; subst hrr
        rw [hd, Option.some.injEq] at hd'; subst hd'
        rw [hk] at hl
        simp only [belowLimit, Bool.or_eq_true, beq_iff_eq, decide_eq_true_eq] at hl
        simp only [List.length_append, List.length_cons, List.length_nil]
        omega
      · exact ih
    | panicked r' d' rs j hd' hr hp hl hev hst =>
      rw [flightsOf_set hr]
      split
      · simp [RunnerState.crash]
      · exact ih
    | overflowed r' i b d' rs t j hd' hr hfl hj ho =>
      rw [flightsOf_set hr]
      split
      · simp [RunnerState.crash]
      · exact ih
    | ended r' i b d' rs t j o hd' hr hfl hj ho =>
      rw [flightsOf_set hr]
      split
      · rename_i hrr; subst hrr
        rw [flightsOf_some hr] at ih
        simpa using ih
      · exact ih
    | reported r' i rs t o hr hfl =>
      rw [flightsOf_set hr]
      split
      · rename_i hrr; subst hrr
        rw [flightsOf_some hr] at ih
        exact Nat.le_trans (List.length_eraseIdx_le _ _) ih
      · exact ih
    | shutdown => rw [flightsOf_stop]; exact ih

private theorem pulls_below (defs : List Runner) (s : Sys) (now : Time) (r : Nat) (d : Runner) (rs : RunnerState)
    (hd : defs[r]? = some d) (hr : s.runners[r]? = some rs) (hp : rs.polling = true)
    (hk : belowLimit d.maxConcurrency rs.flights.length = true)
    (hdue : ∃ k ∈ s.conc.mem.jobs, k.job.executor = d.name ∧
      (k.job.status = .scheduled ∨ k.job.status = .retryable) ∧ k.job.scheduledAt ≤ now)
    (hst : ∀ k ∈ s.conc.mem.jobs, ∃ t, d.start (handedOut now k.job) = .running t) :
    ((s.step defs now (.pull r)).2.flightsOf r).length = rs.flights.length + 1 := by
  have hs := step_sstep defs now s (.pull r)
  have hload : ∃ j, (s.conc.step now (.op (.load d.name))).1 = .op (.load d.name) (.job (some j)) ∧
      ∃ t, d.start j = .running t := by
    simp only [Conc.step, Mem.step]
    rcases load_cases now d.name s.conc.mem with ⟨hne, -⟩ | ⟨l, k, r, h1, h2, h3, h4, h5⟩
    · obtain ⟨k, hk, h1, h2, h3⟩ := hdue
      have hr : readyFor now d.name k.job = true := readyFor_iff.mpr
        ⟨h1, by simp only [ms, Time] at *; omega, h2⟩
      rw [hne k hk] at hr; simp at hr
    · rw [h5]; exact ⟨_, rfl, hst k (by rw [h1]; simp)⟩
  have hstep : (s.step defs now (.pull r)).1 ≠ .nothing := by
    simp only [Sys.step, hd, hr, hp, hk, Bool.and_self, if_true]
    obtain ⟨j, hj, -⟩ := hload
    rw [hj]; simp
  generalize (s.step defs now (.pull r)).1 = ev at *
  generalize (s.step defs now (.pull r)).2 = s' at *
  cases hs with
  | idle => simp at hstep
  | empty _ d' rs' hd' hr' hp' hl' hev =>
    obtain ⟨j, hj, -⟩ := hload
    rw [hd, Option.some.injEq] at hd'; subst hd'
    rw [hj] at hev; simp at hev
  | started _ d' rs' j t hd' hr' hp' hl' hev hst' =>
    rw [flightsOf_set hr']
    rw [hr, Option.some.injEq] at hr'; subst hr'
    simp
  | undecodable _ d' rs' j hd' hr' hp' hl' hev hst' =>
    rw [hd, Option.some.injEq] at hd'; subst hd'
    obtain ⟨j', hj, t, ht⟩ := hload
    rw [hj] at hev
    simp only [Ev.op.injEq, Res.job.injEq, Option.some.injEq, true_and] at hev
    subst hev
    rw [ht] at hst'; simp at hst'
  | panicked _ d' rs' j hd' hr' hp' hl' hev hst' =>
    rw [hd, Option.some.injEq] at hd'; subst hd'
    obtain ⟨j', hj, t, ht⟩ := hload
    rw [hj] at hev
    simp only [Ev.op.injEq, Res.job.injEq, Option.some.injEq, true_and] at hev
    subst hev
    rw [ht] at hst'; simp at hst'

/-- **C27, no limit.** A polling runner without limit starts a due, decodable job however
many executions it has in flight. -/
theorem C27_unlimited (defs : List Runner) (s : Sys) (now : Time) (r : Nat) (d : Runner) (rs : RunnerState)
    (hd : defs[r]? = some d) (hr : s.runners[r]? = some rs) (hp : rs.polling = true)
    (hk : d.maxConcurrency = none)
    (hdue : ∃ k ∈ s.conc.mem.jobs, k.job.executor = d.name ∧
      (k.job.status = .scheduled ∨ k.job.status = .retryable) ∧ k.job.scheduledAt ≤ now)
    (hst : ∀ k ∈ s.conc.mem.jobs, ∃ t, d.start (handedOut now k.job) = .running t) :
    ((s.step defs now (.pull r)).2.flightsOf r).length = rs.flights.length + 1 :=
  pulls_below defs s now r d rs hd hr hp (by rw [hk]; rfl) hdue hst

/-- **C27: exactly when a runner starts another job.** A polling runner for which a decodable
job is due starts it if its executor has no limit, a limit of zero, or a limit it has not
reached; otherwise it takes nothing from the backend. -/
theorem C27_exactly (defs : List Runner) (s : Sys) (now : Time) (r : Nat) (d : Runner) (rs : RunnerState)
    (hd : defs[r]? = some d) (hr : s.runners[r]? = some rs) (hp : rs.polling = true)
    (hdue : ∃ k ∈ s.conc.mem.jobs, k.job.executor = d.name ∧
      (k.job.status = .scheduled ∨ k.job.status = .retryable) ∧ k.job.scheduledAt ≤ now)
    (hst : ∀ k ∈ s.conc.mem.jobs, ∃ t, d.start (handedOut now k.job) = .running t) :
    ((∀ k, d.maxConcurrency = some k → k = 0 ∨ rs.flights.length < k) ∧
      ((s.step defs now (.pull r)).2.flightsOf r).length = rs.flights.length + 1) ∨
    ((∃ k, d.maxConcurrency = some k ∧ k ≠ 0 ∧ k ≤ rs.flights.length) ∧ (s.step defs now (.pull r)).2 = s) := by
  cases hb : belowLimit d.maxConcurrency rs.flights.length with
  | true =>
    refine .inl ⟨fun k hk => ?_, pulls_below defs s now r d rs hd hr hp hb hdue hst⟩
    rw [hk] at hb
    cases k with
    | zero => exact .inl rfl
    | succ k => simpa [belowLimit] using hb
  | false =>
    refine .inr ⟨?_, by simp only [Sys.step, hd, hr, hb, Bool.and_false, Bool.false_eq_true, if_false]⟩
    cases hk : d.maxConcurrency with
    | none => rw [hk] at hb; cases hb
    | some k =>
      rw [hk] at hb
      cases k with
      | zero => cases hb
      | succ k => exact ⟨k + 1, rfl, by simp, by simpa [belowLimit] using hb⟩

/-- A runner like `sampleRunner` that can start every job. -/
def eagerRunner (limit : Option Nat) : Runner where
  D := Unit
  M := Unit
  name := "mail"
  cd := { enc := fun _ => some .null, dec := fun _ => some () }
  cm := { enc := fun _ => some .null, dec := fun _ => some () }
  maxConcurrency := limit
  backoff := fun _ => some (10 * sec)

/-- Three jobs are enqueued and the runner pulls three times. -/
def threePulls : List TSAct :=
  (enqSteps 0 0 sampleEnq ++ enqSteps 0 1 sampleEnq ++ enqSteps 0 2 sampleEnq).map
    (fun a => ⟨a.now, .client a.act⟩) ++ [⟨1, .pull 0⟩, ⟨1, .pull 0⟩, ⟨1, .pull 0⟩]

example : (((Sys.init [eagerRunner (some 2)]).run [eagerRunner (some 2)] threePulls).flightsOf 0).length = 2 ∧
    (((Sys.init [eagerRunner none]).run [eagerRunner none] threePulls).flightsOf 0).length = 3 := by decide

/-- The hypotheses of `C27_unlimited` hold with two executions in flight. -/
example :
    let defs := [eagerRunner none]
    let s := (Sys.init defs).run defs (threePulls.take 14)
    (s.flightsOf 0).length = 2 ∧ (∃ k ∈ s.conc.mem.jobs, k.job.executor = "mail" ∧
      (k.job.status = .scheduled ∨ k.job.status = .retryable) ∧ k.job.scheduledAt ≤ 1) ∧
    ∀ k ∈ s.conc.mem.jobs, (match (eagerRunner none).start (handedOut 1 k.job) with
      | .running _ => true | _ => false) = true := by decide

/-- **C27 fails for a limit of zero.** `MAX_CONCURRENCY = Some(0)` means no limit. -/
theorem C27_violated :
    (eagerRunner (some 0)).maxConcurrency = some 0 ∧
    (((Sys.init [eagerRunner (some 0)]).run [eagerRunner (some 0)] threePulls).flightsOf 0).length = 3 := by
  decide

/-! ## C28 -/

private def Stopped (s : Sys) : Prop := ∀ rs ∈ s.runners, rs.polling = false

private theorem stopped_step {defs : List Runner} {now : Time} {s s' : Sys} {a : SAct} {ev : SEv}
    (h : Stopped s) (hs : SStep defs now s a ev s') :
    Stopped s' ∧ ∀ r e st, ev ≠ .pulled r e st := by
  have hset : ∀ (r : Nat) (rs : RunnerState) (c : Conc), rs.polling = false →
      Stopped { conc := c, runners := s.runners.set r rs } := by
    intro r rs c hp x hx
    rcases List.mem_or_eq_of_mem_set hx with hx | rfl
    · exact h x hx
    · exact hp
  have hget : ∀ {r : Nat} {rs : RunnerState}, s.runners[r]? = some rs → rs.polling = false :=
    fun hr => h _ (List.mem_of_getElem? hr)
  cases hs with
  | client a => exact ⟨h, by simp⟩
  | idle => exact ⟨h, by simp⟩
  | empty r d rs hd hr hp => rw [hget hr] at hp; simp at hp
  | started r d rs j t hd hr hp => rw [hget hr] at hp; simp at hp
  | undecodable r d rs j hd hr hp => rw [hget hr] at hp; simp at hp
  | panicked r d rs j hd hr hp => rw [hget hr] at hp; simp at hp
  | ended r i b d rs t j o hd hr => exact ⟨hset _ _ _ (by simpa using hget hr), by simp⟩
  | overflowed r i b d rs t j hd hr => exact ⟨hset _ _ _ rfl, by simp⟩
  | reported r i rs t o hr => exact ⟨hset _ _ _ (by simpa using hget hr), by simp⟩
  | shutdown =>
    refine ⟨?_, by simp⟩
    intro x hx
    obtain ⟨y, -, rfl⟩ := List.mem_map.mp hx
    rfl

/-- **C28, nothing new.** After a shutdown, in every continuation, no runner of the
instance takes another job, so no execution is started and no job is handed out. Here a
runner takes a job in one step, and the shutdown is the moment the runners have noticed it.
Missing: a poll of the stream that is under way when the token is cancelled
(`C28_violated`, `C28_at_most_one_partial`). -/
theorem C28_nothing_started_partial (defs : List Runner) (s : Sys) (t : Time) (after : List TSAct) :
    ∀ e ∈ (s.step defs t .shutdown).2.trace defs after, ∀ r ev st, e.ev ≠ .pulled r ev st := by
  have h0 : Stopped (s.step defs t .shutdown).2 := by
    intro x hx
    obtain ⟨y, -, rfl⟩ := List.mem_map.mp hx
    rfl
  generalize (s.step defs t .shutdown).2 = s' at *
  clear s t
  induction after generalizing s' with
  | nil => simp [Sys.trace]
  | cons a as ih =>
    have := stopped_step h0 (step_sstep defs a.now s' a.act)
    intro e he
    simp only [Sys.trace, List.mem_cons] at he
    rcases he with rfl | he
    · exact this.2
    · exact ih _ this.1 e he

/-- The two systems are the same up to which runners still take jobs. -/
private structure SameWork (s s' : Sys) : Prop where
  conc : s.conc = s'.conc
  runners : s.runners.map (·.flights) = s'.runners.map (·.flights)

private theorem sameWork_get {s s' : Sys} (h : SameWork s s') (r : Nat) :
    (s.runners[r]?).map (·.flights) = (s'.runners[r]?).map (·.flights) := by
  have := congrArg (fun l => l[r]?) h.runners
  simpa using this

private theorem map_set_flights {l : List RunnerState} {r : Nat} {rs : RunnerState} :
    (l.set r rs).map (·.flights) = (l.map (·.flights)).set r rs.flights := by
  exact List.map_set

private theorem sameWork_step {defs : List Runner} {now : Time} {s s' : Sys} {a : SAct} (h : SameWork s s')
    (ha : ∀ r, a ≠ .pull r) :
    (s.step defs now a).1 = (s'.step defs now a).1 ∧
    SameWork (s.step defs now a).2 (s'.step defs now a).2 := by
  cases a with
  | client a =>
    simp only [Sys.step]
    rw [h.conc]
    exact ⟨rfl, rfl, h.runners⟩
  | pull r => exact absurd rfl (ha r)
  | shutdown =>
    refine ⟨rfl, h.conc, ?_⟩
    simpa [Sys.step, List.map_map, Function.comp_def] using h.runners
  | finish r i b =>
    have hg := sameWork_get h r
    simp only [Sys.step]
    cases hd : defs[r]? with
    | none => exact ⟨rfl, h⟩
    | some d =>
      cases hr : s.runners[r]? with
      | none =>
        cases hr' : s'.runners[r]? with
        | none => exact ⟨rfl, h⟩
        | some rs' => rw [hr, hr'] at hg; simp at hg
      | some rs =>
        cases hr' : s'.runners[r]? with
        | none => rw [hr, hr'] at hg; simp at hg
        | some rs' =>
          rw [hr, hr'] at hg
          simp only [Option.map_some, Option.some.injEq] at hg
          simp only [hg]
          cases hf : rs'.flights[i]? with
          | none => exact ⟨rfl, h⟩
          | some f =>
            obtain ⟨t, ph⟩ := f
            cases ph with
            | reporting o => exact ⟨rfl, h⟩
            | running =>
              simp only
              cases hj : t.join b with
              | none => exact ⟨rfl, h⟩
              | some j =>
                simp only
                cases ho : d.report now t j with
                | none =>
                  refine ⟨rfl, h.conc, ?_⟩
                  simp only [map_set_flights, h.runners]; rfl
                | some o =>
                  refine ⟨rfl, h.conc, ?_⟩
                  simp only [map_set_flights, h.runners]
  | report r i =>
    have hg := sameWork_get h r
    simp only [Sys.step]
    cases hr : s.runners[r]? with
    | none =>
      cases hr' : s'.runners[r]? with
      | none => exact ⟨rfl, h⟩
      | some rs' => rw [hr, hr'] at hg; simp at hg
    | some rs =>
      cases hr' : s'.runners[r]? with
      | none => rw [hr, hr'] at hg; simp at hg
      | some rs' =>
        rw [hr, hr'] at hg
        simp only [Option.map_some, Option.some.injEq] at hg
        simp only [hg]
        cases hf : rs'.flights[i]? with
        | none => exact ⟨rfl, h⟩
        | some f =>
          obtain ⟨t, ph⟩ := f
          cases ph with
          | running => exact ⟨rfl, h⟩
          | reporting o =>
            simp only
            rw [h.conc]
            refine ⟨rfl, rfl, ?_⟩
            simp only [map_set_flights, h.runners]

/-- **C28, nothing lost.** Shutting down changes nothing for the executions in flight:
for every state of the system and every continuation in which no runner takes a
job, the events and the backend afterwards are the same with and without the
shutdown. -/
theorem C28_nothing_lost (defs : List Runner) (s : Sys) (t : Time) (after : List TSAct)
    (ha : ∀ a ∈ after, ∀ r, a.act ≠ .pull r) :
    (s.step defs t .shutdown).2.trace defs after = s.trace defs after ∧
    ((s.step defs t .shutdown).2.run defs after).conc = (s.run defs after).conc := by
  have h0 : SameWork (s.step defs t .shutdown).2 s := by
    refine ⟨rfl, ?_⟩
    simp [Sys.step, List.map_map, Function.comp_def]
  generalize (s.step defs t .shutdown).2 = s' at *
  induction after generalizing s s' with
  | nil => exact ⟨rfl, h0.conc⟩
  | cons a as ih =>
    have hs := sameWork_step (defs := defs) (now := a.now) h0 (ha a (by simp))
    obtain ⟨h1, h2⟩ := ih _ (fun x hx => ha x (by simp [hx])) _ hs.2
    simp only [Sys.trace, Sys.run]
    rw [h1, hs.1]
    exact ⟨rfl, h2⟩

example :
    let defs := [eagerRunner none]
    let s := (Sys.init defs).run defs threePulls
    let after : List TSAct := [⟨2, .pull 0⟩, ⟨2, .finish 0 1 { ending := .returns .done }⟩, ⟨3, .report 0 1⟩]
    ((s.step defs 2 .shutdown).2.run defs after).conc.mem.jobs.map (fun k => k.job.status)
      = [.executing, .complete, .executing] := by decide

end Rexecutor
