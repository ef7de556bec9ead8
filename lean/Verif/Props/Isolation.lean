import Verif.Props.Limits

/-! # C86: what stops a runner -/

namespace Rexecutor

/-- User code called by the runner itself panics for this job: reading it, or the
executor's `timeout` or `backoff`. -/
def Runner.PanicsFor (d : Runner) (j : Job) : Prop :=
  decodeJob d.cd d.cm j = .panic ∨
  ∃ job, decodeJob d.cd d.cm j = .ok job ∧ (d.timeout job = none ∨ d.backoff job = none)

/-- The execution asks to be started again after this delay: it snoozed, or it failed
before its last attempt. -/
def AsksAgainAfter (t : Task) (o : Joined) (delay : Delta) : Prop :=
  o = .result (.snooze delay) ∨ (o.isFailure = true ∧ t.isFinal = false ∧ delay = t.delay)

/-- A moment `chrono` cannot represent. -/
def BeyondTime (t : Time) : Prop := ¬ Representable t

/-- A job runner `r` was handed made its own code panic. -/
def ChokedOnJob (d : Runner) (r : Nat) (h : List TSEv) : Prop :=
  ∃ e ∈ h, ∃ x j st, e.ev = .pulled r (.op (.load x) (.job (some j))) st ∧ d.PanicsFor j

/-- An execution of runner `r` asked for a moment beyond the range of time. -/
def ChokedOnDelay (r : Nat) (h : List TSEv) : Prop :=
  ∃ e ∈ h, ∃ t o c delay, e.ev = .ended r t o c ∧ AsksAgainAfter t o delay ∧ BeyondTime (e.now + delay)

theorem start_panics {d : Runner} {j : Job} (h : d.start j = .runnerPanics) : d.PanicsFor j := by
  unfold Runner.start at h
  split at h
  · cases h
  · exact .inl ‹_›
  · rename_i job hdec
    refine .inr ⟨job, hdec, ?_⟩
    split at h
    · exact .inl ‹_›
    · split at h
      · exact .inr ‹_›
      · cases h

theorem addTime_none {now : Time} {d : Delta} (h : addTime now d = none) : BeyondTime (now + d) := by
  rw [addTime_eq] at h
  split at h
  · cases h
  · assumption

theorem report_none {d : Runner} {now : Time} {t : Task} {o : Joined} (h : d.report now t o = none) :
    ∃ delay, AsksAgainAfter t o delay ∧ BeyondTime (now + delay) := by
  have key : ∀ e, t.handleError now e = none → t.isFinal = false ∧ BeyondTime (now + t.delay) := by
    intro e he
    unfold Task.handleError at he
    split at he
    · cases he
    · rename_i hf
      refine ⟨by simpa using hf, addTime_none ?_⟩
      simpa using he
  cases o with
  | result r =>
    cases r with
    | done => cases h
    | cancel => cases h
    | snooze delay => exact ⟨delay, .inl rfl, addTime_none (by simpa [Runner.report] using h)⟩
    | error ty m => obtain ⟨h1, h2⟩ := key _ h; exact ⟨_, .inr ⟨rfl, h1, rfl⟩, h2⟩
  | elapsed l => obtain ⟨h1, h2⟩ := key _ h; exact ⟨_, .inr ⟨rfl, h1, rfl⟩, h2⟩
  | joinError p m => obtain ⟨h1, h2⟩ := key _ h; exact ⟨_, .inr ⟨rfl, h1, rfl⟩, h2⟩

private theorem stop_causes (defs : List Runner) (paused : Bool) (as : List TSAct) (r : Nat) (d : Runner)
    (hd : defs[r]? = some d) :
    let h := (Sys.init defs paused).trace defs as
    ∃ rs, ((Sys.init defs paused).run defs as).runners[r]? = some rs ∧
      (rs.polling = true ∨ (∃ e ∈ h, e.ev = .shutdown) ∨ ChokedOnJob d r h ∨ ChokedOnDelay r h) := by
  refine sys_induction (fun h s => ∃ rs, s.runners[r]? = some rs ∧
      (rs.polling = true ∨ (∃ e ∈ h, e.ev = .shutdown) ∨ ChokedOnJob d r h ∨ ChokedOnDelay r h)) ?_ ?_ as
  · refine ⟨{}, ?_, .inl rfl⟩
    simp [Sys.init, hd]
  · rintro h s now a ev s' ⟨rs₀, hr₀, ih⟩ hs
    have grow : ∀ (e : TSEv) {b : Bool},
        (b = true ∨ (∃ e ∈ h, e.ev = .shutdown) ∨ ChokedOnJob d r h ∨ ChokedOnDelay r h) →
        (b = true ∨ (∃ e' ∈ h ++ [e], e'.ev = .shutdown) ∨ ChokedOnJob d r (h ++ [e]) ∨ ChokedOnDelay r (h ++ [e])) := by
      intro e b hh
      have hm : ∀ x ∈ h, x ∈ h ++ [e] := fun x hx => List.mem_append_left _ hx
      rcases hh with hh | ⟨x, hx, h1⟩ | ⟨x, hx, h1⟩ | ⟨x, hx, h1⟩
      · exact .inl hh
      · exact .inr (.inl ⟨x, hm x hx, h1⟩)
      · exact .inr (.inr (.inl ⟨x, hm x hx, h1⟩))
      · exact .inr (.inr (.inr ⟨x, hm x hx, h1⟩))
    have keep : ∀ (r' : Nat) (rs rs' : RunnerState), s.runners[r']? = some rs → rs'.polling = rs.polling → ∀ e,
        ∃ q, (s.runners.set r' rs')[r]? = some q ∧
          (q.polling = true ∨ (∃ e' ∈ h ++ [e], e'.ev = .shutdown) ∨ ChokedOnJob d r (h ++ [e]) ∨ ChokedOnDelay r (h ++ [e])) := by
      intro r' rs rs' hr' hp e
      by_cases hq : r' = r
      · subst hq
        have hlt := (List.getElem?_eq_some_iff.mp hr').1
        rw [hr₀, Option.some.injEq] at hr'; subst hr'
        exact ⟨rs', by rw [List.getElem?_set, if_pos rfl, if_pos hlt], grow e (hp ▸ ih)⟩
      · exact ⟨rs₀, by rw [List.getElem?_set, if_neg hq]; exact hr₀, grow e ih⟩
    have crash : ∀ (r' : Nat) (rs : RunnerState) (e : TSEv), s.runners[r']? = some rs →
        (r' = r → ChokedOnJob d r (h ++ [e]) ∨ ChokedOnDelay r (h ++ [e])) →
        ∃ q, (s.runners.set r' rs.crash)[r]? = some q ∧
          (q.polling = true ∨ (∃ e' ∈ h ++ [e], e'.ev = .shutdown) ∨ ChokedOnJob d r (h ++ [e]) ∨ ChokedOnDelay r (h ++ [e])) := by
      intro r' rs e hr' hh
      by_cases hq : r' = r
      · have := hh hq
        subst hq
        have hlt := (List.getElem?_eq_some_iff.mp hr').1
        exact ⟨_, by rw [List.getElem?_set, if_pos rfl, if_pos hlt], .inr (.inr this)⟩
      · exact ⟨rs₀, by rw [List.getElem?_set, if_neg hq]; exact hr₀, grow e ih⟩
    cases hs with
    | client a => exact ⟨rs₀, hr₀, grow _ ih⟩
    | idle => exact ⟨rs₀, hr₀, grow _ ih⟩
    | empty => exact ⟨rs₀, hr₀, grow _ ih⟩
    | undecodable => exact ⟨rs₀, hr₀, grow _ ih⟩
    | started r' d' rs j t hd' hr hp hl hev hst => refine keep r' rs _ hr ?_ _; rfl
    | panicked r' d' rs j hd' hr hp hl hev hst =>
      refine crash r' rs _ hr fun hq => .inl ?_
      subst hq
      rw [hd, Option.some.injEq] at hd'; subst hd'
      exact ⟨_, List.mem_append_right _ (List.mem_singleton.mpr rfl), _, _, _, rfl, start_panics hst⟩
    | ended r' i b d' rs t j o hd' hr hfl hj ho => refine keep r' rs _ hr ?_ _; rfl
    | overflowed r' i b d' rs t j hd' hr hfl hj ho =>
      refine crash r' rs _ hr fun hq => .inr ?_
      subst hq
      obtain ⟨delay, h1, h2⟩ := report_none ho
      exact ⟨_, List.mem_append_right _ (List.mem_singleton.mpr rfl), _, _, _, _, rfl, h1, h2⟩
    | reported r' i rs t o hr hfl => refine keep r' rs _ hr ?_ _; rfl
    | shutdown =>
      refine ⟨_, by simp [hr₀]; rfl, .inr (.inl ⟨_, List.mem_append_right _ (List.mem_singleton.mpr rfl), rfl⟩)⟩

/-- **C86, partial.** In every history of any number of runners without a shutdown, runner `r`
goes on taking jobs: whatever the other runners and clients did (panics included), whatever
jobs it could not decode, however its executions ended and whatever the backend answered. When
it polls below its limit and a job of its executor is due, it is handed one. Missing: it must
not have been handed a job for which its own code panics, and no execution may have asked for
a moment beyond chrono's range. -/
theorem C86_goes_on_partial (defs : List Runner) (paused : Bool) (as : List TSAct) (r : Nat) (d : Runner)
    (hd : defs[r]? = some d)
    (hs : ∀ e ∈ (Sys.init defs paused).trace defs as, e.ev ≠ .shutdown)
    (hj : ¬ ChokedOnJob d r ((Sys.init defs paused).trace defs as))
    (ht : ¬ ChokedOnDelay r ((Sys.init defs paused).trace defs as))
    (hl : ∀ k, d.maxConcurrency = some k → k = 0 ∨ (((Sys.init defs paused).run defs as).flightsOf r).length < k)
    (now : Time)
    (hdue : ∃ k ∈ ((Sys.init defs paused).run defs as).conc.mem.jobs, k.job.executor = d.name ∧
      (k.job.status = .scheduled ∨ k.job.status = .retryable) ∧ k.job.scheduledAt ≤ now) :
    ∃ j st, (((Sys.init defs paused).run defs as).step defs now (.pull r)).1 =
      .pulled r (.op (.load d.name) (.job (some j))) (some st) := by
  obtain ⟨rs, hr, hc⟩ := stop_causes defs paused as r d hd
  have hp : rs.polling = true := by
    rcases hc with hc | ⟨e, he, h⟩ | hc | hc
    · exact hc
    · exact absurd h (hs e he)
    · exact absurd hc hj
    · exact absurd hc ht
  have hb : belowLimit d.maxConcurrency rs.flights.length = true := by
    rw [flightsOf_some hr] at hl
    cases hk : d.maxConcurrency with
    | none => rfl
    | some k =>
      rcases hl k hk with rfl | h
      · rfl
      · simp [belowLimit, h]
  generalize (Sys.init defs paused).run defs as = s at *
  have hload : ∃ j, (s.conc.step now (.op (.load d.name))).1 = .op (.load d.name) (.job (some j)) := by
    simp only [Conc.step, Mem.step]
    rcases load_cases now d.name s.conc.mem with ⟨hne, -⟩ | ⟨l, k, r, h1, h2, h3, h4, h5⟩
    · obtain ⟨k, hk, h1, h2, h3⟩ := hdue
      have hr : readyFor now d.name k.job = true := readyFor_iff.mpr
        ⟨h1, by simp only [ms, Time] at *; omega, h2⟩
      rw [hne k hk] at hr; simp at hr
    · rw [h5]; exact ⟨_, rfl⟩
  obtain ⟨j, hj⟩ := hload
  refine ⟨j, d.start j, ?_⟩
  simp only [Sys.step, hd, hr, hp, hb, Bool.and_self, if_true]
  rw [hj]

/-- **C86, the jobs that stop a runner.** A runner that is handed a job panics at that moment
exactly if its own code panics for the job: reading it, `timeout` or `backoff`. -/
theorem C86_chokes_exactly (defs : List Runner) (s : Sys) (r : Nat) (d : Runner) (hd : defs[r]? = some d) (now : Time)
    (x : String) (j : Job) (st : Option Started)
    (h : (s.step defs now (.pull r)).1 = .pulled r (.op (.load x) (.job (some j))) st) :
    (s.step defs now (.pull r)).1.crashes r = true ↔
      (decodeJob d.cd d.cm j = .panic ∨
        ∃ job, decodeJob d.cd d.cm j = .ok job ∧ (d.timeout job = none ∨ d.backoff job = none)) := by
  have hst : st = some (d.start j) := by
    cases hr : s.runners[r]? with
    | none => simp only [Sys.step, hd, hr] at h; cases h
    | some rs =>
      simp only [Sys.step, hd, hr] at h
      generalize s.conc.step now (.op (.load d.name)) = z at h
      obtain ⟨ev, c⟩ := z
      split at h
      · cases hev : ev with
        | op o res =>
          subst hev
          cases res with
          | job j' =>
            cases j' with
            | none => simp_all
            | some j' =>
              simp only [SEv.pulled.injEq, true_and, Ev.op.injEq, Res.job.injEq, Option.some.injEq] at h
              rw [← h.2, h.1.2]
          | _ => simp_all
        | _ => simp_all
      · cases h
  rw [h, hst]
  constructor
  · intro hc
    refine start_panics ?_
    cases hs : d.start j <;> rw [hs] at hc <;> simp_all [SEv.crashes]
  · intro hp
    have : d.start j = .runnerPanics := by
      rcases hp with hp | ⟨job, hp, ht | hb⟩
      · simp [Runner.start, hp]
      · simp [Runner.start, hp, ht]
      · simp only [Runner.start, hp]
        cases d.timeout job <;> simp [hb]
    rw [this]
    simp [SEv.crashes]

/-- A runner that does not poll takes nothing and stays so. -/
private theorem stopped_stays (defs : List Runner) (r : Nat) : ∀ (s s' : Sys) (now : Time) (a : SAct) (ev : SEv), SStep defs now s a ev s' →
    (∀ rs, s.runners[r]? = some rs → rs.polling = false) →
    (∀ rs, s'.runners[r]? = some rs → rs.polling = false) ∧ ∀ e st, ev ≠ .pulled r e st := by
  intro s s' now a ev hs h
  have hset : ∀ (r' : Nat) (rs rs' : RunnerState), s.runners[r']? = some rs → (rs.polling = false → rs'.polling = false) →
      ∀ q, (s.runners.set r' rs')[r]? = some q → q.polling = false := by
    intro r' rs rs' hr' hp q hq
    rw [List.getElem?_set] at hq
    split at hq
    · rename_i hrr; subst hrr
      split at hq
      · cases hq; exact hp (h _ hr')
      · cases hq
    · exact h _ hq
  have hne : ∀ (r' : Nat) (rs : RunnerState), s.runners[r']? = some rs → rs.polling = true → r' ≠ r := by
    rintro r' rs hr' hp rfl
    rw [h _ hr'] at hp; cases hp
  cases hs with
  | client a => exact ⟨h, by simp⟩
  | idle => exact ⟨h, by simp⟩
  | empty r' d rs hd hr hp => exact ⟨h, fun e st hh => hne r' rs hr hp (by cases hh; rfl)⟩
  | undecodable r' d rs j hd hr hp => exact ⟨h, fun e st hh => hne r' rs hr hp (by cases hh; rfl)⟩
  | started r' d rs j t hd hr hp =>
    exact ⟨hset r' rs (rs.withFlights _) hr id, fun e st hh => hne r' rs hr hp (by cases hh; rfl)⟩
  | panicked r' d rs j hd hr hp =>
    exact ⟨hset r' rs _ hr (fun _ => rfl), fun e st hh => hne r' rs hr hp (by cases hh; rfl)⟩
  | ended r' i b d rs t j o hd hr => exact ⟨hset r' rs (rs.withFlights _) hr id, by simp⟩
  | overflowed r' i b d rs t j hd hr => exact ⟨hset r' rs _ hr (fun _ => rfl), by simp⟩
  | reported r' i rs t o hr => exact ⟨hset r' rs (rs.withFlights _) hr id, by simp⟩
  | shutdown =>
    refine ⟨?_, by simp⟩
    intro q hq
    simp only [List.getElem?_map, Option.map_eq_some_iff] at hq
    obtain ⟨x, -, rfl⟩ := hq
    rfl

/-- Nor does it later. -/
private theorem stopped_takes_nothing (defs : List Runner) (r : Nat) (s : Sys) (bs : List TSAct)
    (h0 : ∀ rs, s.runners[r]? = some rs → rs.polling = false) : ∀ e ∈ s.trace defs bs, ∀ ev st, e.ev ≠ .pulled r ev st := by
  induction bs generalizing s with
  | nil => simp [Sys.trace]
  | cons b bs ih =>
    have := stopped_stays defs r s _ b.now b.act _ (step_sstep defs b.now s b.act) h0
    intro e he
    simp only [Sys.trace, List.mem_cons] at he
    rcases he with rfl | he
    · exact this.2
    · exact ih _ this.1 e he

/-- A panic or the shutdown stops it. -/
private theorem cause_stops (defs : List Runner) (paused : Bool) (as : List TSAct) (r : Nat)
    (hc : ∃ e ∈ (Sys.init defs paused).trace defs as, e.ev.crashes r = true ∨ e.ev = .shutdown) :
    ∀ rs, ((Sys.init defs paused).run defs as).runners[r]? = some rs → rs.polling = false := by
  refine sys_induction (fun h s => (∃ e ∈ h, e.ev.crashes r = true ∨ e.ev = .shutdown) → ∀ rs, s.runners[r]? = some rs → rs.polling = false) (by simp) ?_ as hc
  rintro h s now a ev s' ih hs ⟨e, he, hcr⟩
  rcases List.mem_append.mp he with he | he
  · exact (stopped_stays defs r s s' now a ev hs (ih ⟨e, he, hcr⟩)).1
  · rw [List.mem_singleton] at he
    subst he
    have hset : ∀ (r' : Nat) (rs : RunnerState), r' = r → ∀ q, (s.runners.set r' rs.crash)[r]? = some q → q.polling = false := by
      rintro r' rs rfl q hq
      rw [List.getElem?_set, if_pos rfl] at hq
      split at hq
      · cases hq; rfl
      · cases hq
    cases hs with
    | panicked r' d rs j => exact hset r' rs (by simpa [SEv.crashes] using hcr)
    | overflowed r' i b d rs t j => exact hset r' rs (by simpa [SEv.crashes] using hcr)
    | shutdown =>
      intro q hq
      simp only [List.getElem?_map, Option.map_eq_some_iff] at hq
      obtain ⟨x, -, rfl⟩ := hq
      rfl
    | _ => simp [SEv.crashes] at hcr

/-- **C86, for good.** A runner that panicked never takes a job again, whatever happens. -/
theorem C86_never_recovers (defs : List Runner) (paused : Bool) (as bs : List TSAct) (r : Nat)
    (hc : ∃ e ∈ (Sys.init defs paused).trace defs as, e.ev.crashes r = true) :
    ∀ e ∈ ((Sys.init defs paused).run defs as).trace defs bs, ∀ ev st, e.ev ≠ .pulled r ev st := by
  obtain ⟨e, he, h⟩ := hc
  exact stopped_takes_nothing defs r _ bs (cause_stops defs paused as r ⟨e, he, .inl h⟩)

theorem report_beyond {d : Runner} {now : Time} {t : Task} {o : Joined} {delay : Delta} (h : AsksAgainAfter t o delay)
    (hb : BeyondTime (now + delay)) : d.report now t o = none := by
  have ha : addTime now delay = none := by rw [addTime_eq, if_neg hb]
  rcases h with rfl | ⟨ho, hf, rfl⟩
  · simp [Runner.report, ha]
  · have key : ∀ e, t.handleError now e = none := fun e => by simp [Task.handleError, hf, ha]
    cases o with
    | result x => cases x <;> simp_all [Runner.report, Joined.isFailure]
    | elapsed l => exact key _
    | joinError p m => exact key _

theorem start_of_panics {d : Runner} {j : Job} (hp : d.PanicsFor j) : d.start j = .runnerPanics := by
  rcases hp with hp | ⟨job, hp, ht | hb⟩
  · simp [Runner.start, hp]
  · simp [Runner.start, hp, ht]
  · simp only [Runner.start, hp]
    cases d.timeout job <;> simp [hb]

/-- Choking is panicking. -/
private theorem choked_crashes (defs : List Runner) (paused : Bool) (as : List TSAct) (r : Nat) (d : Runner) (hd : defs[r]? = some d) :
    ∀ e ∈ (Sys.init defs paused).trace defs as,
      (∀ x j st, e.ev = .pulled r (.op (.load x) (.job (some j))) st → d.PanicsFor j → e.ev.crashes r = true) ∧
      (∀ t o c delay, e.ev = .ended r t o c → AsksAgainAfter t o delay → BeyondTime (e.now + delay) → e.ev.crashes r = true) := by
  refine sys_induction (fun h _ => ∀ e ∈ h,
      (∀ x j st, e.ev = .pulled r (.op (.load x) (.job (some j))) st → d.PanicsFor j → e.ev.crashes r = true) ∧
      (∀ t o c delay, e.ev = .ended r t o c → AsksAgainAfter t o delay → BeyondTime (e.now + delay) → e.ev.crashes r = true))
    (by simp) ?_ as
  intro h s now a ev s' ih hs e he
  rcases List.mem_append.mp he with he | he
  · exact ih e he
  rw [List.mem_singleton] at he
  subst he
  refine ⟨fun x j st hev hp => ?_, fun t o c delay hev h1 h2 => ?_⟩
  · cases hs with
    | panicked r' => cases hev; simp [SEv.crashes]
    | started r' d' rs j' t hd' hr _ _ _ hst =>
      cases hev
      rw [hd, Option.some.injEq] at hd'; subst hd'
      rw [start_of_panics hp] at hst; cases hst
    | undecodable r' d' rs j' hd' hr _ _ _ hst =>
      cases hev
      rw [hd, Option.some.injEq] at hd'; subst hd'
      rw [start_of_panics hp] at hst; cases hst
    | _ => cases hev
  · cases hs with
    | overflowed r' => cases hev; simp [SEv.crashes]
    | ended r' i b d' rs t' j' o' hd' hr hf hj ho =>
      cases hev
      rw [report_beyond h1 h2] at ho; cases ho
    | _ => cases hev

/-- **C86, exactly.** In every history of any number of runners: a runner with room for another
execution will be able to take jobs in some continuation exactly if there was no shutdown, it
was never handed a job for which its own code panics, and none of its executions asked for a
moment beyond chrono's range. -/
theorem C86_exactly (defs : List Runner) (paused : Bool) (as : List TSAct) (r : Nat) (d : Runner) (hd : defs[r]? = some d)
    (hl : ∀ k, d.maxConcurrency = some k → k = 0 ∨ (((Sys.init defs paused).run defs as).flightsOf r).length < k) :
    let h := (Sys.init defs paused).trace defs as
    (∃ bs, ∃ e ∈ ((Sys.init defs paused).run defs as).trace defs bs, ∃ ev st, e.ev = .pulled r ev st) ↔
      ¬ ((∃ e ∈ h, e.ev = .shutdown) ∨ ChokedOnJob d r h ∨ ChokedOnDelay r h) := by
  intro h
  constructor
  · rintro ⟨bs, e, he, ev, st, hev⟩ hc
    refine stopped_takes_nothing defs r _ bs (cause_stops defs paused as r ?_) e he ev st hev
    rcases hc with ⟨e, he, hc⟩ | ⟨e, he, x, j, st, hev, hc⟩ | ⟨e, he, t, o, c, delay, hev, h1, h2⟩
    · exact ⟨e, he, .inr hc⟩
    · exact ⟨e, he, .inl ((choked_crashes defs paused as r d hd e he).1 x j st hev hc)⟩
    · exact ⟨e, he, .inl ((choked_crashes defs paused as r d hd e he).2 t o c delay hev h1 h2)⟩
  · intro hc
    obtain ⟨rs, hr, hs⟩ := stop_causes defs paused as r d hd
    have hp : rs.polling = true := hs.resolve_right hc
    have hb : belowLimit d.maxConcurrency rs.flights.length = true := by
      rw [flightsOf_some hr] at hl
      cases hk : d.maxConcurrency with
      | none => rfl
      | some k =>
        rcases hl k hk with rfl | h
        · rfl
        · simp [belowLimit, h]
    refine ⟨[⟨0, .pull r⟩], _, List.mem_cons_self, ?_⟩
    simp only [Sys.step, hd, hr, hp, hb, Bool.and_self, if_true]
    generalize ((Sys.init defs paused).run defs as).conc.step 0 (.op (.load d.name)) = z
    obtain ⟨ev, c⟩ := z
    split <;> exact ⟨_, _, rfl⟩

/-- Two jobs are enqueued; the first one is executed and snoozes itself for the longest
delay there is. -/
def snoozeForever : List TSAct :=
  (enqSteps 0 0 sampleEnq ++ enqSteps 0 1 sampleEnq).map (fun a => ⟨a.now, .client a.act⟩) ++
  [⟨1, .pull 0⟩, ⟨2, .finish 0 0 { ending := .returns (.snooze (9223372036854775807 * ms)) }⟩]

/-- **C86 as stated is false.** A job that snoozes itself for too long ends its runner: the
other job is due and stays so, and in no continuation does the runner take it. -/
theorem C86_violated :
    let defs := [eagerRunner none]
    ((Sys.init defs).run defs snoozeForever).conc.mem.jobs.map (fun k => (k.job.id, k.job.status)) =
      [(0, .executing), (1, .scheduled)] ∧
    (∀ k ∈ ((Sys.init defs).run defs snoozeForever).conc.mem.jobs, k.job.executor = "mail" ∧ k.job.scheduledAt ≤ 2) ∧
    (∀ e ∈ (Sys.init defs).trace defs snoozeForever, e.ev ≠ .shutdown) ∧
    ∀ bs, ∀ e ∈ ((Sys.init defs).run defs snoozeForever).trace defs bs, ∀ ev st, e.ev ≠ .pulled 0 ev st := by
  refine ⟨by decide, by decide, ?_, ?_⟩
  · have : ∀ e ∈ (Sys.init [eagerRunner none]).trace [eagerRunner none] snoozeForever, e.ev.isShutdown = false := by decide
    intro e he h
    have := this e he
    rw [h] at this
    cases this
  · intro bs
    exact C86_never_recovers _ _ _ _ 0 (by decide)

/-- An executor that cannot read its jobs. -/
def blindRunner : Runner where
  D := Unit
  M := Unit
  name := "mail"
  cd := { enc := fun _ => some .null, dec := fun _ => none }
  cm := { enc := fun _ => some .null, dec := fun _ => some () }
  backoff := fun _ => some (10 * sec)

/-- One runner cannot read the job it gets, the other one's execution panics and is
reported; a third job is due. -/
def badDay : List TSAct :=
  (enqSteps 0 0 sampleEnq ++ enqSteps 0 1 sampleEnq ++ enqSteps 0 2 sampleEnq).map
    (fun a => ⟨a.now, .client a.act⟩) ++
  [⟨1, .pull 0⟩, ⟨1, .pull 1⟩, ⟨2, .finish 1 0 { ending := .panics none }⟩, ⟨3, .report 1 0⟩]

/-- The hypotheses of `C86_goes_on_partial` hold, for both runners. -/
example :
    let defs := [blindRunner, eagerRunner (some 1)]
    let s := (Sys.init defs).run defs badDay
    let h := (Sys.init defs).trace defs badDay
    (∀ e ∈ h, e.ev.isShutdown = false) ∧
    ¬ ChokedOnJob blindRunner 0 h ∧ ¬ ChokedOnJob (eagerRunner (some 1)) 1 h ∧
    ¬ ChokedOnDelay 0 h ∧ ¬ ChokedOnDelay 1 h ∧
    s.flightsOf 0 = [] ∧ s.flightsOf 1 = [] ∧
    (∃ k ∈ s.conc.mem.jobs, k.job.executor = "mail" ∧ k.job.status = .scheduled ∧ k.job.scheduledAt ≤ 3) := by
  have noJob : ∀ (d : Runner) (r : Nat) (h : List TSEv), (∀ job, d.timeout job ≠ none ∧ d.backoff job ≠ none) →
      (∀ e ∈ h, (match e.ev with
        | .pulled q (.op _ (.job (some j))) _ => q != r || (match decodeJob d.cd d.cm j with | .panic => false | _ => true)
        | _ => true) = true) → ¬ ChokedOnJob d r h := by
    rintro d r h hd hh ⟨e, he, x, j, st, h1, h2⟩
    have := hh e he
    rw [h1] at this
    rcases h2 with h2 | ⟨job, h2, h3⟩
    · simp [h2] at this
    · rcases h3 with h3 | h3
      · exact (hd job).1 h3
      · exact (hd job).2 h3
  have noDelay : ∀ (r : Nat) (h : List TSEv), (∀ e ∈ h, (match e.ev with
        | .ended q t o _ => q != r || (decide (Representable (e.now + t.delay)) &&
            match o with | .result (.snooze _) => false | _ => true)
        | _ => true) = true) → ¬ ChokedOnDelay r h := by
    rintro r h hh ⟨e, he, t, o, c, delay, h1, h2, h3⟩
    have := hh e he
    rw [h1] at this
    rcases h2 with rfl | ⟨-, -, rfl⟩
    · simp at this
    · simp only [bne_self_eq_false, Bool.false_or, Bool.and_eq_true, decide_eq_true_eq] at this
      exact h3 this.1
  refine ⟨by decide, noJob _ _ _ (by simp [blindRunner]) (by decide), noJob _ _ _ (by simp [eagerRunner]) (by decide),
    noDelay _ _ (by decide), noDelay _ _ (by decide), ?_, ?_, by decide⟩
  · exact List.eq_nil_of_length_eq_zero (by decide)
  · exact List.eq_nil_of_length_eq_zero (by decide)

end Rexecutor
