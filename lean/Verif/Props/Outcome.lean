import Verif.Lemmas.System
import Verif.Spec.Samples
import Verif.Spec.Range

/-! # C11: what the runner does with the outcome of an execution -/

namespace Rexecutor

/-- The body is interrupted by the timeout: there is one, the body waits when it
passes, and the body would take longer (or forever). -/
def TimesOut (timeout : Option Nat) (b : Body) : Prop :=
  ∃ limit, timeout = some limit ∧ b.suspended = true ∧ (b.ending = .never ∨ limit < b.took)

/-- The call reporting a failure `e` of the execution of job `j` at time `now`: a
discard on the last attempt, otherwise a retry after `delay`. `none` if that time
is beyond what a `DateTime` can hold. -/
def failureCall (now : Time) (j : Job) (delay : Delta) (e : ExecError) : Option Op :=
  if j.attempt = j.maxAttempts then some (.discarded j.id e)
  else if Representable (now + delay) then some (.retryable j.id (now + delay) e)
  else none

private theorem decode_counts {cd : Codec D} {cm : Codec M} {j : Job} {job : TJob D M}
    (h : decodeJob cd cm j = .ok job) :
    job.id = j.id ∧ (job.attempt : Int) = j.attempt ∧ (job.maxAttempts : Int) = j.maxAttempts := by
  unfold decodeJob at h
  split at h
  · simp at h
  split at h
  · simp at h
  split at h
  · rename_i a b c ha hb hc
    simp only [Outcome.ok.injEq] at h
    subst h
    simp only [toU16?] at ha hb
    split at ha <;> split at hb <;> simp_all
    omega
  · simp at h

/-- What `Runner.start` tells the rest of the runner about the job. -/
theorem start_running {r : Runner} {j : Job} {t : Task} (h : r.start j = .running t) :
    t.id = j.id ∧ t.isFinal = decide (j.attempt = j.maxAttempts) := by
  unfold Runner.start at h
  split at h
  · simp at h
  · simp at h
  · rename_i job hd
    split at h
    · simp at h
    · split at h
      · simp at h
      · simp only [Started.running.injEq] at h
        obtain ⟨h1, h2, h3⟩ := decode_counts hd
        subst h
        refine ⟨h1, ?_⟩
        simp only [TJob.isFinalAttempt]
        rw [← h2, ← h3, Bool.eq_iff_iff]
        simp only [beq_iff_eq, decide_eq_true_eq]
        omega

private theorem handleError_eq (t : Task) (now : Time) (e : ExecError) (j : Job) (hid : t.id = j.id)
    (hf : t.isFinal = decide (j.attempt = j.maxAttempts)) :
    t.handleError now e = failureCall now j t.delay e := by
  unfold Task.handleError failureCall
  rw [addTime_eq]
  rw [hf, hid]
  by_cases hc : j.attempt = j.maxAttempts
  · simp [hc]
  · simp only [hc, decide_false, if_false, Bool.false_eq_true]
    split <;> simp

private theorem join_uninterrupted {t : Task} {b : Body} (h : ¬ TimesOut t.timeout b) :
    t.join b = (match b.ending with
        | .returns r => some (.result r)
        | .panics payload => some (.joinError payload b.joinMessage)
        | .aborted => some (.joinError none b.joinMessage)
        | .never => none) := by
  unfold Task.join
  cases ht : t.timeout with
  | none => rfl
  | some limit =>
    simp only
    cases hend : b.ending <;> simp only [Bool.true_and, Bool.and_eq_true, decide_eq_true_eq]
    case never =>
      split
      · rename_i hc; exact (h ⟨limit, ht, hc, Or.inl hend⟩).elim
      · rfl
    all_goals
      split
      · rename_i hc; exact (h ⟨limit, ht, hc.2, Or.inr hc.1⟩).elim
      · rfl

/-- **C11.** For every job the runner receives and can decode, with any timeout and
backoff of the executor: the execution is started, and for every way its body can
end the runner makes exactly the call of this table (`some none`: it panics because
the time of the retry or snooze is out of range; `none`: it waits forever). -/
theorem C11_outcome_table (r : Runner) (j : Job) (job : TJob r.D r.M) (timeout : Option Nat) (delay : Delta)
    (hdec : decodeJob r.cd r.cm j = .ok job) (ht : r.timeout job = some timeout)
    (hb : r.backoff job = some delay) :
    ∃ t, r.start j = .running t ∧ ∀ (now : Time) (b : Body),
      (∀ limit, timeout = some limit → TimesOut timeout b →
        (t.join b).map (r.report now t) = some (failureCall now j delay
          ⟨.timeout, "Job failed to complete within timeout: " ++ r.showDuration limit⟩)) ∧
      (¬ TimesOut timeout b →
        (b.ending = .returns .done → (t.join b).map (r.report now t) = some (some (.complete j.id))) ∧
        (∀ reason, b.ending = .returns (.cancel reason) →
          (t.join b).map (r.report now t) = some (some (.cancelled j.id ⟨.cancelled, reason⟩))) ∧
        (∀ d, b.ending = .returns (.snooze d) →
          (t.join b).map (r.report now t) =
            some (if Representable (now + d) then some (.snoozed j.id (now + d)) else none)) ∧
        (∀ type message, b.ending = .returns (.error type message) →
          (t.join b).map (r.report now t) = some (failureCall now j delay ⟨.other type, message⟩)) ∧
        (∀ message, b.ending = .panics (some message) →
          (t.join b).map (r.report now t) = some (failureCall now j delay ⟨.panic, message⟩)) ∧
        (b.ending = .panics none ∨ b.ending = .aborted →
          (t.join b).map (r.report now t) = some (failureCall now j delay ⟨.panic, b.joinMessage⟩)) ∧
        (b.ending = .never → (t.join b).map (r.report now t) = none)) := by
  have hs : ∃ t, r.start j = .running t ∧ t.delay = delay ∧ t.timeout = timeout := by
    refine ⟨{ id := job.id, isFinal := job.isFinalAttempt, delay := delay, timeout := timeout }, ?_, rfl, rfl⟩
    unfold Runner.start; rw [hdec]; simp only [ht, hb]
  obtain ⟨t, hs, hdel, hto⟩ := hs
  obtain ⟨hid, hfin⟩ := start_running hs
  refine ⟨t, hs, ?_⟩
  intro now b
  constructor
  · rintro limit hlim ⟨limit', hl', hsus, hlate⟩
    have : limit' = limit := by rw [hlim] at hl'; simpa using hl'.symm
    subst this
    have hj : t.join b = some (.elapsed limit') := by
      unfold Task.join
      rw [hto, hlim]
      simp only [hsus, Bool.and_true]
      rcases hlate with h | h
      · rw [h]; simp
      · cases b.ending <;> simp [h]
    rw [hj]
    simp only [Option.map_some, Runner.report]
    rw [handleError_eq t now _ j hid hfin, hdel]
  · intro hnt
    have hj : t.join b = (match b.ending with
        | .returns r => some (.result r)
        | .panics payload => some (.joinError payload b.joinMessage)
        | .aborted => some (.joinError none b.joinMessage)
        | .never => none) := by
      exact join_uninterrupted (by rw [hto]; exact hnt)
    rw [hj]
    refine ⟨?_, ?_, ?_, ?_, ?_, ?_, ?_⟩
    · intro he; rw [he]; simp [Runner.report, hid]
    · intro reason he; rw [he]; simp [Runner.report, hid]
    · intro d he; rw [he]
      simp only [Option.map_some, Runner.report, addTime_eq]
      rw [hid]
      congr 1
      split <;> rfl
    · intro ty msg he; rw [he]
      simp only [Option.map_some, Runner.report]
      rw [handleError_eq t now _ j hid hfin, hdel]
    · intro msg he; rw [he]
      simp only [Option.map_some, Runner.report, joinError]
      rw [handleError_eq t now _ j hid hfin, hdel]; rfl
    · rintro (he | he) <;> rw [he] <;>
      · simp only [Option.map_some, Runner.report, joinError]
        rw [handleError_eq t now _ j hid hfin, hdel]; rfl
    · intro he; rw [he]; rfl

/-- A runner for the executor `mail` with text data, unit metadata and a constant
backoff of ten seconds. -/
def sampleRunner : Runner where
  D := String
  M := Unit
  name := "mail"
  cd := { enc := fun s => some (.str s), dec := fun | .str s => some s | _ => none }
  cm := { enc := fun _ => some .null, dec := fun | .null => some () | _ => none }
  backoff := fun _ => some (10 * sec)

example : ∃ job, decodeJob sampleRunner.cd sampleRunner.cm (sampleJob 7) = .ok job ∧
    sampleRunner.timeout job = some none ∧ sampleRunner.backoff job = some (10 * sec) := ⟨_, rfl, rfl, rfl⟩

example : TimesOut (some 5) { ending := .returns .done, took := 6 } ∧
    ¬ TimesOut (some 5) { ending := .returns .done, took := 5 } := by
  refine ⟨⟨5, rfl, rfl, Or.inr (by decide)⟩, ?_⟩
  rintro ⟨l, h, -, h' | h'⟩
  · simp at h'
  · simp only [Option.some.injEq] at h; subst h; simp at h'

/-- **C11, with and without timeout.** A body that is not interrupted leads to the same
call whatever the timeout. -/
theorem C11_timeout_irrelevant (r : Runner) (now : Time) (t : Task) (b : Body)
    (h : ¬ TimesOut t.timeout b) :
    (t.join b).map (r.report now t) = ({ t with timeout := none }.join b).map (r.report now t) ∧
    ∀ j, r.report now t j = r.report now { t with timeout := none } j := by
  constructor
  · congr 1
    rw [join_uninterrupted h, join_uninterrupted]
    rintro ⟨limit, h', -⟩; simp at h'
  · intro j; cases j with
    | result r => cases r <;> rfl
    | _ => rfl

/-! ## C11 in histories of the system -/

/-- Executions of runner `r` in flight whose body still runs. -/
def Sys.runningOf (s : Sys) (r : Nat) (t : Task) : Nat :=
  (s.flightsOf r).countP fun f => f.task == t && match f.phase with | .running => true | _ => false

/-- Executions of runner `r` in flight about to make their backend call. -/
def Sys.reportingOf (s : Sys) (r : Nat) (t : Task) : Nat :=
  (s.flightsOf r).countP fun f => f.task == t && match f.phase with | .reporting _ => true | _ => false

private theorem countEv_snoc (p : SEv → Bool) (h : List TSEv) (now : Time) (ev : SEv) :
    countEv p (h ++ [{ now := now, ev := ev }]) = countEv p h + if p ev then 1 else 0 := by
  simp [countEv, List.countP_append, List.countP_cons]

theorem flightsOf_some {s : Sys} {r : Nat} {rs : RunnerState} (h : s.runners[r]? = some rs) :
    s.flightsOf r = rs.flights := by simp [Sys.flightsOf, h]

theorem flightsOf_set {s : Sys} {c : Conc} {r r' : Nat} {rs rs' : RunnerState} (h : s.runners[r]? = some rs) :
    Sys.flightsOf { conc := c, runners := s.runners.set r rs' } r' =
      if r' = r then rs'.flights else s.flightsOf r' := by
  obtain ⟨hlt, -⟩ := List.getElem?_eq_some_iff.mp h
  unfold Sys.flightsOf
  simp only [List.getElem?_set]
  by_cases hr : r = r'
  · subst hr; simp [hlt]
  · rw [if_neg hr, if_neg (fun h => hr h.symm)]

theorem flightsOf_stop (s : Sys) (r : Nat) :
    Sys.flightsOf { s with runners := s.runners.map fun rs => { rs with polling := false } } r
      = s.flightsOf r := by
  simp only [Sys.flightsOf, List.getElem?_map]
  cases s.runners[r]? <;> rfl

theorem flightsOf_init (defs : List Runner) (p : Bool) (r : Nat) : (Sys.init defs p).flightsOf r = [] := by
  simp only [Sys.flightsOf, Sys.init, List.getElem?_map]
  cases defs[r]? <;> rfl

private theorem countP_set_split {l : List Flight} {i : Nat} {f g : Flight} (h : l[i]? = some f)
    (p : Flight → Bool) :
    (l.set i g).countP p + (if p f then 1 else 0) = l.countP p + if p g then 1 else 0 := by
  obtain ⟨a, b, h1, h2⟩ := set_split h
  rw [h2, h1]
  simp only [List.countP_append, List.countP_cons]
  omega

private theorem countP_erase_split {l : List Flight} {i : Nat} {f : Flight} (h : l[i]? = some f)
    (p : Flight → Bool) :
    (l.eraseIdx i).countP p + (if p f then 1 else 0) = l.countP p := by
  obtain ⟨hi, rfl⟩ := List.getElem?_eq_some_iff.mp h
  rw [List.eraseIdx_eq_take_drop_succ]
  conv => rhs; rw [← List.take_append_drop i l, List.drop_eq_getElem_cons hi]
  simp only [List.countP_append, List.countP_cons]
  omega

/-- **C11, exactly one call.** In every history of any number of runners: as long as
runner `r` has not panicked, every execution it started is running, or about to
make its call, or has made exactly one call: the numbers of starts, ends and calls
of any execution `t` match. -/
theorem C11_one_call (defs : List Runner) (paused : Bool) (as : List TSAct) (r : Nat) (t : Task)
    (hc : ∀ e ∈ (Sys.init defs paused).trace defs as, e.ev.crashes r = false) :
    let h := (Sys.init defs paused).trace defs as
    let s := (Sys.init defs paused).run defs as
    countEv (SEv.starts r t) h = countEv (SEv.ends r t) h + s.runningOf r t ∧
    countEv (SEv.ends r t) h = countEv (SEv.reports r t) h + s.reportingOf r t := by
  revert hc
  refine sys_induction (fun h s => (∀ e ∈ h, e.ev.crashes r = false) →
    countEv (SEv.starts r t) h = countEv (SEv.ends r t) h + s.runningOf r t ∧
    countEv (SEv.ends r t) h = countEv (SEv.reports r t) h + s.reportingOf r t) ?_ ?_ as
  · intro _
    simp [countEv, Sys.runningOf, Sys.reportingOf, flightsOf_init]
  · intro h s now a ev s' ih hs hc
    have hlast := hc _ (List.mem_append_right _ (List.mem_singleton.mpr rfl))
    have hi := ih (fun e he => hc e (List.mem_append_left _ he))
    simp only [countEv_snoc]
    cases hs with
    | client a => exact hi
    | idle => exact hi
    | empty => exact hi
    | started r' d rs j t' hd hr hp hl hev hst =>
      simp only [SEv.starts, SEv.ends, SEv.reports, Sys.runningOf, Sys.reportingOf] at hi ⊢
      rw [flightsOf_set hr]
      by_cases hrr : r = r'
      · subst hrr
        rw [flightsOf_some hr] at hi
        simp only [if_true, List.countP_append, List.countP_cons, List.countP_nil]
        by_cases htt : t' = t
        · subst htt; simp; omega
        · have : (t' == t) = false := by simp [htt]
          simp [this]; omega
      · have : (r' == r) = false := by simp; exact fun h => hrr h.symm
        rw [if_neg hrr]; simp [this]; exact hi
    | undecodable => exact hi
    | panicked r' d rs j hd hr hp hl hev hst =>
      have hne : r ≠ r' := by intro h; subst h; simp [SEv.crashes] at hlast
      simp only [SEv.starts, SEv.ends, SEv.reports, Sys.runningOf, Sys.reportingOf] at hi ⊢
      rw [flightsOf_set hr, if_neg hne]; simpa using hi
    | ended r' i b d rs t' j o hd hr hf hj ho =>
      simp only [SEv.starts, SEv.ends, SEv.reports, Sys.runningOf, Sys.reportingOf] at hi ⊢
      rw [flightsOf_set hr]
      by_cases hrr : r = r'
      · subst hrr
        rw [flightsOf_some hr] at hi
        simp only [if_true]
        have e1 := countP_set_split (g := ⟨t', .reporting o⟩) hf
          (fun f => f.task == t && match f.phase with | .running => true | _ => false)
        have e2 := countP_set_split (g := ⟨t', .reporting o⟩) hf
          (fun f => f.task == t && match f.phase with | .reporting _ => true | _ => false)
        by_cases htt : t' = t
        · subst htt
          simp at e1 e2 ⊢
          omega
        · have : (t' == t) = false := by simp [htt]
          simp [this] at e1 e2 ⊢
          omega
      · have : (r' == r) = false := by simp; exact fun h => hrr h.symm
        rw [if_neg hrr]; simp [this]; exact hi
    | overflowed r' i b d rs t' j hd hr hf hj ho =>
      have hne : r ≠ r' := by intro h; subst h; simp [SEv.crashes] at hlast
      have : (r' == r) = false := by simp; exact fun h => hne h.symm
      simp only [SEv.starts, SEv.ends, SEv.reports, Sys.runningOf, Sys.reportingOf] at hi ⊢
      rw [flightsOf_set hr, if_neg hne]; simpa [this] using hi
    | reported r' i rs t' o hr hf =>
      simp only [SEv.starts, SEv.ends, SEv.reports, Sys.runningOf, Sys.reportingOf] at hi ⊢
      rw [flightsOf_set hr]
      by_cases hrr : r = r'
      · subst hrr
        rw [flightsOf_some hr] at hi
        simp only [if_true]
        have e1 := countP_erase_split hf
          (fun f => f.task == t && match f.phase with | .running => true | _ => false)
        have e2 := countP_erase_split hf
          (fun f => f.task == t && match f.phase with | .reporting _ => true | _ => false)
        by_cases htt : t' = t
        · subst htt
          simp at e1 e2 ⊢
          omega
        · have : (t' == t) = false := by simp [htt]
          simp [this] at e1 e2 ⊢
          omega
      · have : (r' == r) = false := by simp; exact fun h => hrr h.symm
        rw [if_neg hrr]; simp [this]; exact hi
    | shutdown =>
      simp only [SEv.starts, SEv.ends, SEv.reports, Sys.runningOf, Sys.reportingOf] at hi ⊢
      rw [flightsOf_stop]; simpa using hi

/-- An execution's end as it appears in a history: the call (or the panic) it leads
to is what runner `r` reports for an end of the body of an execution started from a
job that was handed out earlier. -/
def EndsAsPrescribed (defs : List Runner) (earlier : List TSEv) (e : TSEv) : Prop :=
  ∀ r t j call, e.ev = .ended r t j call →
    ∃ d job b e₀, defs[r]? = some d ∧ e₀ ∈ earlier ∧
      e₀.ev = .pulled r (.op (.load d.name) (.job (some job))) (some (.running t)) ∧
      d.start job = .running t ∧ t.join b = some j ∧ call = d.report e.now t j

private def Traced (defs : List Runner) (h : List TSEv) (s : Sys) : Prop :=
  ∀ r f, f ∈ s.flightsOf r →
    (∃ d job e₀, defs[r]? = some d ∧ e₀ ∈ h ∧
      e₀.ev = .pulled r (.op (.load d.name) (.job (some job))) (some (.running f.task)) ∧
      d.start job = .running f.task) ∧
    ∀ o, f.phase = .reporting o → ∃ e₁ j, e₁ ∈ h ∧ e₁.ev = .ended r f.task j (some o)

private theorem Traced.mono {defs : List Runner} {h : List TSEv} {s : Sys} {e : TSEv} {r : Nat} {f : Flight}
    (H : Traced defs h s) (hf : f ∈ s.flightsOf r) :
    (∃ d job e₀, defs[r]? = some d ∧ e₀ ∈ h ++ [e] ∧
      e₀.ev = .pulled r (.op (.load d.name) (.job (some job))) (some (.running f.task)) ∧
      d.start job = .running f.task) ∧
    ∀ o, f.phase = .reporting o → ∃ e₁ j, e₁ ∈ h ++ [e] ∧ e₁.ev = .ended r f.task j (some o) := by
  obtain ⟨⟨d, job, e₀, h1, h2, h3⟩, h4⟩ := H r f hf
  refine ⟨⟨d, job, e₀, h1, List.mem_append_left _ h2, h3⟩, ?_⟩
  intro o ho
  obtain ⟨e₁, j, h5, h6⟩ := h4 o ho
  exact ⟨e₁, j, List.mem_append_left _ h5, h6⟩

private theorem traced (defs : List Runner) (paused : Bool) (as : List TSAct) :
    Traced defs ((Sys.init defs paused).trace defs as) ((Sys.init defs paused).run defs as) := by
  refine sys_induction (Traced defs) ?_ ?_ as
  · intro r f hf; rw [flightsOf_init] at hf; simp at hf
  · intro h s now a ev s' ih hs r₀ f hf
    cases hs with
    | client a => exact ih.mono hf
    | idle => exact ih.mono hf
    | empty => exact ih.mono hf
    | undecodable => exact ih.mono hf
    | started r d rs j t hd hr hp hl hev hst =>
      rw [flightsOf_set hr] at hf
      split at hf
      · rename_i hrr; subst hrr
        rcases List.mem_append.mp hf with hf | hf
        · exact ih.mono (by rw [flightsOf_some hr]; exact hf)
        · simp only [List.mem_singleton] at hf
          subst hf
          refine ⟨⟨d, j, _, hd, List.mem_append_right _ (List.mem_singleton.mpr rfl), rfl, hst⟩, by simp⟩
      · exact ih.mono hf
    | panicked r d rs j hd hr hp hl hev hst =>
      rw [flightsOf_set hr] at hf
      split at hf
      · simp [RunnerState.crash] at hf
      · exact ih.mono hf
    | overflowed r i b d rs t j hd hr hfl hj ho =>
      rw [flightsOf_set hr] at hf
      split at hf
      · simp [RunnerState.crash] at hf
      · exact ih.mono hf
    | ended r i b d rs t j o hd hr hfl hj ho =>
      rw [flightsOf_set hr] at hf
      split at hf
      · rename_i hrr; subst hrr
        rcases List.mem_or_eq_of_mem_set hf with hf | hf
        · exact ih.mono (by rw [flightsOf_some hr]; exact hf)
        · subst hf
          refine ⟨?_, ?_⟩
          · exact (ih.mono (f := ⟨t, .running⟩)
              (by rw [flightsOf_some hr]; exact List.mem_of_getElem? hfl)).1
          · intro o' ho'
            simp only [Phase.reporting.injEq] at ho'
            subst ho'
            exact ⟨_, j, List.mem_append_right _ (List.mem_singleton.mpr rfl), rfl⟩
      · exact ih.mono hf
    | reported r i rs t o hr hfl =>
      rw [flightsOf_set hr] at hf
      split at hf
      · rename_i hrr; subst hrr
        exact ih.mono (by rw [flightsOf_some hr]; exact List.mem_of_mem_eraseIdx hf)
      · exact ih.mono hf
    | shutdown => rw [flightsOf_stop] at hf; exact ih.mono hf

/-- **C11, in histories.** In every history, every end of an execution leads to the call
prescribed by the table, and the backend calls runners make besides taking jobs are
exactly those calls: each call was decided by an earlier end of the same execution. -/
theorem C11_calls_prescribed (defs : List Runner) (paused : Bool) (as : List TSAct)
    (pre post : List TSEv) (e : TSEv)
    (h : (Sys.init defs paused).trace defs as = pre ++ e :: post) :
    EndsAsPrescribed defs pre e ∧
    ∀ r t ev, e.ev = .reported r t ev → ∃ e₁ j o res, e₁ ∈ pre ∧ e₁.ev = .ended r t j (some o) ∧
      ev = .op o res := by
  obtain ⟨as₁, rest, rfl, h1, h2⟩ := Sys.trace_split h
  obtain ⟨a, as₂, rfl, rfl, h4⟩ := Sys.trace_cons h2
  have T := traced defs paused as₁
  rw [h1] at T
  have hs := step_sstep defs a.now ((Sys.init defs paused).run defs as₁) a.act
  generalize a.act = act at *
  generalize (Sys.step defs a.now ((Sys.init defs paused).run defs as₁) act).1 = ev at *
  generalize (Sys.step defs a.now ((Sys.init defs paused).run defs as₁) act).2 = s' at *
  constructor
  · rintro r t j call rfl
    cases hs with
    | ended _ i b d rs _ _ o hd hr hfl hj ho =>
      obtain ⟨⟨d', job, e₀, g1, g2, g3, g4⟩, -⟩ := T r ⟨t, .running⟩
        (by rw [flightsOf_some hr]; exact List.mem_of_getElem? hfl)
      rw [hd, Option.some.injEq] at g1; subst g1
      exact ⟨d, job, b, e₀, hd, g2, g3, g4, hj, ho.symm⟩
    | overflowed _ i b d rs _ _ hd hr hfl hj ho =>
      obtain ⟨⟨d', job, e₀, g1, g2, g3, g4⟩, -⟩ := T r ⟨t, .running⟩
        (by rw [flightsOf_some hr]; exact List.mem_of_getElem? hfl)
      rw [hd, Option.some.injEq] at g1; subst g1
      exact ⟨d, job, b, e₀, hd, g2, g3, g4, hj, ho.symm⟩
  · rintro r t ev' rfl
    cases hs with
    | reported _ i rs _ o hr hfl =>
      obtain ⟨-, g⟩ := T r ⟨t, .reporting o⟩
        (by rw [flightsOf_some hr]; exact List.mem_of_getElem? hfl)
      obtain ⟨e₁, j, g1, g2⟩ := g o rfl
      exact ⟨e₁, j, o, _, g1, g2, rfl⟩

/-- One runner executes a job that fails, is retried and then succeeds. -/
def runnerHistory : List TSAct :=
  (enqSteps 0 0 sampleEnq).map (fun a => ⟨a.now, .client a.act⟩) ++
  [⟨1, .pull 0⟩, ⟨2, .finish 0 0 { ending := .returns (.error "oops" "it broke") }⟩, ⟨3, .report 0 0⟩,
   ⟨11 * sec, .pull 0⟩, ⟨12 * sec, .finish 0 0 { ending := .returns .done }⟩, ⟨13 * sec, .report 0 0⟩]

example :
    ((Sys.init [sampleRunner]).trace [sampleRunner] runnerHistory).map (fun e => e.ev.executes 0) =
      [false, false, false, false, true, false, false, true, false, false] ∧
    (∀ e ∈ (Sys.init [sampleRunner]).trace [sampleRunner] runnerHistory, e.ev.crashes 0 = false) ∧
    ((Sys.init [sampleRunner]).run [sampleRunner] runnerHistory).conc.mem.jobs.map
      (fun k => (k.job.status, k.job.attempt, k.job.scheduledAt)) = [(.complete, 2, 10 * sec + 2)] := by
  decide

end Rexecutor
