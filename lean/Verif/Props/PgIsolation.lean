import Verif.Props.Isolation
import Verif.Props.PgLifecycle

/-! # C87: what stops a runner on Postgres -/

namespace Rexecutor

/-- A job runner `r` received made its own code panic. -/
def PgChokedOnJob (d : Runner) (r : Nat) (h : List TPSEv) : Prop :=
  ∃ e ∈ h, ∃ j st, e.ev = .took r (.job (some j)) st ∧ d.PanicsFor j

/-- An execution of runner `r` asked for a moment beyond the range of time. -/
def PgChokedOnDelay (r : Nat) (h : List TPSEv) : Prop :=
  ∃ e ∈ h, ∃ t o c delay, e.ev = .ended r t o c ∧ AsksAgainAfter t o delay ∧ BeyondTime (e.now + delay)

/-- Runner `r` was told to stop, or its process ended. -/
def PgToldToStop (r : Nat) (h : List TPSEv) : Prop :=
  ∃ e ∈ h, (∃ w, e.ev = .stopped r w) ∨ e.ev = .killed r

private def Cause (d : Runner) (r : Nat) (h : List TPSEv) : Prop :=
  PgToldToStop r h ∨ PgChokedOnJob d r h ∨ PgChokedOnDelay r h

private theorem Cause.grow {d : Runner} {r : Nat} {h : List TPSEv} (e : TPSEv) (hc : Cause d r h) : Cause d r (h ++ [e]) := by
  have hm : ∀ x ∈ h, x ∈ h ++ [e] := fun x hx => List.mem_append_left _ hx
  rcases hc with ⟨x, hx, h1⟩ | ⟨x, hx, h1⟩ | ⟨x, hx, h1⟩
  · exact .inl ⟨x, hm x hx, h1⟩
  · exact .inr (.inl ⟨x, hm x hx, h1⟩)
  · exact .inr (.inr ⟨x, hm x hx, h1⟩)

private theorem pg_stop_causes (hash : HashFn) (defs : List Runner) (as : List TPSAct) (r : Nat) (d : Runner)
    (hd : defs[r]? = some d) :
    ∃ rs, ((PgSys.init defs).run hash defs as).runners[r]? = some rs ∧
      (rs.polling = true ∨ Cause d r ((PgSys.init defs).trace hash defs as)) := by
  induction as using snoc_induction with
  | nil => exact ⟨{}, by simp [PgSys.run, PgSys.init, hd], .inl rfl⟩
  | snoc as a ih =>
    rw [PgSys.run_append, PgSys.trace_append]
    simp only [PgSys.run, PgSys.trace]
    generalize (PgSys.init defs).run hash defs as = s at *
    generalize (PgSys.init defs).trace hash defs as = h at *
    obtain ⟨now, tie, act⟩ := a
    simp only
    obtain ⟨rs₀, hr₀, ih⟩ := ih
    have same : ∀ e : TPSEv, ∀ c, ∃ rs, (PgSys.mk c s.runners).runners[r]? = some rs ∧ (rs.polling = true ∨ Cause d r (h ++ [e])) :=
      fun e c => ⟨rs₀, hr₀, ih.imp_right (·.grow e)⟩
    have keep : ∀ (q : Nat) (rs rs' : PgRunner) (c : PgConc), s.runners[q]? = some rs → rs'.polling = rs.polling → ∀ e,
        ∃ x, (PgSys.mk c (s.runners.set q rs')).runners[r]? = some x ∧ (x.polling = true ∨ Cause d r (h ++ [e])) := by
      intro q rs rs' c hq hp e
      by_cases hqr : q = r
      · subst hqr
        have hlt := (List.getElem?_eq_some_iff.mp hq).1
        rw [hr₀, Option.some.injEq] at hq; subst hq
        exact ⟨rs', by simp [hlt], Or.imp_right (Cause.grow e) (hp ▸ ih)⟩
      · exact ⟨rs₀, by simp [hqr, hr₀], ih.imp_right (·.grow e)⟩
    have gone : ∀ (q : Nat) (rs rs' : PgRunner) (c : PgConc) (e : TPSEv), s.runners[q]? = some rs → (q = r → Cause d r (h ++ [e])) →
        ∃ x, (PgSys.mk c (s.runners.set q rs')).runners[r]? = some x ∧ (x.polling = true ∨ Cause d r (h ++ [e])) := by
      intro q rs rs' c e hq hc
      by_cases hqr : q = r
      · have := hc hqr
        subst hqr
        have hlt := (List.getElem?_eq_some_iff.mp hq).1
        exact ⟨rs', by simp [hlt], .inr this⟩
      · exact ⟨rs₀, by simp [hqr, hr₀], ih.imp_right (·.grow e)⟩
    have last : ∀ e : TPSEv, e ∈ h ++ [e] := fun e => List.mem_append_right _ (List.mem_singleton.mpr rfl)
    cases act with
    | db b => exact same _ _
    | pull q =>
      simp only [PgSys.step]
      split
      · rename_i d' qs hd' hq
        split
        · refine keep q qs _ _ hq ?_ _; rfl
        · exact same _ _
      · exact same _ _
    | take q =>
      simp only [PgSys.step]
      split
      · rename_i d' qs hd' hq
        split
        · rename_i j hj
          cases hst : d'.start j with
          | running t => refine keep q qs _ _ hq ?_ _; rfl
          | undecodable => refine keep q qs _ _ hq ?_ _; rfl
          | runnerPanics =>
            refine gone q qs _ _ _ hq fun hqr => ?_
            subst hqr
            rw [hd, Option.some.injEq] at hd'; subst hd'
            exact .inr (.inl ⟨_, last _, j, _, rfl, start_panics hst⟩)
        · refine keep q qs _ _ hq ?_ _; rfl
        · exact same _ _
      · exact same _ _
    | drop q =>
      simp only [PgSys.step]
      split
      · rename_i qs hq; refine keep q qs _ _ hq ?_ _; rfl
      · exact same _ _
    | finish q i b =>
      simp only [PgSys.step]
      split
      · rename_i d' qs hd' hq
        split
        · split
          · exact same _ _
          · split
            · refine keep q qs _ _ hq ?_ _; rfl
            · rename_i ho
              refine gone q qs _ _ _ hq fun hqr => ?_
              subst hqr
              obtain ⟨delay, h1, h2⟩ := report_none ho
              exact .inr (.inr ⟨_, last _, _, _, _, _, rfl, h1, h2⟩)
        · exact same _ _
      · exact same _ _
    | report q i =>
      simp only [PgSys.step]
      split
      · rename_i qs hq
        split
        · split
          · exact same _ _
          · refine keep q qs _ _ hq ?_ _; rfl
        · exact same _ _
      · exact same _ _
    | lose q i =>
      simp only [PgSys.step]
      split
      · rename_i qs hq
        split
        · refine keep q qs _ _ hq ?_ _; rfl
        · exact same _ _
      · exact same _ _
    | stop q =>
      simp only [PgSys.step]
      split
      · rename_i qs hq
        refine gone q qs _ _ _ hq fun hqr => ?_
        subst hqr
        exact .inl ⟨_, last _, .inl ⟨_, rfl⟩⟩
      · exact same _ _
    | kill q =>
      simp only [PgSys.step]
      split
      · rename_i qs hq
        refine gone q qs _ _ _ hq fun hqr => ?_
        subst hqr
        exact .inl ⟨_, last _, .inr rfl⟩
      · exact same _ _

/-- **C87, partial.** In every history of any number of runners on one database, a runner that
was not told to stop and whose process goes on keeps asking for jobs: whatever the other
runners, processes and clients did, whatever rows could not be decoded, whatever connections
failed, and however its executions ended. When it is polled below its limit while no
statement of its own is under way, it sends another hand-out statement. Missing: it must not
have received a job for which its own code panics, and no execution may have asked for a
moment beyond chrono's range. -/
theorem C87_goes_on_partial (hash : HashFn) (defs : List Runner) (as : List TPSAct) (r : Nat) (d : Runner)
    (hd : defs[r]? = some d)
    (hs : ¬ PgToldToStop r ((PgSys.init defs).trace hash defs as))
    (hj : ¬ PgChokedOnJob d r ((PgSys.init defs).trace hash defs as))
    (ht : ¬ PgChokedOnDelay r ((PgSys.init defs).trace hash defs as)) :
    ∃ rs, ((PgSys.init defs).run hash defs as).runners[r]? = some rs ∧
      ((∀ k, d.maxConcurrency = some k → k = 0 ∨ rs.inFlight < k) → rs.loading = none →
        ∀ tie now, (((PgSys.init defs).run hash defs as).step hash defs tie now (.pull r)).1 = .pulled r ∧
          ((PgSys.init defs).run hash defs as).conc.sessions.length <
            (((PgSys.init defs).run hash defs as).step hash defs tie now (.pull r)).2.conc.sessions.length) := by
  obtain ⟨rs, hr, hc⟩ := pg_stop_causes hash defs as r d hd
  have hp : rs.polling = true := by
    rcases hc with hc | hc | hc | hc
    · exact hc
    · exact absurd hc hs
    · exact absurd hc hj
    · exact absurd hc ht
  refine ⟨rs, hr, ?_⟩
  intro hl hn tie now
  have hb : belowLimit d.maxConcurrency rs.inFlight = true := by
    cases hk : d.maxConcurrency with
    | none => rfl
    | some k =>
      rcases hl k hk with rfl | h
      · rfl
      · simp [belowLimit, h]
  simp [PgSys.step, hd, hr, hp, hb, hn, PgConc.step]

/-- **C87, the answer.** When the statement a runner waits for has been answered, whatever the
answer is (a job that can be decoded or not, no job, an error), the runner takes it and does not
wait any more; and it goes on asking, unless its own code panics for the job. -/
theorem C87_answer_taken (hash : HashFn) (defs : List Runner) (s : PgSys) (r k : Nat) (d : Runner) (rs : PgRunner) (res : Res)
    (hd : defs[r]? = some d) (hr : s.runners[r]? = some rs) (hk : rs.loading = some k)
    (hs : s.conc.sessions[k]? = some (.done res)) (tie : Int → Nat) (now : Time) :
    ∃ st rs', (s.step hash defs tie now (.take r)).1 = .took r res st ∧
      (s.step hash defs tie now (.take r)).2.runners[r]? = some rs' ∧ rs'.loading = none ∧
      (rs'.polling = rs.polling ∨ ∃ j, res = .job (some j) ∧ d.PanicsFor j) := by
  have hlt := (List.getElem?_eq_some_iff.mp hr).1
  have hb : (rs.loading.bind fun k => s.conc.sessions[k]?) = some (.done res) := by rw [hk]; exact hs
  simp only [PgSys.step, hd, hr, hb]
  split
  · rename_i j hj
    cases hj
    cases hst : d.start j with
    | running t => exact ⟨_, _, rfl, List.getElem?_set_self hlt, rfl, .inl rfl⟩
    | undecodable => exact ⟨_, _, rfl, List.getElem?_set_self hlt, rfl, .inl rfl⟩
    | runnerPanics => exact ⟨_, _, rfl, List.getElem?_set_self hlt, rfl, .inr ⟨j, rfl, start_panics hst⟩⟩
  · rename_i res' hne hj
    cases hj
    exact ⟨_, _, rfl, List.getElem?_set_self hlt, rfl, .inl rfl⟩
  · rename_i h1 h2; exact absurd rfl (h2 _)

/-- A runner that cannot decode the job it was given waits for the answer, takes it, and asks
again. -/
example :
    let defs := [blindRunner]
    let as := [psAct 5000 (.db (.plain sampleEnq))] ++ (psPull 6000 0 0).dropLast
    let s := (PgSys.init defs).run sampleHash defs as
    s.runners.map (·.loading) = [some 0] ∧ ((s.conc.sessions[0]?.map fun x => match x with | .done (.job (some j)) => j.id | _ => -1) = some 1) ∧
    ((s.step sampleHash defs (fun _ => 0) 7000 (.take 0)).2.runners.map fun rs => (rs.loading, rs.flights.length)) = [(none, 0)] := by
  decide

/-- A runner panicked. -/
def PSEv.crashes (r : Nat) : PSEv → Bool
  | .took r' _ (some .runnerPanics) => r' == r
  | .ended r' _ _ none => r' == r
  | _ => false

/-- A panic, a stop or the end of the process stops a runner. -/
private theorem pg_cause_stops (hash : HashFn) (defs : List Runner) (as : List TPSAct) (r : Nat)
    (hc : ∃ e ∈ (PgSys.init defs).trace hash defs as, e.ev.crashes r = true ∨ (∃ w, e.ev = .stopped r w) ∨ e.ev = .killed r) :
    PgStopped ((PgSys.init defs).run hash defs as) r := by
  induction as using snoc_induction with
  | nil => simp [PgSys.trace] at hc
  | snoc as a ih =>
    rw [PgSys.run_append]
    rw [PgSys.trace_append] at hc
    simp only [PgSys.run, PgSys.trace] at *
    generalize (PgSys.init defs).run hash defs as = s at *
    obtain ⟨e, he, hcr⟩ := hc
    rcases List.mem_append.mp he with he | he
    · exact (pgStopped_step hash defs a.tie a.now (ih ⟨e, he, hcr⟩) a.act).1
    · rw [List.mem_singleton] at he
      subst he
      simp only at hcr
      obtain ⟨now, tie, act⟩ := a
      rcases hcr with hcr | hcr
      case' inr =>
        have gone : ∀ (q : Nat) (rs : PgRunner) (c : PgConc), q = r → rs.polling = false → rs.loading = none →
            PgStopped ⟨c, s.runners.set q rs⟩ r := by
          rintro q rs c rfl h1 h2 x hx
          simp only [List.getElem?_set, if_true] at hx
          split at hx
          · cases hx; exact ⟨h1, h2⟩
          · cases hx
        cases act with
        | stop q =>
          simp only [PgSys.step] at hcr ⊢
          cases hq : s.runners[q]? with
          | none => simp [hq] at hcr
          | some rs =>
            simp only [hq] at hcr ⊢
            exact gone q _ _ (by simpa using hcr) rfl rfl
        | kill q =>
          simp only [PgSys.step] at hcr ⊢
          cases hq : s.runners[q]? with
          | none => simp [hq] at hcr
          | some rs =>
            simp only [hq] at hcr ⊢
            exact gone q _ _ (by simpa using hcr) rfl rfl
        | db b => simp [PgSys.step] at hcr
        | pull q => simp only [PgSys.step] at hcr; (repeat' split at hcr) <;> simp at hcr
        | take q => simp only [PgSys.step] at hcr; (repeat' split at hcr) <;> simp at hcr
        | drop q => simp only [PgSys.step] at hcr; (repeat' split at hcr) <;> simp at hcr
        | finish q i b => simp only [PgSys.step] at hcr; (repeat' split at hcr) <;> simp at hcr
        | report q i => simp only [PgSys.step] at hcr; (repeat' split at hcr) <;> simp at hcr
        | lose q i => simp only [PgSys.step] at hcr; (repeat' split at hcr) <;> simp at hcr
      have crash : ∀ (q : Nat) (rs : PgRunner) (c : PgConc), q = r → PgStopped ⟨c, s.runners.set q rs.crash⟩ r := by
        rintro q rs c rfl x hx
        simp only [List.getElem?_set, if_true] at hx
        split at hx
        · cases hx; exact ⟨rfl, rfl⟩
        · cases hx
      cases act with
      | take q =>
        simp only [PgSys.step] at hcr ⊢
        split at hcr
        · split at hcr
          · rename_i d rs _ _ _ j _
            cases hst : d.start j with
            | running t => rw [hst] at hcr; simp [PSEv.crashes] at hcr
            | undecodable => rw [hst] at hcr; simp [PSEv.crashes] at hcr
            | runnerPanics =>
              rw [hst] at hcr
              exact crash q rs _ (by simpa [PSEv.crashes] using hcr)
          · simp [PSEv.crashes] at hcr
          · simp [PSEv.crashes] at hcr
        · simp [PSEv.crashes] at hcr
      | finish q i b =>
        simp only [PgSys.step] at hcr ⊢
        split at hcr
        · split at hcr
          · split at hcr
            · simp [PSEv.crashes] at hcr
            · split at hcr
              · simp [PSEv.crashes] at hcr
              · rename_i rs _ _ _ _ _ _ _ _ _
                exact crash q _ _ (by simpa [PSEv.crashes] using hcr)
          · simp [PSEv.crashes] at hcr
        · simp [PSEv.crashes] at hcr
      | db b => simp [PgSys.step, PSEv.crashes] at hcr
      | pull q => simp only [PgSys.step] at hcr; (repeat' split at hcr) <;> simp [PSEv.crashes] at hcr
      | drop q => simp only [PgSys.step] at hcr; (repeat' split at hcr) <;> simp [PSEv.crashes] at hcr
      | report q i => simp only [PgSys.step] at hcr; (repeat' split at hcr) <;> simp [PSEv.crashes] at hcr
      | lose q i => simp only [PgSys.step] at hcr; (repeat' split at hcr) <;> simp [PSEv.crashes] at hcr
      | stop q => simp only [PgSys.step] at hcr; (repeat' split at hcr) <;> simp [PSEv.crashes] at hcr
      | kill q => simp only [PgSys.step] at hcr; (repeat' split at hcr) <;> simp [PSEv.crashes] at hcr

/-- And it stays so. -/
private theorem pg_stopped_for_good (hash : HashFn) (defs : List Runner) (s : PgSys) (bs : List TPSAct) (r : Nat) (h0 : PgStopped s r) :
    ∀ e ∈ s.trace hash defs bs, e.ev ≠ .pulled r ∧ ∀ res st, e.ev ≠ .took r res st := by
  induction bs generalizing s with
  | nil => simp [PgSys.trace]
  | cons b bs ih =>
    have := pgStopped_step hash defs b.tie b.now h0 b.act
    intro e he
    simp only [PgSys.trace, List.mem_cons] at he
    rcases he with rfl | he
    · exact this.2
    · exact ih _ this.1 e he

/-- **C87, for good.** A runner that panicked sends no hand-out statement and starts no
execution, whatever happens. -/
theorem C87_never_recovers (hash : HashFn) (defs : List Runner) (as bs : List TPSAct) (r : Nat)
    (hc : ∃ e ∈ (PgSys.init defs).trace hash defs as, e.ev.crashes r = true) :
    ∀ e ∈ ((PgSys.init defs).run hash defs as).trace hash defs bs,
      e.ev ≠ .pulled r ∧ ∀ res st, e.ev ≠ .took r res st := by
  obtain ⟨e, he, h⟩ := hc
  exact pg_stopped_for_good hash defs _ bs r (pg_cause_stops hash defs as r ⟨e, he, .inl h⟩)

/-- Choking is panicking. -/
private theorem pg_choked_crashes (hash : HashFn) (defs : List Runner) (as : List TPSAct) (s : PgSys) (r : Nat) (d : Runner)
    (hd : defs[r]? = some d) :
    ∀ e ∈ s.trace hash defs as,
      (∀ j st, e.ev = .took r (.job (some j)) st → d.PanicsFor j → e.ev.crashes r = true) ∧
      (∀ t o c delay, e.ev = .ended r t o c → AsksAgainAfter t o delay → BeyondTime (e.now + delay) → e.ev.crashes r = true) := by
  induction as generalizing s with
  | nil => simp [PgSys.trace]
  | cons a as ih =>
    intro e he
    simp only [PgSys.trace, List.mem_cons] at he
    rcases he with rfl | he
    · obtain ⟨now, tie, act⟩ := a
      refine ⟨fun j st hev hp => ?_, fun t o c delay hev h1 h2 => ?_⟩
      · simp only at hev ⊢
        rw [hev]
        cases act with
        | take q =>
          simp only [PgSys.step] at hev
          split at hev
          · split at hev
            · rename_i d' rs hd' _ _ j' _
              simp only [PSEv.took.injEq, Res.job.injEq, Option.some.injEq] at hev
              obtain ⟨rfl, rfl, rfl⟩ := hev
              rw [hd, Option.some.injEq] at hd'; subst hd'
              simp [start_of_panics hp, PSEv.crashes]
            · rename_i h _
              simp only [PSEv.took.injEq] at hev
              obtain ⟨-, rfl, -⟩ := hev
              simp at h
            · cases hev
          · cases hev
        | db b => simp [PgSys.step] at hev
        | pull q => simp only [PgSys.step] at hev; (repeat' split at hev) <;> simp at hev
        | drop q => simp only [PgSys.step] at hev; (repeat' split at hev) <;> simp at hev
        | finish q i b => simp only [PgSys.step] at hev; (repeat' split at hev) <;> simp at hev
        | report q i => simp only [PgSys.step] at hev; (repeat' split at hev) <;> simp at hev
        | lose q i => simp only [PgSys.step] at hev; (repeat' split at hev) <;> simp at hev
        | stop q => simp only [PgSys.step] at hev; (repeat' split at hev) <;> simp at hev
        | kill q => simp only [PgSys.step] at hev; (repeat' split at hev) <;> simp at hev
      · simp only at hev h2 ⊢
        rw [hev]
        cases act with
        | finish q i b =>
          simp only [PgSys.step] at hev
          split at hev
          · split at hev
            · split at hev
              · cases hev
              · split at hev
                · rename_i hrep
                  simp only [PSEv.ended.injEq] at hev
                  obtain ⟨rfl, rfl, rfl, rfl⟩ := hev
                  rw [report_beyond h1 h2] at hrep
                  cases hrep
                · simp only [PSEv.ended.injEq] at hev
                  obtain ⟨rfl, rfl, rfl, rfl⟩ := hev
                  simp [PSEv.crashes]
            · cases hev
          · cases hev
        | db b => simp [PgSys.step] at hev
        | pull q => simp only [PgSys.step] at hev; (repeat' split at hev) <;> simp at hev
        | take q => simp only [PgSys.step] at hev; (repeat' split at hev) <;> simp at hev
        | drop q => simp only [PgSys.step] at hev; (repeat' split at hev) <;> simp at hev
        | report q i => simp only [PgSys.step] at hev; (repeat' split at hev) <;> simp at hev
        | lose q i => simp only [PgSys.step] at hev; (repeat' split at hev) <;> simp at hev
        | stop q => simp only [PgSys.step] at hev; (repeat' split at hev) <;> simp at hev
        | kill q => simp only [PgSys.step] at hev; (repeat' split at hev) <;> simp at hev
    · exact ih _ e he

/-- **C87, exactly.** In every history of any number of runners on one database: a runner with
room for another execution will ask for jobs in some continuation exactly if it was not told to
stop and its process did not end, it never received a job for which its own code panics, and
none of its executions asked for a moment beyond chrono's range. -/
theorem C87_exactly (hash : HashFn) (defs : List Runner) (as : List TPSAct) (r : Nat) (d : Runner) (hd : defs[r]? = some d)
    (hl : ∀ rs k, ((PgSys.init defs).run hash defs as).runners[r]? = some rs → d.maxConcurrency = some k → k = 0 ∨ rs.inFlight < k) :
    let h := (PgSys.init defs).trace hash defs as
    (∃ bs, ∃ e ∈ ((PgSys.init defs).run hash defs as).trace hash defs bs, e.ev = .pulled r) ↔
      ¬ (PgToldToStop r h ∨ PgChokedOnJob d r h ∨ PgChokedOnDelay r h) := by
  intro h
  constructor
  · rintro ⟨bs, e, he, hev⟩ hc
    refine (pg_stopped_for_good hash defs _ bs r (pg_cause_stops hash defs as r ?_) e he).1 hev
    rcases hc with ⟨e, he, hc⟩ | ⟨e, he, j, st, hev, hc⟩ | ⟨e, he, t, o, c, delay, hev, h1, h2⟩
    · exact ⟨e, he, .inr hc⟩
    · exact ⟨e, he, .inl ((pg_choked_crashes hash defs as _ r d hd e he).1 j st hev hc)⟩
    · exact ⟨e, he, .inl ((pg_choked_crashes hash defs as _ r d hd e he).2 t o c delay hev h1 h2)⟩
  · intro hc
    obtain ⟨rs, hr, hs⟩ := pg_stop_causes hash defs as r d hd
    have hp : rs.polling = true := hs.resolve_right hc
    have hb : belowLimit d.maxConcurrency rs.inFlight = true := by
      cases hk : d.maxConcurrency with
      | none => rfl
      | some k =>
        rcases hl rs k hr hk with rfl | h
        · rfl
        · simp [belowLimit, h]
    refine ⟨[psAct 0 (.drop r), psAct 0 (.pull r)], _, List.mem_cons_of_mem _ List.mem_cons_self, ?_⟩
    have hlt := (List.getElem?_eq_some_iff.mp hr).1
    have hb' : belowLimit d.maxConcurrency ({ flights := rs.flights } : PgRunner).inFlight = true := hb
    generalize (PgSys.init defs).run hash defs as = s at *
    show ((s.step hash defs _ 0 (.drop r)).2.step hash defs _ 0 (.pull r)).1 = _
    simp only [PgSys.step, hr, hd, List.getElem?_set_self hlt, hp, Bool.true_and, Option.isNone_none, Bool.and_true]
    rw [if_pos hb']

/-- Two jobs are enqueued; the first one is executed and snoozes itself for the longest
delay there is. -/
def pgSnoozeForever : List TPSAct :=
  [psAct 5000 (.db (.plain sampleEnq)), psAct 5000 (.db (.plain sampleEnq))] ++ psPull 6000 0 0 ++
  [psAct 7000 (.finish 0 0 { ending := .returns (.snooze (9223372036854775807 * ms)) })]

/-- **C87 as stated is false.** A job that snoozes itself for too long ends its runner, which
was not told to stop: the other job is due, and in no continuation does this runner ask for
a job again. -/
theorem C87_violated :
    let defs := [sampleRunner]
    ((PgSys.init defs).run sampleHash defs pgSnoozeForever).conc.pg.rows.map (fun r => (r.id, r.status)) =
      [(1, .executing), (2, .scheduled)] ∧
    (∀ e ∈ (PgSys.init defs).trace sampleHash defs pgSnoozeForever,
      (match e.ev with | .stopped _ _ => true | .killed _ => true | _ => false) = false) ∧
    ∀ bs, ∀ e ∈ ((PgSys.init defs).run sampleHash defs pgSnoozeForever).trace sampleHash defs bs,
      e.ev ≠ .pulled 0 ∧ ∀ res st, e.ev ≠ .took 0 res st := by
  refine ⟨by decide, by decide, fun bs => C87_never_recovers _ _ _ _ 0 (by decide)⟩

/-- One runner cannot decode the job it receives, another one's execution panics and its
backend call fails, and a connection breaks. -/
def pgBadDay : List TPSAct :=
  [psAct 5000 (.db (.plain sampleEnq)), psAct 5000 (.db (.plain sampleEnq)), psAct 5000 (.db (.plain sampleEnq))] ++
  psPull 6000 0 0 ++ psPull 6000 1 1 ++
  [psAct 7000 (.finish 1 0 { ending := .panics none }), psAct 7000 (.lose 1 0), psAct 8000 (.pull 0), psAct 8000 (.drop 0)]

/-- The hypotheses of `C87_goes_on_partial` hold, for both runners. -/
example :
    let defs := [blindRunner, eagerRunner (some 1)]
    let s := (PgSys.init defs).run sampleHash defs pgBadDay
    let h := (PgSys.init defs).trace sampleHash defs pgBadDay
    ¬ PgToldToStop 0 h ∧ ¬ PgToldToStop 1 h ∧
    ¬ PgChokedOnJob blindRunner 0 h ∧ ¬ PgChokedOnJob (eagerRunner (some 1)) 1 h ∧
    ¬ PgChokedOnDelay 0 h ∧ ¬ PgChokedOnDelay 1 h ∧
    s.runners.map (fun rs => (rs.inFlight, rs.loading)) = [(0, none), (0, none)] := by
  have noStop : ∀ (r : Nat) (h : List TPSEv), (∀ e ∈ h, (match e.ev with
        | .stopped _ _ => true | .killed _ => true | _ => false) = false) → ¬ PgToldToStop r h := by
    rintro r h hh ⟨e, he, ⟨w, h1⟩ | h1⟩
    · have := hh e he; rw [h1] at this; cases this
    · have := hh e he; rw [h1] at this; cases this
  have noJob : ∀ (d : Runner) (r : Nat) (h : List TPSEv), (∀ job, d.timeout job ≠ none ∧ d.backoff job ≠ none) →
      (∀ e ∈ h, (match e.ev with
        | .took q (.job (some j)) _ => q != r || (match decodeJob d.cd d.cm j with | .panic => false | _ => true)
        | _ => true) = true) → ¬ PgChokedOnJob d r h := by
    rintro d r h hd hh ⟨e, he, j, st, h1, h2⟩
    have := hh e he
    rw [h1] at this
    rcases h2 with h2 | ⟨job, h2, h3⟩
    · simp [h2] at this
    · rcases h3 with h3 | h3
      · exact (hd job).1 h3
      · exact (hd job).2 h3
  have noDelay : ∀ (r : Nat) (h : List TPSEv), (∀ e ∈ h, (match e.ev with
        | .ended q t o _ => q != r || (decide (Representable (e.now + t.delay)) &&
            match o with | .result (.snooze _) => false | _ => true)
        | _ => true) = true) → ¬ PgChokedOnDelay r h := by
    rintro r h hh ⟨e, he, t, o, c, delay, h1, h2, h3⟩
    have := hh e he
    rw [h1] at this
    rcases h2 with rfl | ⟨-, -, rfl⟩
    · simp at this
    · simp only [bne_self_eq_false, Bool.false_or, Bool.and_eq_true, decide_eq_true_eq] at this
      exact h3 this.1
  exact ⟨noStop _ _ (by decide), noStop _ _ (by decide), noJob _ _ _ (by simp [blindRunner]) (by decide),
    noJob _ _ _ (by simp [eagerRunner]) (by decide), noDelay _ _ (by decide), noDelay _ _ (by decide), by decide⟩

end Rexecutor
