import Verif.Lemmas.Life
import Verif.Spec.System

/-! Case analysis of the steps of the system and its projection to the backend. -/

namespace Rexecutor

/-- The runner with other executions in flight. -/
abbrev RunnerState.withFlights (rs : RunnerState) (fs : List Flight) : RunnerState := { rs with flights := fs }

/-- All the ways the system can make a step. -/
inductive SStep (defs : List Runner) (now : Time) (s : Sys) : SAct → SEv → Sys → Prop where
  | client (a : Act) :
      SStep defs now s (.client a) (.client (s.conc.step now a).1) { s with conc := (s.conc.step now a).2 }
  | idle (a : SAct) : SStep defs now s a .nothing s
  | empty (r : Nat) (d : Runner) (rs : RunnerState) (hd : defs[r]? = some d) (hr : s.runners[r]? = some rs)
      (hp : rs.polling = true) (hl : belowLimit d.maxConcurrency rs.flights.length = true)
      (hev : (s.conc.step now (.op (.load d.name))).1 = .op (.load d.name) (.job none)) :
      SStep defs now s (.pull r) (.pulled r (.op (.load d.name) (.job none)) none)
        { s with conc := (s.conc.step now (.op (.load d.name))).2 }
  | started (r : Nat) (d : Runner) (rs : RunnerState) (j : Job) (t : Task)
      (hd : defs[r]? = some d) (hr : s.runners[r]? = some rs)
      (hp : rs.polling = true) (hl : belowLimit d.maxConcurrency rs.flights.length = true)
      (hev : (s.conc.step now (.op (.load d.name))).1 = .op (.load d.name) (.job (some j)))
      (hs : d.start j = .running t) :
      SStep defs now s (.pull r) (.pulled r (.op (.load d.name) (.job (some j))) (some (.running t)))
        { conc := (s.conc.step now (.op (.load d.name))).2,
          runners := s.runners.set r (rs.withFlights (rs.flights ++ [⟨t, .running⟩])) }
  | undecodable (r : Nat) (d : Runner) (rs : RunnerState) (j : Job)
      (hd : defs[r]? = some d) (hr : s.runners[r]? = some rs)
      (hp : rs.polling = true) (hl : belowLimit d.maxConcurrency rs.flights.length = true)
      (hev : (s.conc.step now (.op (.load d.name))).1 = .op (.load d.name) (.job (some j)))
      (hs : d.start j = .undecodable) :
      SStep defs now s (.pull r) (.pulled r (.op (.load d.name) (.job (some j))) (some .undecodable))
        { s with conc := (s.conc.step now (.op (.load d.name))).2 }
  | panicked (r : Nat) (d : Runner) (rs : RunnerState) (j : Job)
      (hd : defs[r]? = some d) (hr : s.runners[r]? = some rs)
      (hp : rs.polling = true) (hl : belowLimit d.maxConcurrency rs.flights.length = true)
      (hev : (s.conc.step now (.op (.load d.name))).1 = .op (.load d.name) (.job (some j)))
      (hs : d.start j = .runnerPanics) :
      SStep defs now s (.pull r) (.pulled r (.op (.load d.name) (.job (some j))) (some .runnerPanics))
        { conc := (s.conc.step now (.op (.load d.name))).2, runners := s.runners.set r rs.crash }
  | ended (r i : Nat) (b : Body) (d : Runner) (rs : RunnerState) (t : Task) (j : Joined) (o : Op)
      (hd : defs[r]? = some d) (hr : s.runners[r]? = some rs)
      (hf : rs.flights[i]? = some { task := t, phase := .running })
      (hj : t.join b = some j) (ho : d.report now t j = some o) :
      SStep defs now s (.finish r i b) (.ended r t j (some o))
        { s with runners := s.runners.set r (rs.withFlights (rs.flights.set i ⟨t, .reporting o⟩)) }
  | overflowed (r i : Nat) (b : Body) (d : Runner) (rs : RunnerState) (t : Task) (j : Joined)
      (hd : defs[r]? = some d) (hr : s.runners[r]? = some rs)
      (hf : rs.flights[i]? = some { task := t, phase := .running })
      (hj : t.join b = some j) (ho : d.report now t j = none) :
      SStep defs now s (.finish r i b) (.ended r t j none) { s with runners := s.runners.set r rs.crash }
  | reported (r i : Nat) (rs : RunnerState) (t : Task) (o : Op)
      (hr : s.runners[r]? = some rs)
      (hf : rs.flights[i]? = some { task := t, phase := .reporting o }) :
      SStep defs now s (.report r i) (.reported r t (s.conc.step now (.op o)).1)
        { conc := (s.conc.step now (.op o)).2,
          runners := s.runners.set r (rs.withFlights (rs.flights.eraseIdx i)) }
  | shutdown :
      SStep defs now s .shutdown .shutdown
        { s with runners := s.runners.map fun rs => { rs with polling := false } }

theorem step_sstep (defs : List Runner) (now : Time) (s : Sys) (a : SAct) :
    SStep defs now s a (s.step defs now a).1 (s.step defs now a).2 := by
  cases a with
  | client a => exact .client a
  | shutdown => exact .shutdown
  | pull r =>
    simp only [Sys.step]
    split
    · rename_i d rs hd hr
      split
      · rename_i hc
        simp only [Bool.and_eq_true] at hc
        have hcase : (∃ j, (s.conc.step now (.op (.load d.name))).1 = .op (.load d.name) (.job (some j))) ∨
            (s.conc.step now (.op (.load d.name))).1 = .op (.load d.name) (.job none) := by
          simp only [Conc.step, Mem.step]
          cases (s.conc.mem.load now d.name).1 with
          | none => exact Or.inr rfl
          | some j => exact Or.inl ⟨j, rfl⟩
        rcases hcase with ⟨j, hj⟩ | hj
        · rw [hj]
          simp only
          cases hs : d.start j with
          | running t => exact .started r d rs j t hd hr hc.1 hc.2 hj hs
          | undecodable =>
            have := SStep.undecodable (now := now) r d rs j hd hr hc.1 hc.2 hj hs
            have hset : s.runners.set r rs = s.runners := by
              obtain ⟨hlt, he⟩ := List.getElem?_eq_some_iff.mp hr
              rw [← he]; exact List.set_getElem_self hlt
            rw [hset]; exact this
          | runnerPanics => exact .panicked r d rs j hd hr hc.1 hc.2 hj hs
        · rw [hj]; exact .empty r d rs hd hr hc.1 hc.2 hj
      · exact .idle _
    · exact .idle _
  | finish r i b =>
    simp only [Sys.step]
    split
    · rename_i d rs hd hr
      split
      · rename_i t hf
        split
        · exact .idle _
        · rename_i j hj
          split
          · rename_i o ho; exact .ended r i b d rs t j o hd hr hf hj ho
          · rename_i ho; exact .overflowed r i b d rs t j hd hr hf hj ho
      · exact .idle _
    · exact .idle _
  | report r i =>
    simp only [Sys.step]
    split
    · rename_i rs hr
      split
      · rename_i t o hf; exact .reported r i rs t o hr hf
      · exact .idle _
    · exact .idle _

/-- Either the step does nothing to the backend, or it makes one action on it. -/
theorem step_back (defs : List Runner) (now : Time) (s : Sys) (a : SAct) :
    ((s.step defs now a).1.back = none ∧ (s.step defs now a).2.conc = s.conc) ∨
    ∃ b, (s.step defs now a).1.back = some (s.conc.step now b).1 ∧
      (s.step defs now a).2.conc = (s.conc.step now b).2 := by
  have := step_sstep defs now s a
  generalize (s.step defs now a).1 = ev at *
  generalize (s.step defs now a).2 = s' at *
  cases this with
  | client a => exact Or.inr ⟨a, rfl, rfl⟩
  | idle => exact Or.inl ⟨rfl, rfl⟩
  | empty r d rs hd hr hp hl hev => exact Or.inr ⟨_, by rw [hev]; rfl, rfl⟩
  | started r d rs j t hd hr hp hl hev => exact Or.inr ⟨_, by rw [hev]; rfl, rfl⟩
  | undecodable r d rs j hd hr hp hl hev => exact Or.inr ⟨_, by rw [hev]; rfl, rfl⟩
  | panicked r d rs j hd hr hp hl hev => exact Or.inr ⟨_, by rw [hev]; rfl, rfl⟩
  | ended => exact Or.inl ⟨rfl, rfl⟩
  | overflowed => exact Or.inl ⟨rfl, rfl⟩
  | reported r i rs t o hr hf => exact Or.inr ⟨_, rfl, rfl⟩
  | shutdown => exact Or.inl ⟨rfl, rfl⟩

theorem backHistory_append (a b : List TSEv) : backHistory (a ++ b) = backHistory a ++ backHistory b := by
  simp [backHistory]

/-- The backend part of a history of the system is a history of the backend. -/
theorem sys_back (defs : List Runner) (s : Sys) (as : List TSAct) :
    ∃ bs : List TAct, backHistory (s.trace defs as) = s.conc.trace bs ∧
      (s.run defs as).conc = s.conc.run bs := by
  induction as generalizing s with
  | nil => exact ⟨[], rfl, rfl⟩
  | cons a as ih =>
    obtain ⟨bs, h1, h2⟩ := ih (s.step defs a.now a.act).2
    rcases step_back defs a.now s a.act with ⟨h3, h4⟩ | ⟨b, h3, h4⟩
    · refine ⟨bs, ?_, ?_⟩
      · simp only [Sys.trace, backHistory, List.filterMap_cons, h3, Option.map_none]
        rw [h4] at h1; exact h1
      · simp only [Sys.run]; rw [h2, h4]
    · refine ⟨{ now := a.now, act := b } :: bs, ?_, ?_⟩
      · simp only [Sys.trace, backHistory, List.filterMap_cons, h3, Option.map_some, Conc.trace]
        rw [h4] at h1; rw [← h1]; rfl
      · simp only [Sys.run, Conc.run]; rw [h2, h4]

theorem Sys.run_append (defs : List Runner) (s : Sys) (as bs : List TSAct) :
    s.run defs (as ++ bs) = (s.run defs as).run defs bs := by
  induction as generalizing s with
  | nil => rfl
  | cons a as ih => exact ih _

theorem Sys.trace_append (defs : List Runner) (s : Sys) (as bs : List TSAct) :
    s.trace defs (as ++ bs) = s.trace defs as ++ (s.run defs as).trace defs bs := by
  induction as generalizing s with
  | nil => rfl
  | cons a as ih => simp only [List.cons_append, Sys.trace, ih]; rfl

theorem Sys.trace_split {defs : List Runner} {s : Sys} {as : List TSAct} {pre post : List TSEv}
    (h : s.trace defs as = pre ++ post) :
    ∃ as₁ as₂, as = as₁ ++ as₂ ∧ s.trace defs as₁ = pre ∧ (s.run defs as₁).trace defs as₂ = post := by
  induction pre generalizing s as with
  | nil => exact ⟨[], as, rfl, rfl, h⟩
  | cons e pre ih =>
    cases as with
    | nil => simp [Sys.trace] at h
    | cons a as =>
      simp only [Sys.trace, List.cons_append, List.cons.injEq] at h
      obtain ⟨as₁, as₂, rfl, h1, h2⟩ := ih h.2
      exact ⟨a :: as₁, as₂, rfl, by simp only [Sys.trace, h.1, h1], h2⟩

theorem Sys.trace_cons {defs : List Runner} {s : Sys} {as : List TSAct} {e : TSEv} {post : List TSEv}
    (h : s.trace defs as = e :: post) :
    ∃ a as₂, as = a :: as₂ ∧ e = { now := a.now, ev := (s.step defs a.now a.act).1 } ∧
      (s.step defs a.now a.act).2.trace defs as₂ = post := by
  cases as with
  | nil => simp [Sys.trace] at h
  | cons a as =>
    simp only [Sys.trace, List.cons.injEq] at h
    exact ⟨a, as, rfl, h.1.symm, h.2⟩

/-- Invariants of all histories of the system. -/
theorem sys_induction {defs : List Runner} {s₀ : Sys} (P : List TSEv → Sys → Prop) (h0 : P [] s₀)
    (hstep : ∀ h s now a ev s', P h s → SStep defs now s a ev s' → P (h ++ [{ now := now, ev := ev }]) s')
    (as : List TSAct) : P (s₀.trace defs as) (s₀.run defs as) := by
  refine snocInduction (P := fun as => P (s₀.trace defs as) (s₀.run defs as)) h0 ?_ as
  intro as a ih
  rw [Sys.trace_append, Sys.run_append]
  exact hstep _ _ _ _ _ _ ih (step_sstep defs a.now _ a.act)

theorem histOk_sys (defs : List Runner) (p : Bool) (as : List TSAct)
    (hb : idsTaken (backHistory ((Sys.init defs p).trace defs as)) ≤ 4294967296) :
    HistOk (backHistory ((Sys.init defs p).trace defs as)) ((Sys.init defs p).run defs as).conc := by
  obtain ⟨bs, h1, h2⟩ := sys_back defs (Sys.init defs p) as
  rw [h1] at hb ⊢
  rw [h2]
  exact histOk_run p bs hb

end Rexecutor
