import Verif.Props.PgRecords
import Verif.Props.Dispatch
import Verif.Lemmas.PgSys
import Verif.Lemmas.System
import Verif.Props.PgLifecycle
import Verif.Props.Outcome

/-!
# C120: clocks that are wrong

Every action has its own reading of the clock, so the readings of different nodes and of the
database may differ, and each may jump. Here they are compared with a real time that does not
run backwards.
-/

namespace Rexecutor

/-- `real i` is the real time of the `i`-th action: it does not run backwards. -/
def RealTime (real : Nat → Time) : Prop := ∀ i j, i ≤ j → real i ≤ real j

/-- The reading made in the `i`-th of these actions is at most `d` off, for all `i`. -/
def Within (d : Delta) (real : Nat → Time) (readings : List Time) : Prop :=
  ∀ (i : Nat) (t : Time), readings[i]? = some t → real i - d ≤ t ∧ t ≤ real i + d

private theorem ps_trace_length (hash : HashFn) (defs : List Runner) (s : PgSys) (as : List TPSAct) :
    (s.trace hash defs as).length = as.length := by
  induction as generalizing s with
  | nil => rfl
  | cons a as ih => simp [PgSys.trace, ih]

private theorem ps_trace_now {hash : HashFn} {defs : List Runner} {s : PgSys} {as : List TPSAct} {i : Nat} {e : TPSEv}
    (h : (s.trace hash defs as)[i]? = some e) : (as.map (·.now))[i]? = some e.now := by
  induction as generalizing s i with
  | nil => simp [PgSys.trace] at h
  | cons a as ih =>
    cases i with
    | zero => simp [PgSys.trace] at h; simp [← h]
    | succ i => simp [PgSys.trace] at h; simpa using ih h

private theorem ps_trace_step {hash : HashFn} {defs : List Runner} {s : PgSys} {as : List TPSAct} {i : Nat} {e : TPSEv}
    (h : (s.trace hash defs as)[i]? = some e) :
    ∃ s' tie a, e.ev = (PgSys.step hash defs tie e.now s' a).1 := by
  induction as generalizing s i with
  | nil => simp [PgSys.trace] at h
  | cons a as ih =>
    cases i with
    | zero => simp [PgSys.trace] at h; exact ⟨s, a.tie, a.act, by rw [← h]⟩
    | succ i => simp [PgSys.trace] at h; exact ih h

private theorem split_at {l : List α} {i : Nat} {a : α} (h : l[i]? = some a) : l = l.take i ++ a :: l.drop (i + 1) := by
  obtain ⟨hi, rfl⟩ := List.getElem?_eq_some_iff.mp h
  rw [← List.drop_eq_getElem_cons hi, List.take_append_drop]

/-- An execution ended at the reading `now` with this call. -/
private theorem ended_call {hash : HashFn} {defs : List Runner} {tie : Int → Nat} {now : Time} {s : PgSys} {a : PSAct}
    {r : Nat} {t : Task} {j : Joined} {o : Op}
    (h : PSEv.ended r t j (some o) = (PgSys.step hash defs tie now s a).1) : ∃ d : Runner, d.report now t j = some o := by
  cases a with
  | finish r' i b =>
    simp only [PgSys.step] at h
    split at h
    · split at h
      · split at h
        · cases h
        · split at h
          · rename_i hrep
            cases h
            exact ⟨_, hrep⟩
          · cases h
      · cases h
    · cases h
  | db b => simp [PgSys.step] at h
  | pull r' => simp only [PgSys.step] at h; (repeat' split at h) <;> cases h
  | take r' => simp only [PgSys.step] at h; (repeat' split at h) <;> cases h
  | report r' i => simp only [PgSys.step] at h; (repeat' split at h) <;> cases h
  | lose r' i => simp only [PgSys.step] at h; (repeat' split at h) <;> cases h
  | drop r' => simp only [PgSys.step] at h; (repeat' split at h) <;> cases h
  | stop r' => simp only [PgSys.step] at h; (repeat' split at h) <;> cases h
  | kill r' => simp only [PgSys.step] at h; (repeat' split at h) <;> cases h

/-- The call `o`, made after an execution that ended like `j`, puts the job off by `D`. -/
def PutsOff (t : Task) (j : Joined) (o : Op) (D : Delta) : Prop :=
  (∃ next err, o = .retryable t.id next err ∧ D = t.delay) ∨ (∃ next, o = .snoozed t.id next ∧ j = .result (.snooze D))

private theorem report_next {d : Runner} {now : Time} {t : Task} {j : Joined} {o : Op} {D : Delta}
    (h : d.report now t j = some o) (hp : PutsOff t j o D) :
    (∃ err, o = .retryable t.id (now + D) err) ∨ o = .snoozed t.id (now + D) := by
  have he : ∀ {e : ExecError}, t.handleError now e = some o → (∃ next err, o = .retryable t.id next err) →
      ∃ err, o = .retryable t.id (now + t.delay) err := by
    intro e h ⟨next, err, ho⟩
    simp only [Task.handleError] at h
    split at h
    · rw [ho] at h; cases h
    · simp only [addTime] at h
      split at h
      · simp only [Option.map_some, Option.some.injEq] at h
        exact ⟨e, h.symm⟩
      · cases h
  rcases hp with ⟨next, err, ho, rfl⟩ | ⟨next, ho, rfl⟩
  · left
    unfold Runner.report at h
    split at h
    · rw [ho] at h; cases h
    · rw [ho] at h; cases h
    · simp only [addTime] at h
      split at h
      · rw [ho] at h; cases h
      · cases h
    all_goals exact he h ⟨_, _, ho⟩
  · right
    simp only [Runner.report, addTime] at h
    split at h
    · simp only [Option.map_some, Option.some.injEq] at h; exact h.symm
    · cases h

private theorem pgTime_near (t : Time) : t - 1000 < pgTime t ∧ pgTime t < t + 1000 := by
  have h1 := Int.tmod_lt_of_pos (t - epoch2000) (show (0 : Int) < 1000 by decide)
  have h2 := Int.lt_tmod_of_pos (t - epoch2000) (show (0 : Int) < 1000 by decide)
  simp only [pgTime, Time] at *
  omega

private theorem db_mem {h : List TPSEv} {e : TPgEv} (he : e ∈ dbHistory h) : ∃ e' ∈ h, e'.now = e.now := by
  simp only [dbHistory, List.mem_filterMap] at he
  obtain ⟨e', h1, h2⟩ := he
  cases hb : e'.ev.back with
  | none => simp [hb] at h2
  | some b => simp [hb] at h2; exact ⟨e', h1, by rw [← h2]⟩

/-- An event among the first `n` is earlier in real time. -/
private theorem reading_before {hash : HashFn} {defs : List Runner} {as : List TPSAct} {real : Nat → Time} {d : Delta}
    {s : PgSys} {n : Nat} {e : TPSEv} (hreal : RealTime real) (hclock : Within d real (as.map (·.now)))
    (he : e ∈ (s.trace hash defs as).take n) : e.now ≤ real n + d := by
  obtain ⟨k, hk⟩ := List.getElem?_of_mem he
  have hkn : k < n := by
    have := (List.getElem?_eq_some_iff.mp hk).1
    simp at this
    omega
  rw [List.getElem?_take_of_lt hkn] at hk
  have h1 := (hclock k e.now (ps_trace_now hk)).2
  have h2 := hreal k n (by omega)
  simp only [Time, Delta] at *
  omega

/-- **C120, Postgres.** Suppose no clock is off by more than `d`. A job is not handed out more
than `100 ms + d` (and a microsecond) before the time it is scheduled for. -/
theorem C120_due_on_postgres (hash : HashFn) (defs : List Runner) (as : List TPSAct) (real : Nat → Time) (d : Delta)
    (hreal : RealTime real) (hclock : Within d real (as.map (·.now)))
    (i : Nat) (now : Time) (row : Row) (res : Res)
    (h : ((PgSys.init defs).trace hash defs as)[i]? = some ⟨now, .db (.handedOut row res)⟩) :
    row.scheduledAt - d - 100001000 < real i := by
  obtain ⟨bs, -, hbs⟩ := psys_schedule hash defs as
  have hsp := congrArg dbHistory (split_at h)
  rw [dbHistory_append, ← List.singleton_append, dbHistory_append, hbs] at hsp
  obtain ⟨e, he, hlt⟩ := handed_out_due_at hash bs _ _ ⟨now, .handedOut row res⟩ row res hsp rfl
  obtain ⟨e', he', hn⟩ := db_mem he
  have h1 := reading_before hreal hclock he'
  have h2 := (pgTime_near e.now).2
  simp only [Time, Delta] at *
  omega

/-- **C120, Postgres, retries and snoozes.** Suppose no clock is off by more than `d`. An
execution ends at the `i`-th moment and puts its job off by `D`, which is recorded at the
`j`-th moment. If nobody else puts the job back or edits it, it is not handed out before
`D - 100 ms - 2 d` (and two microseconds) have passed since the end of the execution. -/
theorem C120_on_postgres (hash : HashFn) (defs : List Runner) (as : List TPSAct) (real : Nat → Time) (d : Delta)
    (hreal : RealTime real) (hclock : Within d real (as.map (·.now)))
    (i j k : Nat) (hjk : j < k) (t₁ t₂ t₃ : Time) (r : Nat) (t : Task) (jn : Joined) (o : Op) (D : Delta) (ev : PSEv)
    (h₁ : ((PgSys.init defs).trace hash defs as)[i]? = some ⟨t₁, .ended r t jn (some o)⟩) (hD : PutsOff t jn o D)
    (h₂ : ((PgSys.init defs).trace hash defs as)[j]? = some ⟨t₂, .reported r t (.stmt o .unit)⟩)
    (hmid : ∀ m e b, j < m → m < k → ((PgSys.init defs).trace hash defs as)[m]? = some e → e.ev.back = some b →
      b.putsBack t.id = false ∧ b.edits t.id = false)
    (h₃ : ((PgSys.init defs).trace hash defs as)[k]? = some ⟨t₃, ev⟩) (hout : ∃ row res, ev = .db (.handedOut row res) ∧ row.id = t.id) :
    real i + D - 2 * d - 100002000 < real k := by
  obtain ⟨row, res, rfl, hid⟩ := hout
  obtain ⟨bs, -, hbs⟩ := psys_schedule hash defs as
  obtain ⟨s', tie, a, hstep⟩ := ps_trace_step h₁
  obtain ⟨dd, hrep⟩ := ended_call hstep
  have hnext := report_next hrep hD
  simp only at hnext
  have hdel : (PgEv.stmt o .unit).delays t.id (t₁ + D) := by
    rcases hnext with ⟨err, rfl⟩ | rfl <;> exact ⟨rfl, rfl⟩
  generalize htr : (PgSys.init defs).trace hash defs as = tr at *
  have hk := split_at h₃
  have hj : (tr.take k)[j]? = some ⟨t₂, .reported r t (.stmt o .unit)⟩ := by
    rw [List.getElem?_take_of_lt hjk]; exact h₂
  have hj' := split_at hj
  have hsp : PgConc.history hash {} bs = dbHistory ((tr.take k).take j) ++ ⟨t₂, .stmt o .unit⟩ ::
      (dbHistory ((tr.take k).drop (j + 1)) ++ ⟨t₃, .handedOut row res⟩ :: dbHistory (tr.drop (k + 1))) := by
    have e1 := congrArg dbHistory hk
    have e2 := congrArg dbHistory hj'
    rw [dbHistory_append, ← List.singleton_append, dbHistory_append] at e1 e2
    rw [hbs, e2] at e1
    rw [e1]
    simp [dbHistory, PSEv.back]
  suffices hquiet : ∀ e ∈ dbHistory ((tr.take k).drop (j + 1)), e.ev.putsBack t.id = false ∧ e.ev.edits t.id = false by
    obtain ⟨e, he, hlt⟩ := not_early_at hash bs t.id (t₁ + D) _ _ _ _ _ hsp hdel hquiet (by simp [PgEv.handsOut, hid])
    have hmem : e ∈ dbHistory (tr.take k) := by
      rw [hj', dbHistory_append, ← List.singleton_append, dbHistory_append]
      simpa [dbHistory, PSEv.back] using he
    obtain ⟨e', he', hn⟩ := db_mem hmem
    rw [← htr] at he' h₁
    have g1 := reading_before hreal hclock he'
    have g2 := (pgTime_near e.now).2
    have g3 := (pgTime_near (t₁ + D)).1
    have g4 := (hclock i t₁ (ps_trace_now h₁)).1
    simp only [Time, Delta] at *
    omega
  · intro e he
    simp only [dbHistory, List.mem_filterMap] at he
    obtain ⟨e', g1, g2⟩ := he
    obtain ⟨m, hm⟩ := List.getElem?_of_mem g1
    rw [List.getElem?_drop] at hm
    have hlt : j + 1 + m < k := by
      have := (List.getElem?_eq_some_iff.mp hm).1
      simp at this
      omega
    rw [List.getElem?_take_of_lt hlt] at hm
    cases hb : e'.ev.back with
    | none => simp [hb] at g2
    | some b =>
      simp [hb] at g2
      have := hmid (j + 1 + m) e' b (by omega) hlt hm hb
      rw [← g2]
      exact this

/-! ## In memory -/

private theorem s_trace_now {defs : List Runner} {s : Sys} {as : List TSAct} {i : Nat} {e : TSEv}
    (h : (s.trace defs as)[i]? = some e) : (as.map (·.now))[i]? = some e.now := by
  induction as generalizing s i with
  | nil => simp [Sys.trace] at h
  | cons a as ih =>
    cases i with
    | zero => simp [Sys.trace] at h; simp [← h]
    | succ i => simp [Sys.trace] at h; simpa using ih h

private theorem s_trace_step {defs : List Runner} {s : Sys} {as : List TSAct} {i : Nat} {e : TSEv}
    (h : (s.trace defs as)[i]? = some e) : ∃ s' a, e.ev = (Sys.step defs e.now s' a).1 := by
  induction as generalizing s i with
  | nil => simp [Sys.trace] at h
  | cons a as ih =>
    cases i with
    | zero => simp [Sys.trace] at h; exact ⟨s, a.act, by rw [← h]⟩
    | succ i => simp [Sys.trace] at h; exact ih h

private theorem s_ended_call {defs : List Runner} {now : Time} {s : Sys} {a : SAct} {r : Nat} {t : Task} {j : Joined} {o : Op}
    (h : SEv.ended r t j (some o) = (Sys.step defs now s a).1) : ∃ d : Runner, d.report now t j = some o := by
  have hs := step_sstep defs now s a
  generalize (s.step defs now a).2 = s' at hs
  rw [← h] at hs
  generalize he : SEv.ended r t j (some o) = ev at hs
  cases hs <;> cases he
  exact ⟨_, ‹_›⟩

/-- **C120, in memory.** Suppose the clock is never off by more than `d`. A job is not handed
out more than `100 ms + d` before the time it is scheduled for. -/
theorem C120_due_in_memory (defs : List Runner) (paused : Bool) (as : List TSAct) (real : Nat → Time) (d : Delta)
    (hclock : Within d real (as.map (·.now)))
    (i : Nat) (e : TSEv) (x : String) (j : Job)
    (h : ((Sys.init defs paused).trace defs as)[i]? = some e) (he : e.ev.back = some (.op (.load x) (.job (some j)))) :
    j.scheduledAt - d - 100000000 < real i := by
  obtain ⟨s', a, hstep⟩ := s_trace_step h
  have hc := (hclock i e.now (s_trace_now h)).2
  rcases step_back defs e.now s' a with ⟨hb, -⟩ | ⟨b, hb, -⟩
  · rw [← hstep, he] at hb; cases hb
  · rw [← hstep, he, Option.some.injEq] at hb
    obtain ⟨-, l, k, r, g1, g2, -, -, g5, -⟩ := handout_cases hb.symm
    rw [readyFor_iff] at g2
    rw [g5]
    simp only [Job.markExecuting, ms, Time, Delta] at *
    omega

/-- **C120, in memory, retries and snoozes.** Suppose the clock is never off by more than `d`.
An execution ends at the `i`-th moment and puts its job off by `D`, which is recorded at the
`j`-th moment. If nobody else puts the job back, it is not handed out before
`D - 100 ms - 2 d` have passed since the end of the execution. -/
theorem C120_in_memory (defs : List Runner) (paused : Bool) (as : List TSAct) (real : Nat → Time) (d : Delta)
    (hclock : Within d real (as.map (·.now)))
    (hids : idsTaken (backHistory ((Sys.init defs paused).trace defs as)) ≤ 2 ^ 32)
    (i j k : Nat) (hjk : j < k) (t₁ t₂ t₃ : Time) (r : Nat) (t : Task) (jn : Joined) (o : Op) (D : Delta) (s : SEv) (ev : Ev)
    (h₁ : ((Sys.init defs paused).trace defs as)[i]? = some ⟨t₁, .ended r t jn (some o)⟩) (hD : PutsOff t jn o D)
    (h₂ : ((Sys.init defs paused).trace defs as)[j]? = some ⟨t₂, .reported r t (.op o .unit)⟩)
    (hmid : ∀ m e b, j < m → m < k → ((Sys.init defs paused).trace defs as)[m]? = some e → e.ev.back = some b →
      b.putsBack t.id = false)
    (h₃ : ((Sys.init defs paused).trace defs as)[k]? = some ⟨t₃, s⟩) (hs : s.back = some ev) (hout : ev.handsOut t.id = true) :
    real i + D - 2 * d - 100000000 < real k := by
  obtain ⟨bs, hbs, -⟩ := sys_back defs (Sys.init defs paused) as
  obtain ⟨s', a, hstep⟩ := s_trace_step h₁
  obtain ⟨dd, hrep⟩ := s_ended_call hstep
  have hnext := report_next hrep hD
  simp only at hnext
  have hdel : (Ev.op o .unit).delays t.id (t₁ + D) := by
    rcases hnext with ⟨err, rfl⟩ | rfl <;> exact ⟨rfl, rfl⟩
  have hc₁ := (hclock i t₁ (s_trace_now h₁)).1
  have hc₃ := (hclock k t₃ (s_trace_now h₃)).2
  generalize htr : (Sys.init defs paused).trace defs as = tr at *
  have hk := split_at h₃
  have hj : (tr.take k)[j]? = some ⟨t₂, .reported r t (.op o .unit)⟩ := by
    rw [List.getElem?_take_of_lt hjk]; exact h₂
  have hj' := split_at hj
  have hsp : (fresh paused).trace bs = backHistory ((tr.take k).take j) ++ ⟨t₂, .op o .unit⟩ ::
      backHistory ((tr.take k).drop (j + 1)) ++ ⟨t₃, ev⟩ :: backHistory (tr.drop (k + 1)) := by
    have e1 := congrArg backHistory hk
    have e2 := congrArg backHistory hj'
    rw [backHistory_append, ← List.singleton_append, backHistory_append] at e1 e2
    rw [hbs, e2] at e1
    show (Sys.init defs paused).conc.trace bs = _
    have e3 : backHistory [⟨t₃, s⟩] = [⟨t₃, ev⟩] := by simp [backHistory, hs]
    have e4 : backHistory [⟨t₂, .reported r t (.op o .unit)⟩] = [⟨t₂, .op o .unit⟩] := rfl
    rw [e1, e3, e4]
    simp
  have := C12_not_early paused bs t.id (t₁ + D) (by rw [hbs] at hids; exact hids) _ _ _ _ _ hsp hdel ?_ hout
  · simp only [Time, Delta] at *
    omega
  · intro e he
    simp only [backHistory, List.mem_filterMap] at he
    obtain ⟨e', g1, g2⟩ := he
    obtain ⟨m, hm⟩ := List.getElem?_of_mem g1
    rw [List.getElem?_drop] at hm
    have hlt : j + 1 + m < k := by
      have := (List.getElem?_eq_some_iff.mp hm).1
      simp at this
      omega
    rw [List.getElem?_take_of_lt hlt] at hm
    cases hb : e'.ev.back with
    | none => simp [hb] at g2
    | some b =>
      simp [hb] at g2
      have := hmid (j + 1 + m) e' b (by omega) hlt hm hb
      rw [← g2]
      exact this

/-! ## An example -/

/-- The clock of the runner is a second late, that of the database a second early. -/
def skewedSchedule : List TPSAct :=
  [psAct 5000 (.db (.plain sampleEnq))] ++ psPull 6000 0 0 ++
  [psAct (99 * sec) (.finish 0 0 { ending := .returns (.error "oops" "it broke") }), psAct (99 * sec) (.report 0 0)] ++
  psPull 108900001000 0 1

/-- The real times. -/
def skewedReal (i : Nat) : Time :=
  if i = 0 then 5000 else if i < 6 then 6000 else if i < 8 then 100 * sec else 107900001000

private def quietFor (e : TPSEv) : Bool :=
  match e.ev.back with
  | some b => !b.putsBack 1 && !b.edits 1
  | none => true

private theorem quietFor_spec {e : TPSEv} (h : quietFor e = true) {b : PgEv} (hb : e.ev.back = some b) :
    b.putsBack 1 = false ∧ b.edits 1 = false := by
  simpa [quietFor, hb] using h

set_option maxRecDepth 8000 in
/-- A retry after 10 s is handed out after 7.900001 s. -/
example : skewedReal 6 + 10 * sec - 2 * sec - 100002000 < skewedReal 11 ∧ skewedReal 11 - skewedReal 6 = 7900001000 := by
  refine ⟨C120_on_postgres sampleHash [sampleRunner] skewedSchedule skewedReal sec ?_ ?_ 6 7 11 (by decide)
    (99 * sec) (99 * sec) 108900001000 0 { id := 1, isFinal := false, delay := 10 * sec, timeout := none }
    (.result (.error "oops" "it broke")) (.retryable 1 (109 * sec) { errorType := .other "oops", message := "it broke" })
    (10 * sec) _ rfl (.inl ⟨_, _, rfl, rfl⟩) rfl ?_ rfl ⟨_, _, rfl, rfl⟩, by decide⟩
  · intro i j hij
    simp only [skewedReal, sec, Time] at *
    split <;> (try split) <;> (try split) <;> (try split) <;> (try split) <;> (try split) <;> omega
  · intro i t h
    have hi : i < 13 := (List.getElem?_eq_some_iff.mp h).1
    have key : ∀ i, i < 13 → ∀ t ∈ ((skewedSchedule.map (·.now))[i]?).toList, skewedReal i - sec ≤ t ∧ t ≤ skewedReal i + sec := by
      decide
    exact key i hi t (by simp [h])
  · intro m e b h1 h2 h3 hb
    have key : ∀ m, m < 11 → 7 < m →
        ∀ e ∈ (((PgSys.init [sampleRunner]).trace sampleHash [sampleRunner] skewedSchedule)[m]?).toList, quietFor e = true := by
      decide +kernel
    exact quietFor_spec (key m h2 h1 e (by simp [h3])) hb

/-- The clock is a second late when the execution ends, and a second early when the job is
looked for again. -/
def skewedMemory : List TSAct :=
  (enqSteps 0 0 sampleEnq).map (fun a => ⟨a.now, .client a.act⟩) ++
  [⟨1, .pull 0⟩, ⟨2, .finish 0 0 { ending := .returns (.error "oops" "it broke") }⟩, ⟨2, .report 0 0⟩,
   ⟨9900000003, .pull 0⟩]

/-- The real times. -/
def skewedMemoryReal (i : Nat) : Time := if i < 5 then 0 else if i < 7 then 1000000002 else 8900000003

private def putsOffMem (t : Task) (j : Joined) (i : Nat) (next : Time) (err : ExecError) : Option TSEv → Bool
  | some ⟨now, .ended 0 t' j' (some (.retryable i' next' err'))⟩ =>
    decide (now = 2 ∧ t' = t ∧ j' = j ∧ i' = i ∧ next' = next ∧ err' = err)
  | _ => false

private theorem putsOffMem_spec {t : Task} {j : Joined} {i : Nat} {next : Time} {err : ExecError} {e : Option TSEv}
    (h : putsOffMem t j i next err e = true) : e = some ⟨2, .ended 0 t j (some (.retryable i next err))⟩ := by
  unfold putsOffMem at h
  split at h
  · simp only [decide_eq_true_eq] at h
    obtain ⟨rfl, rfl, rfl, rfl, rfl, rfl⟩ := h
    rfl
  · cases h

private def recordsMem (t : Task) (i : Nat) (next : Time) (err : ExecError) : Option TSEv → Bool
  | some ⟨now, .reported 0 t' (.op (.retryable i' next' err') .unit)⟩ =>
    decide (now = 2 ∧ t' = t ∧ i' = i ∧ next' = next ∧ err' = err)
  | _ => false

private theorem recordsMem_spec {t : Task} {i : Nat} {next : Time} {err : ExecError} {e : Option TSEv}
    (h : recordsMem t i next err e = true) : e = some ⟨2, .reported 0 t (.op (.retryable i next err) .unit)⟩ := by
  unfold recordsMem at h
  split at h
  · simp only [decide_eq_true_eq] at h
    obtain ⟨rfl, rfl, rfl, rfl, rfl⟩ := h
    rfl
  · cases h

private def handsOutMem : Option TSEv → Bool
  | some ⟨now, e⟩ => decide (now = 9900000003) && match e.back with | some b => b.handsOut 0 | none => false
  | none => false

private theorem handsOutMem_spec {e : Option TSEv} (h : handsOutMem e = true) :
    ∃ s b, e = some ⟨9900000003, s⟩ ∧ s.back = some b ∧ b.handsOut 0 = true := by
  cases e with
  | none => cases h
  | some e =>
    obtain ⟨now, s⟩ := e
    simp only [handsOutMem, Bool.and_eq_true, decide_eq_true_eq] at h
    obtain ⟨rfl, h⟩ := h
    cases hb : s.back with
    | none => simp [hb] at h
    | some b => exact ⟨s, b, rfl, hb, by simpa [hb] using h⟩

/-- The bound is attained: a nanosecond less would be too early. -/
example : skewedMemoryReal 5 + 10 * sec - 2 * sec - 100000000 < skewedMemoryReal 7 ∧
    skewedMemoryReal 5 + 10 * sec - 2 * sec - 100000000 = skewedMemoryReal 7 - 1 := by
  obtain ⟨s, b, h₃, hs, hb⟩ := handsOutMem_spec
    (e := ((Sys.init [sampleRunner] false).trace [sampleRunner] skewedMemory)[7]?) (by decide +kernel)
  refine ⟨C120_in_memory [sampleRunner] false skewedMemory skewedMemoryReal sec ?_ (by decide +kernel) 5 6 7 (by decide)
    2 2 9900000003 0 { id := 0, isFinal := false, delay := 10 * sec, timeout := none }
    (.result (.error "oops" "it broke")) (.retryable 0 10000000002 { errorType := .other "oops", message := "it broke" })
    (10 * sec) s b (putsOffMem_spec (by decide +kernel)) (.inl ⟨_, _, rfl, rfl⟩) (recordsMem_spec (by decide +kernel)) ?_
    h₃ hs hb, by decide⟩
  · intro i t h
    have hi : i < 8 := (List.getElem?_eq_some_iff.mp h).1
    have key : ∀ i, i < 8 → ∀ t ∈ ((skewedMemory.map (·.now))[i]?).toList,
        skewedMemoryReal i - sec ≤ t ∧ t ≤ skewedMemoryReal i + sec := by decide
    exact key i hi t (by simp [h])
  · intro m e b h1 h2
    omega

private def loadsMem : Option TSEv → Bool
  | some e => match e.ev.back with | some (.op (.load _) (.job (some j))) => decide (j.scheduledAt = 8 * sec) | _ => false
  | none => false

private theorem loadsMem_spec {e : Option TSEv} (h : loadsMem e = true) :
    ∃ e' x j, e = some e' ∧ e'.ev.back = some (.op (.load x) (.job (some j))) ∧ j.scheduledAt = 8 * sec := by
  cases e with
  | none => cases h
  | some e =>
    simp only [loadsMem] at h
    split at h
    · exact ⟨e, _, _, rfl, ‹_›, by simpa using h⟩
    · cases h

/-- A job for 8 s, looked for when the clock says 7.900000001 s and it is 6.900000001 s. -/
def skewedDue : List TSAct :=
  (enqSteps 0 0 { sampleEnq with scheduledAt := 8 * sec }).map (fun a => ⟨a.now, .client a.act⟩) ++ [⟨7900000001, .pull 0⟩]

/-- The bound is attained. -/
example : ∃ j : Job, j.scheduledAt = 8 * sec ∧ j.scheduledAt - sec - 100000000 < 6900000001 := by
  obtain ⟨e, x, j, h, hb, hj⟩ := loadsMem_spec
    (e := ((Sys.init [sampleRunner] false).trace [sampleRunner] skewedDue)[4]?) (by decide +kernel)
  refine ⟨j, hj, C120_due_in_memory [sampleRunner] false skewedDue (fun i => if i < 4 then 0 else 6900000001) sec ?_ 4 e x j h hb⟩
  intro i t h
  have hi : i < 5 := (List.getElem?_eq_some_iff.mp h).1
  have key : ∀ i, i < 5 → ∀ t ∈ ((skewedDue.map (·.now))[i]?).toList,
      (if i < 4 then 0 else 6900000001) - sec ≤ t ∧ t ≤ (if i < 4 then 0 else 6900000001) + sec := by decide
  exact key i hi t (by simp [h])

/-- A job for 8 s on Postgres. -/
def skewedPgDue : List TPSAct :=
  [psAct 5000 (.db (.plain { sampleEnq with scheduledAt := 8 * sec }))] ++ psPull 7900001000 0 0

private def handsOutAt8 : Option TPSEv → Bool
  | some ⟨_, .db (.handedOut row _)⟩ => decide (row.scheduledAt = 8 * sec)
  | _ => false

private theorem handsOutAt8_spec {e : Option TPSEv} (h : handsOutAt8 e = true) :
    ∃ now row res, e = some ⟨now, .db (.handedOut row res)⟩ ∧ row.scheduledAt = 8 * sec := by
  unfold handsOutAt8 at h
  split at h
  · exact ⟨_, _, _, rfl, by simpa using h⟩
  · cases h

/-- Handed out 1.099999 s early. -/
example : ∃ row : Row, row.scheduledAt = 8 * sec ∧ row.scheduledAt - sec - 100001000 < 6900001000 := by
  obtain ⟨now, row, res, h, hrow⟩ := handsOutAt8_spec
    (e := ((PgSys.init [sampleRunner]).trace sampleHash [sampleRunner] skewedPgDue)[4]?) (by decide +kernel)
  refine ⟨row, hrow, C120_due_on_postgres sampleHash [sampleRunner] skewedPgDue (fun i => if i < 1 then 0 else 6900001000) sec
    ?_ ?_ 4 now row res h⟩
  · intro i j hij
    simp only [Time]
    split <;> split <;> omega
  · intro i t h
    have hi : i < 6 := (List.getElem?_eq_some_iff.mp h).1
    have key : ∀ i, i < 6 → ∀ t ∈ ((skewedPgDue.map (·.now))[i]?).toList,
        (if i < 1 then 0 else 6900001000) - sec ≤ t ∧ t ≤ (if i < 1 then 0 else 6900001000) + sec := by decide
    exact key i hi t (by simp [h])

end Rexecutor
