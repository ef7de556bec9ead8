import Verif.Model.PgText
import Verif.Props.PgLifecycle

/-!
# C95: recording how an execution ended, whatever its text

Fails on Postgres for a text with U+0000.
-/

namespace Rexecutor

/-! ## Specification -/

/-- What an execution ended with has the character U+0000 in a text that is recorded:
the reason of a cancellation, the type or message of an error, the message of a panic. -/
def Joined.hasNul (d : Runner) : Joined → Bool
  | .result (.cancel reason) => nul reason
  | .result (.error type message) => nul type || nul message
  | .elapsed limit => nul ("Job failed to complete within timeout: " ++ d.showDuration limit)
  | .joinError (some payload) _ => nul payload
  | .joinError none message => nul message
  | _ => false

/-- An execution of runner `r`, its `i`-th, has ended and is about to make call `o`. -/
def PgSys.aboutTo (s : PgSys) (r i : Nat) (t : Task) (o : Op) : Prop :=
  ∃ rs, s.runners[r]? = some rs ∧ rs.flights[i]? = some (some { task := t, phase := .reporting o })

/-- The status an execution that makes this call leaves the job in, the attempts counting
those before it. -/
def Op.leaves (attempt : Int) : Op → JobStatus
  | .complete _ => .complete
  | .cancelled _ _ => .cancelled
  | .discarded _ _ => .discarded
  | .retryable _ _ _ => .retryable
  | _ => if attempt = 1 then .scheduled else .retryable

/-! ## Simulation -/

/-- The report is refused. -/
def PgSys.refusesReport (s : PgSys) (r i : Nat) : Bool :=
  match s.runners[r]? with
  | some rs =>
    match rs.flights[i]? with
    | some (some { task := _, phase := .reporting o }) => o.hasNul
    | _ => false
  | none => false

/-- An action without refusals that has the same effect. -/
def PgSys.textAct (s : PgSys) : PSAct → PSAct
  | .db a => if s.conc.refusesText a then .db (.abort s.conc.sessions.length) else .db a
  | .report r i => if s.refusesReport r i then .lose r i else .report r i
  | a => a

private theorem abort_none (hash : HashFn) (tie : Int → Nat) (now : Time) (c : PgConc) :
    c.step hash tie now (.abort c.sessions.length) = (.internal, c) := by
  simp [PgConc.step]

/-- Refusals are ordinary steps, except for the event of a refused statement. -/
private theorem text_step (hash : HashFn) (defs : List Runner) (tie : Int → Nat) (now : Time) (s : PgSys) (a : PSAct) :
    (s.stepText hash defs tie now a).2 = (s.step hash defs tie now (s.textAct a)).2 ∧
    ((s.stepText hash defs tie now a).1 = (s.step hash defs tie now (s.textAct a)).1 ∨
      ((s.stepText hash defs tie now a).1 = .nothing ∧ (s.step hash defs tie now (s.textAct a)).1 = .db .internal)) := by
  cases a with
  | db a =>
    simp only [PgSys.stepText, PgSys.textAct]
    split
    · simp [PgSys.step, abort_none]
    · simp
  | report r i =>
    rcases h : s.runners[r]? with - | rs
    · simp [PgSys.stepText, PgSys.textAct, PgSys.refusesReport, PgSys.step, h]
    · rcases h' : rs.flights[i]? with - | (- | ⟨t, - | o⟩)
      · simp [PgSys.stepText, PgSys.textAct, PgSys.refusesReport, PgSys.step, h, h']
      · simp [PgSys.stepText, PgSys.textAct, PgSys.refusesReport, PgSys.step, h, h']
      · simp [PgSys.stepText, PgSys.textAct, PgSys.refusesReport, PgSys.step, h, h']
      · cases hn : o.hasNul with
        | true => simp [PgSys.stepText, PgSys.textAct, PgSys.refusesReport, PgSys.step, h, h', hn]
        | false => simp [PgSys.stepText, PgSys.textAct, PgSys.refusesReport, h, h', hn]
  | _ => exact ⟨rfl, .inl rfl⟩

/-- The schedule without refusals. -/
def textSchedule (hash : HashFn) (defs : List Runner) (s : PgSys) : List TPSAct → List TPSAct
  | [] => []
  | a :: as =>
    { a with act := s.textAct a.act } :: textSchedule hash defs (s.stepText hash defs a.tie a.now a.act).2 as

private theorem text_run (hash : HashFn) (defs : List Runner) (s : PgSys) (as : List TPSAct) :
    s.runText hash defs as = s.run hash defs (textSchedule hash defs s as) := by
  induction as generalizing s with
  | nil => rfl
  | cons a as ih =>
    simp only [PgSys.runText, textSchedule, PgSys.run, ih]
    rw [(text_step hash defs a.tie a.now s a.act).1]

private theorem text_runs_append (hash : HashFn) (defs : List Runner) (s : PgSys) (as bs : List TPSAct) :
    s.runText hash defs (as ++ bs) = (s.runText hash defs as).runText hash defs bs := by
  induction as generalizing s with
  | nil => rfl
  | cons a as ih => simp only [List.cons_append, PgSys.runText, ih]

private theorem textSchedule_append (hash : HashFn) (defs : List Runner) (s : PgSys) (as bs : List TPSAct) :
    textSchedule hash defs s (as ++ bs) = textSchedule hash defs s as ++ textSchedule hash defs (s.runText hash defs as) bs := by
  induction as generalizing s with
  | nil => rfl
  | cons a as ih => simp only [List.cons_append, textSchedule, PgSys.runText, ih]

/-- Events correspond. -/
private theorem text_trace (hash : HashFn) (defs : List Runner) (s : PgSys) (as : List TPSAct) :
    (∀ e ∈ s.trace hash defs (textSchedule hash defs s as),
      e ∈ s.traceText hash defs as ∨ e.ev = .db .internal) ∧
    (∀ e ∈ s.traceText hash defs as,
      e ∈ s.trace hash defs (textSchedule hash defs s as) ∨ e.ev = .nothing) := by
  induction as generalizing s with
  | nil => simp [PgSys.trace, textSchedule, PgSys.traceText]
  | cons a as ih =>
    simp only [PgSys.traceText, textSchedule, PgSys.trace]
    obtain ⟨h1, h2⟩ := text_step hash defs a.tie a.now s a.act
    rw [← h1]
    obtain ⟨i1, i2⟩ := ih (s.stepText hash defs a.tie a.now a.act).2
    constructor
    · intro e he
      rcases List.mem_cons.mp he with rfl | he
      · rcases h2 with h2 | h2
        · exact .inl (List.mem_cons.mpr (.inl (by rw [h2])))
        · exact .inr h2.2
      · exact (i1 e he).imp (List.mem_cons_of_mem _) id
    · intro e he
      rcases List.mem_cons.mp he with rfl | he
      · rcases h2 with h2 | h2
        · exact .inl (List.mem_cons.mpr (.inl (by rw [h2])))
        · exact .inr h2.1
      · exact (i2 e he).imp (List.mem_cons_of_mem _) id

private theorem text_leave {hash : HashFn} {defs : List Runner} {s : PgSys} {as : List TPSAct} {id : Int}
    (h : OthersLeave id (s.traceText hash defs as)) : OthersLeave id (s.trace hash defs (textSchedule hash defs s as)) := by
  intro e he ev hev ht
  rcases (text_trace hash defs s as).1 e he with h1 | h1
  · exact h e h1 ev hev ht
  · rw [h1] at hev
    cases hev
    cases ht

/-- The database refuses a statement of this action. -/
def PgSys.refuses (s : PgSys) : PSAct → Bool
  | .db a => s.conc.refusesText a
  | .report r i => s.refusesReport r i
  | _ => false

/-! ## C95 -/

/-- As long as nothing is refused, everything is as if there were no such check: all
theorems about runners on Postgres hold. -/
theorem C95_otherwise_same (hash : HashFn) (defs : List Runner) (s : PgSys) (as : List TPSAct)
    (h : ∀ (n : Nat) (a : TPSAct), as[n]? = some a → (s.runText hash defs (as.take n)).refuses a.act = false) :
    s.runText hash defs as = s.run hash defs as ∧ s.traceText hash defs as = s.trace hash defs as := by
  induction as generalizing s with
  | nil => exact ⟨rfl, rfl⟩
  | cons a as ih =>
    have h0 := h 0 a rfl
    have hstep : s.stepText hash defs a.tie a.now a.act = s.step hash defs a.tie a.now a.act := by
      simp only [List.take_zero, PgSys.runText] at h0
      generalize a.act = act at h0 ⊢
      cases act with
      | db b =>
        simp only [PgSys.refuses] at h0
        simp [PgSys.stepText, h0]
      | report r i =>
        simp only [PgSys.refuses] at h0
        rcases h : s.runners[r]? with - | rs
        · simp [PgSys.stepText, PgSys.step, h]
        · rcases h' : rs.flights[i]? with - | (- | ⟨t, - | o⟩)
          · simp [PgSys.stepText, PgSys.step, h, h']
          · simp [PgSys.stepText, PgSys.step, h, h']
          · simp [PgSys.stepText, PgSys.step, h, h']
          · simp only [PgSys.refusesReport, h, h'] at h0
            simp [PgSys.stepText, h, h', h0]
      | _ => rfl
    have := ih (s.stepText hash defs a.tie a.now a.act).2 fun n b hb => by
      have := h (n + 1) b hb
      simpa only [List.take_succ_cons, PgSys.runText] using this
    simp only [PgSys.runText, PgSys.traceText, PgSys.run, PgSys.trace]
    rw [this.1, this.2, hstep]
    exact ⟨rfl, rfl⟩

/-- The history of two failures meets the hypothesis. -/
example : ∀ n < pgTwoFailures.length, ∀ a, pgTwoFailures[n]? = some a →
    ((PgSys.init [sampleRunner, sampleRunner]).runText sampleHash [sampleRunner, sampleRunner]
      (pgTwoFailures.take n)).refuses a.act = false := by
  have h : (List.range pgTwoFailures.length).all (fun n => match pgTwoFailures[n]? with
      | some a => !((PgSys.init [sampleRunner, sampleRunner]).runText sampleHash [sampleRunner, sampleRunner]
          (pgTwoFailures.take n)).refuses a.act
      | none => true) = true := by decide +kernel
  intro n hn a ha
  have := List.all_eq_true.mp h n (List.mem_range.mpr hn)
  rw [ha] at this
  simpa using this

/-- Which executions make a call with U+0000: exactly those that ended with one in a text
that is recorded. -/
theorem C95_which (d : Runner) (now : Time) (t : Task) (j : Joined) (o : Op) (h : d.report now t j = some o) :
    o.hasNul = j.hasNul d := by
  have key : ∀ e, t.handleError now e = some o → o.hasNul = e.hasNul := by
    intro e he
    unfold Task.handleError at he
    split at he
    · cases he; rfl
    · simp only [Option.map_eq_some_iff] at he
      obtain ⟨x, -, rfl⟩ := he
      rfl
  unfold Runner.report at h
  split at h
  · cases h; rfl
  · cases h
    simp [Op.hasNul, ExecError.hasNul, ErrorType.toText, Joined.hasNul, show nul "cancelled" = false by decide +kernel]
  · simp only [Option.map_eq_some_iff] at h
    obtain ⟨x, -, rfl⟩ := h
    rfl
  · rw [key _ h]; rfl
  · rw [key _ h]
    simp [ExecError.hasNul, ErrorType.toText, Joined.hasNul, show nul "timeout" = false by decide +kernel]
  · rename_i payload message
    rw [key _ h]
    cases payload <;>
      simp [ExecError.hasNul, ErrorType.toText, Joined.hasNul, joinError, show nul "panic" = false by decide +kernel]

example : sampleRunner.report 0 ⟨1, true, 0, none⟩ (.result (.error "io" "bad byte \x00")) =
      some (.discarded 1 { errorType := .other "io", message := "bad byte \x00" }) ∧
    (Joined.result (.error "io" "bad byte \x00")).hasNul sampleRunner = true ∧
    (Joined.result (.error "io" "gödel")).hasNul sampleRunner = false := ⟨rfl, by decide +kernel, by decide +kernel⟩

/-- An execution that fails with a message containing U+0000. -/
def nulFailure : List TPSAct :=
  [psAct 5000 (.db (.plain sampleEnq))] ++ psPull 6000 0 0 ++
  [psAct 7000 (.finish 0 0 { ending := .returns (.error "io" "bad byte \x00") }), psAct 7000 (.report 0 0)]

/-- **C95 fails.** An execution ends with an error whose message contains U+0000. Its
outcome is not recorded: the job is stored as `Executing`, without an error, though no
runner has it. No process ended, no connection failed, nobody else did anything. -/
theorem C95_violated :
    let s := (PgSys.init [sampleRunner]).runText sampleHash [sampleRunner] nulFailure
    s.conc.pg.rows.map (fun r => (r.id, r.status, r.errors.length)) = [(1, .executing, 0)] ∧
    s.runners.map (fun rs => (rs.loading, rs.flights.map Option.isSome)) = [(none, [false])] := by
  decide +kernel

/-- A lost report leaves the job `Executing` with nobody. -/
private theorem lost_strands (hash : HashFn) (defs : List Runner) (as : List TPSAct) (tie : Int → Nat) (now : Time) (r i : Nat)
    (t : Task) (o : Op) (hf : ((PgSys.init defs).run hash defs as).aboutTo r i t o)
    (hq : OthersLeave t.id ((PgSys.init defs).trace hash defs as)) :
    (((PgSys.init defs).run hash defs as).step hash defs tie now (.lose r i)).2.conc = ((PgSys.init defs).run hash defs as).conc ∧
    ¬ (((PgSys.init defs).run hash defs as).step hash defs tie now (.lose r i)).2.hasJob t.id ∧
    (∀ row ∈ ((PgSys.init defs).run hash defs as).conc.pg.rows, row.id = t.id → row.status = .executing) := by
  obtain ⟨rs, hrs, hfl⟩ := hf
  have H := fun r' rs' hr' => C76_one_execution hash defs as t.id hq r r' rs rs' hrs hr' i _ hfl rfl
  have hstep : (((PgSys.init defs).run hash defs as).step hash defs tie now (.lose r i)).2 =
      { ((PgSys.init defs).run hash defs as) with
        runners := ((PgSys.init defs).run hash defs as).runners.set r { rs with flights := rs.flights.set i none } } := by
    simp [PgSys.step, hrs, hfl]
  rw [hstep]
  refine ⟨rfl, ?_, (H r rs hrs).2.2⟩
  rintro ⟨rs', hrs', h⟩
  obtain ⟨r', hr'⟩ := List.mem_iff_getElem?.mp hrs'
  dsimp only at hr' h
  rw [List.getElem?_set] at hr'
  split at hr'
  · rename_i hrr
    split at hr'
    · cases hr'
      subst hrr
      rcases h with ⟨f, hf, hid⟩ | ⟨k, j, h1, h2, hid⟩
      · obtain ⟨i', hi'⟩ := List.mem_iff_getElem?.mp hf
        dsimp only at hi'
        rw [List.getElem?_set] at hi'
        split at hi'
        · split at hi' <;> cases hi'
        · exact absurd ((H r rs hrs).1 i' f hi' hid).2 ‹_›
      · exact (H r rs hrs).2.1 k j h1 h2 hid
    · cases hr'
  · rename_i hrr
    rcases h with ⟨f, hf, hid⟩ | ⟨k, j, h1, h2, hid⟩
    · obtain ⟨i', hi'⟩ := List.mem_iff_getElem?.mp hf
      exact hrr ((H r' rs' hr').1 i' f hi' hid).1
    · exact (H r' rs' hr').2.1 k j h1 h2 hid

/-- **C95 fails for good.** In every history in which other clients leave a job alone:
when an execution of it ended with U+0000 in its text, then reporting that changes
nothing in the database, the job is left `Executing`, no runner has it, and in every
continuation it is never executed again and its record never changes. -/
theorem C95_stranded_for_good (hash : HashFn) (defs : List Runner) (as bs : List TPSAct) (a : TPSAct) (r i : Nat) (t : Task)
    (o : Op) (ha : a.act = .report r i) (hf : ((PgSys.init defs).runText hash defs as).aboutTo r i t o) (hn : o.hasNul = true)
    (hq : OthersLeave t.id ((PgSys.init defs).traceText hash defs as))
    (hq' : OthersLeave t.id (((PgSys.init defs).runText hash defs (as ++ [a])).traceText hash defs bs))
    (row : Row) (hrow : row ∈ ((PgSys.init defs).runText hash defs as).conc.pg.rows) (hid : row.id = t.id) :
    row.status = .executing ∧ row ∈ ((PgSys.init defs).runText hash defs (as ++ [a])).conc.pg.rows ∧
    ¬ ((PgSys.init defs).runText hash defs (as ++ [a] ++ bs)).hasJob t.id ∧
    (∀ row' ∈ ((PgSys.init defs).runText hash defs (as ++ [a] ++ bs)).conc.pg.rows, row'.id = t.id → row' = row) ∧
    (∀ e ∈ ((PgSys.init defs).runText hash defs (as ++ [a])).traceText hash defs bs, e.ev.executes t.id = false) := by
  have hact : ((PgSys.init defs).runText hash defs as).textAct a.act = .lose r i := by
    obtain ⟨rs, h1, h2⟩ := hf
    rw [ha]
    simp [PgSys.textAct, PgSys.refusesReport, h1, h2, hn]
  have hsch : textSchedule hash defs (PgSys.init defs) (as ++ [a]) =
      textSchedule hash defs (PgSys.init defs) as ++ [{ a with act := .lose r i }] := by
    rw [textSchedule_append]
    simp only [textSchedule, hact]
  have hrun1 := text_run hash defs (PgSys.init defs) (as ++ [a])
  have hrun2 := text_run hash defs (PgSys.init defs) (as ++ [a] ++ bs)
  rw [textSchedule_append] at hrun2
  obtain ⟨-, h2⟩ := text_trace hash defs ((PgSys.init defs).runText hash defs (as ++ [a])) bs
  have hq'' := text_leave hq'
  have hqa := text_leave hq
  rw [text_run hash defs _ as] at hf hrow
  obtain ⟨k1, k2, k3⟩ := lost_strands hash defs (textSchedule hash defs (PgSys.init defs) as) a.tie a.now r i t o hf hqa
  have hex := k3 row hrow hid
  have hst : (PgSys.init defs).run hash defs (textSchedule hash defs (PgSys.init defs) (as ++ [a])) =
      (((PgSys.init defs).run hash defs (textSchedule hash defs (PgSys.init defs) as)).step hash defs a.tie a.now (.lose r i)).2 := by
    rw [hsch, PgSys.run_append]; rfl
  rw [hrun1] at hq'' hrun2 h2 ⊢
  have hmem : row ∈ ((PgSys.init defs).run hash defs (textSchedule hash defs (PgSys.init defs) (as ++ [a]))).conc.pg.rows := by
    rw [hst, k1]; exact hrow
  obtain ⟨g1, g2, g3⟩ := C69_stranded_for_good hash defs _ _ row hmem hex (by rw [hst, hid]; exact k2) (by rw [hid]; exact hq'')
  rw [hid] at g1 g2 g3
  rw [hrun2]
  refine ⟨hex, hmem, g2, g1, ?_⟩
  intro e he
  rcases h2 e he with h | h
  · exact g3 e h
  · rw [h]; rfl

/-- `nulFailure` meets the hypotheses, before its last action; afterwards another runner
asks for jobs, a job is enqueued, and it gets that one. -/
example :
    let ds := [sampleRunner, sampleRunner]
    let s := (PgSys.init ds).runText sampleHash ds (nulFailure.take 7)
    let s' := (PgSys.init ds).runText sampleHash ds nulFailure
    let bs := psPull (9 * sec) 1 1 ++ [psAct (10 * sec) (.db (.plain sampleEnq))] ++ psPull (11 * sec) 1 2
    s.runners.map (fun rs => rs.flights.map fun f => match f with
      | some ⟨t, .reporting o⟩ => (t.id, o.hasNul)
      | _ => (0, false)) = [[(1, true)], []] ∧
    (∀ e ∈ (PgSys.init ds).traceText sampleHash ds (nulFailure.take 7) ++ s'.traceText sampleHash ds bs, (match e.ev with
      | .db ev => !ev.touches 1 || ev.handsOut 1
      | _ => true) = true) ∧
    (s'.runText sampleHash ds bs).conc.pg.rows.map (fun r => (r.id, r.status)) = [(1, .executing), (2, .executing)] := by
  decide +kernel

/-- **C95 without U+0000.** In every history on Postgres, an execution whose outcome has
no such character and that finds its row, not locked by another transaction, is recorded
by its report, whatever else its texts contain: the job leaves `Executing`. What is
missing is the general case, which is false. -/
theorem C95_recorded_partial (hash : HashFn) (defs : List Runner) (as : List TPSAct) (tie : Int → Nat) (now : Time)
    (r i : Nat) (t : Task) (o : Op) (hf : ((PgSys.init defs).runText hash defs as).aboutTo r i t o) (hn : o.hasNul = false)
    (row : Row) (hrow : row ∈ ((PgSys.init defs).runText hash defs as).conc.pg.rows) (hid : row.id = t.id)
    (hfree : ∀ s ∈ ((PgSys.init defs).runText hash defs as).conc.sessions, s.rowLock ≠ some t.id) :
    (((PgSys.init defs).runText hash defs as).stepText hash defs tie now (.report r i)).1 = .reported r t (.stmt o .unit) ∧
    (∃ row' ∈ (((PgSys.init defs).runText hash defs as).stepText hash defs tie now (.report r i)).2.conc.pg.rows, row'.id = t.id) ∧
    (∀ row' ∈ (((PgSys.init defs).runText hash defs as).stepText hash defs tie now (.report r i)).2.conc.pg.rows,
      row'.id = t.id → row'.status = o.leaves row.attempt) := by
  rw [text_run] at *
  have I := pgSysInv hash defs (textSchedule hash defs (PgSys.init defs) as)
  generalize (PgSys.init defs).run hash defs (textSchedule hash defs (PgSys.init defs) as) = s at *
  obtain ⟨rs, h1, h2⟩ := hf
  have hrep : Reportable t o := I.reps rs (List.mem_of_getElem? h1) t o (List.mem_of_getElem? h2)
  have hlock : s.conc.rowLocked t.id = false := by
    simp only [PgConc.rowLocked, List.any_eq_false, beq_iff_eq]
    exact hfree
  have hone : ∀ f, (updateRows t.id f s.conc.pg.rows).2 = 1 := by
    intro f
    rw [updateRows_count I.inv.nodup, if_pos]
    exact List.mem_map.mpr ⟨row, hrow, hid⟩
  have key : ∀ f : Row → Row, (∀ q, (f q).id = q.id) → (f row).status = o.leaves row.attempt →
      s.conc.pg.step tie now o = s.conc.pg.onRow t.id f → o.needs tie now s.conc.pg.rows = [t.id] →
      s.conc.step hash tie now (.stmt o) =
        (if (o.needs tie now s.conc.pg.rows).any s.conc.rowLocked then (.blocked, s.conc)
          else (.stmt o (s.conc.pg.step tie now o).1, { s.conc with pg := (s.conc.pg.step tie now o).2 })) →
      (s.stepText hash defs tie now (.report r i)).1 = .reported r t (.stmt o .unit) ∧
      (∃ row' ∈ (s.stepText hash defs tie now (.report r i)).2.conc.pg.rows, row'.id = t.id) ∧
      (∀ row' ∈ (s.stepText hash defs tie now (.report r i)).2.conc.pg.rows, row'.id = t.id →
        row'.status = o.leaves row.attempt) := by
    intro f hfid hfst hstep hneeds hstmt
    rw [hneeds] at hstmt
    simp only [List.any_cons, List.any_nil, Bool.or_false, hlock, Bool.false_eq_true, if_false, hstep] at hstmt
    have hon : s.conc.pg.onRow t.id f = (.unit, { s.conc.pg with rows := (updateRows t.id f s.conc.pg.rows).1 }) := by
      unfold Pg.onRow
      have := hone f
      generalize updateRows t.id f s.conc.pg.rows = u at *
      obtain ⟨u1, u2⟩ := u
      subst this
      rfl
    rw [hon] at hstmt
    have hst : s.stepText hash defs tie now (.report r i) = (.reported r t (.stmt o .unit),
        { conc := { s.conc with pg := { s.conc.pg with rows := (updateRows t.id f s.conc.pg.rows).1 } },
          runners := s.runners.set r { rs with flights := rs.flights.set i none } }) := by
      simp [PgSys.stepText, PgSys.step, h1, h2, hn, hstmt]
    rw [hst]
    refine ⟨rfl, ⟨f row, updateRows_mem.mpr ⟨row, hrow, by simp [hid]⟩, by rw [hfid, hid]⟩, ?_⟩
    intro row' hr' hid'
    obtain ⟨q, hq, rfl⟩ := updateRows_mem.mp hr'
    by_cases hqid : q.id = t.id
    · rw [if_pos hqid]
      rw [row_unique I.inv.nodup hq hrow (by rw [hqid, hid])]
      exact hfst
    · rw [if_neg hqid] at hid'
      contradiction
  rcases reportable_cases hrep with rfl | ⟨e, rfl⟩ | ⟨x, rfl⟩ | ⟨-, e, rfl⟩ | ⟨-, x, e, rfl⟩ 
  · exact key (Row.markComplete now) (fun _ => rfl) rfl rfl rfl rfl
  · exact key (Row.markCancelled now e) (fun _ => rfl) rfl rfl rfl rfl
  · exact key (Row.markSnoozed x) (fun _ => rfl) rfl rfl rfl rfl
  · exact key (Row.markDiscarded now e) (fun _ => rfl) rfl rfl rfl rfl
  · exact key (Row.markRetryable now x e) (fun _ => rfl) rfl rfl rfl rfl

/-- A failure with a message that is not empty and not ASCII. -/
example :
    let as := [psAct 5000 (.db (.plain sampleEnq))] ++ psPull 6000 0 0 ++
      [psAct 7000 (.finish 0 0 { ending := .returns (.error "io" "gödel") })]
    let s := (PgSys.init [sampleRunner]).runText sampleHash [sampleRunner] as
    s.runners.map (fun rs => rs.flights.map fun f => match f with
      | some ⟨t, .reporting o⟩ => (t.id, o.hasNul)
      | _ => (0, true)) = [[(1, false)]] ∧
    s.conc.pg.rows.map (·.id) = [1] ∧ s.conc.sessions.map (·.rowLock) = [none] := by
  decide +kernel

/-- In memory the outcome is recorded whatever the text: the call an execution makes
finds its job, and the job leaves `Executing`. -/
theorem C95_memory (d : Runner) (now now' : Time) (t : Task) (j : Joined) (o : Op) (h : d.report now t j = some o) (m : Mem)
    (hnd : m.ids.Nodup) (k : KeyedJob) (hk : k ∈ m.jobs) (hid : k.job.id = t.id) :
    (m.step now' o).1 = .unit ∧ (∃ k' ∈ (m.step now' o).2.jobs, k'.job.id = t.id) ∧
    (∀ k' ∈ (m.step now' o).2.jobs, k'.job.id = t.id → k'.job.status = o.leaves k.job.attempt) := by
  have key : ∀ (f : Job → Job) (w : Bool), (∀ j, (f j).id = j.id) → (f k.job).status = o.leaves k.job.attempt →
      m.step now' o = m.onJob t.id f w →
      (m.step now' o).1 = .unit ∧ (∃ k' ∈ (m.step now' o).2.jobs, k'.job.id = t.id) ∧
      (∀ k' ∈ (m.step now' o).2.jobs, k'.job.id = t.id → k'.job.status = o.leaves k.job.attempt) := by
    intro f w hf hst hs
    rw [hs]
    rcases onJob_cases t.id f w m with ⟨hne, -⟩ | ⟨l, q, r, h1, h2, h3, h4, h5, -⟩
    · exact absurd hid (hne k hk)
    · rw [h4, h5]
      refine ⟨rfl, ⟨_, List.mem_append_right _ (List.mem_cons_self ..), by rw [hf, h3]⟩, ?_⟩
      have hr : ∀ x ∈ r, x.job.id ≠ t.id := by
        unfold Mem.ids at hnd
        rw [h1, List.map_append, List.map_cons] at hnd
        intro x hx hxid
        exact (List.nodup_cons.mp (List.nodup_append.mp hnd).2.1).1 (List.mem_map.mpr ⟨x, hx, by rw [hxid, h3]⟩)
      have hq : q = k := by
        rw [h1, List.mem_append, List.mem_cons] at hk
        rcases hk with hk | hk | hk
        · exact absurd hid (h2 k hk)
        · exact hk.symm
        · exact absurd hid (hr k hk)
      intro k' hk' hid'
      rw [List.mem_append, List.mem_cons] at hk'
      rcases hk' with hk' | hk' | hk'
      · exact absurd hid' (h2 k' hk')
      · rw [hk', hq]; exact hst
      · exact absurd hid' (hr k' hk')
  rcases reportable_cases ⟨d, now, j, h⟩ with rfl | ⟨e, rfl⟩ | ⟨x, rfl⟩ | ⟨-, e, rfl⟩ | ⟨-, x, e, rfl⟩
  · exact key (Job.markComplete now') _ (fun _ => rfl) rfl rfl
  · exact key (Job.markCancelled now' e) _ (fun _ => rfl) rfl rfl
  · exact key (Job.markSnoozed x) _ (fun _ => rfl) rfl rfl
  · exact key (Job.markDiscarded now' e) _ (fun _ => rfl) rfl rfl
  · exact key (Job.markRetryable now' x e) _ (fun _ => rfl) rfl rfl

example : (Joined.result (.error "io" "bad byte \x00")).hasNul sampleRunner = true ∧
    (storeOf [sampleJob 3, sampleJob 7]).ids = [3, 7] := by decide +kernel

end Rexecutor
