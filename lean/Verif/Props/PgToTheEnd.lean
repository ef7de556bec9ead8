import Verif.Props.PgExecuted
import Verif.Props.ToTheEnd

/-!
# C119: a job is carried to its end, on Postgres
-/

namespace Rexecutor

/-! ## Endless schedules -/

/-- The state of the system after the first `n` actions. -/
def PgSys.after (hash : HashFn) (defs : List Runner) (σ : Nat → TPSAct) (n : Nat) : PgSys :=
  (PgSys.init defs).run hash defs (firstActs σ n)

/-- The history of the first `n` actions. -/
def PgSys.past (hash : HashFn) (defs : List Runner) (σ : Nat → TPSAct) (n : Nat) : List TPSEv :=
  (PgSys.init defs).trace hash defs (firstActs σ n)

/-- What the action after the first `n` does. -/
def PgSys.evAt (hash : HashFn) (defs : List Runner) (σ : Nat → TPSAct) (n : Nat) : PSEv :=
  ((PgSys.after hash defs σ n).step hash defs (σ n).tie (σ n).now (σ n).act).1

private theorem after_succ (hash : HashFn) (defs : List Runner) (σ : Nat → TPSAct) (n : Nat) :
    PgSys.after hash defs σ (n + 1) = ((PgSys.after hash defs σ n).step hash defs (σ n).tie (σ n).now (σ n).act).2 := by
  simp [PgSys.after, firstActs_succ, PgSys.run_append, PgSys.run]

private theorem past_succ (hash : HashFn) (defs : List Runner) (σ : Nat → TPSAct) (n : Nat) :
    PgSys.past hash defs σ (n + 1) = PgSys.past hash defs σ n ++ [⟨(σ n).now, PgSys.evAt hash defs σ n⟩] := by
  simp [PgSys.past, PgSys.evAt, PgSys.after, firstActs_succ, PgSys.trace_append, PgSys.trace]

private theorem mem_past {hash : HashFn} {defs : List Runner} {σ : Nat → TPSAct} {n : Nat} {e : TPSEv}
    (h : e ∈ PgSys.past hash defs σ n) : ∃ m, m < n ∧ e = ⟨(σ m).now, PgSys.evAt hash defs σ m⟩ := by
  induction n with
  | zero => simp [PgSys.past, firstActs, PgSys.trace] at h
  | succ n ih =>
    rw [past_succ] at h
    rcases List.mem_append.mp h with h | h
    · obtain ⟨m, h1, h2⟩ := ih h
      exact ⟨m, Nat.lt_succ_of_lt h1, h2⟩
    · exact ⟨n, Nat.lt_succ_self n, by simpa using h⟩

/-- what a step does to the database, and which action of the database that is -/
private theorem back_act (hash : HashFn) (defs : List Runner) (tie : Int → Nat) (now : Time) (s : PgSys) (a : PSAct) :
    ((s.step hash defs tie now a).1.back = none ∧ (s.step hash defs tie now a).2.conc = s.conc ∧ ∀ b, a ≠ .db b) ∨
    ∃ b, (s.step hash defs tie now a).1.back = some (s.conc.step hash tie now b).1 ∧
      (s.step hash defs tie now a).2.conc = (s.conc.step hash tie now b).2 ∧
      (∀ i, b = .abort i → a = .db (.abort i)) ∧ (∀ i, b = .advance i ↔ a = .db (.advance i)) := by
  cases a with
  | db b => exact .inr ⟨b, rfl, rfl, fun i h => by rw [h], fun i => by simp⟩
  | pull r =>
    simp only [PgSys.step]
    split
    · rename_i d _ _ _
      split
      · exact .inr ⟨.handout d.name, rfl, rfl, (fun i h => by cases h), fun i => by simp⟩
      · exact .inl ⟨rfl, rfl, by simp⟩
    · exact .inl ⟨rfl, rfl, by simp⟩
  | take r =>
    simp only [PgSys.step]
    split
    · split <;> exact .inl ⟨rfl, rfl, by simp⟩
    · exact .inl ⟨rfl, rfl, by simp⟩
  | finish r i b =>
    simp only [PgSys.step]
    split
    · split
      · split
        · exact .inl ⟨rfl, rfl, by simp⟩
        · split <;> exact .inl ⟨rfl, rfl, by simp⟩
      · exact .inl ⟨rfl, rfl, by simp⟩
    · exact .inl ⟨rfl, rfl, by simp⟩
  | report r i =>
    simp only [PgSys.step]
    split
    · split
      · rename_i t o _
        split
        · exact .inl ⟨rfl, rfl, by simp⟩
        · rename_i ev c _ he
          exact .inr ⟨.stmt o, by rw [he]; rfl, by rw [he], (fun i h => by cases h), fun i => by simp⟩
      · exact .inl ⟨rfl, rfl, by simp⟩
    · exact .inl ⟨rfl, rfl, by simp⟩
  | lose r i =>
    simp only [PgSys.step]
    split
    · split <;> exact .inl ⟨rfl, rfl, by simp⟩
    · exact .inl ⟨rfl, rfl, by simp⟩
  | stop r => simp only [PgSys.step]; split <;> exact .inl ⟨rfl, rfl, by simp⟩
  | drop r => simp only [PgSys.step]; split <;> exact .inl ⟨rfl, rfl, by simp⟩
  | kill r => simp only [PgSys.step]; split <;> exact .inl ⟨rfl, rfl, by simp⟩

/-- a call reported, seen from the system -/
theorem reported_inv {hash : HashFn} {defs : List Runner} {tie : Int → Nat} {now : Time} {s : PgSys} {a : PSAct}
    {r : Nat} {t : Task} {ev : PgEv} (h : (s.step hash defs tie now a).1 = .reported r t ev) :
    ∃ i o, s.carrier r (some i) = some (.flight ⟨t, .reporting o⟩) ∧ ev = (s.conc.step hash tie now (.stmt o)).1 ∧
      ev ≠ .blocked ∧ (s.step hash defs tie now a).2.conc = (s.conc.step hash tie now (.stmt o)).2 := by
  cases a with
  | report q i =>
    simp only [PgSys.step] at h ⊢
    split at h
    · rename_i rs hr
      split at h
      · rename_i t' o hf
        split at h
        · cases h
        · rename_i ev' c hnb he
          simp only [PSEv.reported.injEq] at h
          obtain ⟨rfl, rfl, rfl⟩ := h
          refine ⟨i, o, ?_, by rw [he], fun e => hnb e, ?_⟩
          · rw [carrier_of hr]
            simp [PgRunner.slot, hf]
          · simp only [he]
      · cases h
    · cases h
  | db b => simp [PgSys.step] at h
  | pull q => simp only [PgSys.step] at h; split at h <;> (try split at h) <;> cases h
  | take q => simp only [PgSys.step] at h; split at h <;> (try split at h) <;> cases h
  | drop q => simp only [PgSys.step] at h; split at h <;> cases h
  | finish q i b =>
    simp only [PgSys.step] at h
    split at h <;> (try split at h) <;> (try split at h) <;> (try split at h) <;> cases h
  | lose q i => simp only [PgSys.step] at h; split at h <;> (try split at h) <;> cases h
  | stop q => simp only [PgSys.step] at h; split at h <;> cases h
  | kill q => simp only [PgSys.step] at h; split at h <;> cases h

/-- a call made for a stored job succeeds, unless it has to wait -/
theorem report_unit {c : PgConc} (H : PgInv c) {hash : HashFn} {tie : Int → Nat} {now : Time} {t : Task} {o : Op}
    (hr : Reportable t o) {row : Row} (hrow : row ∈ c.pg.rows) (hid : row.id = t.id)
    (hnb : (c.step hash tie now (.stmt o)).1 ≠ .blocked) : (c.step hash tie now (.stmt o)).1 = .stmt o .unit := by
  have hin : t.id ∈ rowIds c.pg.rows := mem_rowIds.mpr ⟨row, hrow, hid⟩
  have key : ∀ f, (c.pg.onRow t.id f).1 = .unit := by
    intro f
    rcases onRow_cases t.id f c.pg H.nodup with ⟨h, -⟩ | ⟨-, h⟩
    · exact absurd hin h
    · rw [h]
  rcases reportable_cases hr with rfl | ⟨e, rfl⟩ | ⟨x, rfl⟩ | ⟨-, e, rfl⟩ | ⟨-, x, e, rfl⟩ <;>
    simp only [PgConc.step] at hnb ⊢ <;> split at hnb <;> first
      | exact absurd rfl hnb
      | (rename_i hb; rw [if_neg hb]; simp only [Pg.step]; rw [key])

/-! ## One job -/

/-- all that is known of job `id` at every moment of an endless schedule -/
private structure PRun (hash : HashFn) (defs : List Runner) (σ : Nat → TPSAct) (id : Int) : Prop where
  inv : ∀ m, PgSysInv (PgSys.past hash defs σ m) (PgSys.after hash defs σ m)
  leave : ∀ m, OthersLeave id (PgSys.past hash defs σ m)
  track : ∀ m, PTrack id (PgSys.past hash defs σ m) (PgSys.after hash defs σ m)
  step : ∀ m, CStep hash (σ m).tie (σ m).now id (PgSys.after hash defs σ m) (PgSys.evAt hash defs σ m)
    (PgSys.after hash defs σ (m + 1))

private theorem prun_of {hash : HashFn} {defs : List Runner} {σ : Nat → TPSAct} {id : Int}
    (hq : ∀ m ev, PgSys.evAt hash defs σ m = .db ev → ev.touches id = true → ev.handsOut id = true) : PRun hash defs σ id := by
  have hl : ∀ m, OthersLeave id (PgSys.past hash defs σ m) := by
    intro m e he ev hev
    obtain ⟨m', -, rfl⟩ := mem_past he
    exact hq m' ev hev
  have hi : ∀ m, PgSysInv (PgSys.past hash defs σ m) (PgSys.after hash defs σ m) := fun m => pgSysInv hash defs _
  refine ⟨hi, hl, fun m => pTrack id hash defs _ (hl m), fun m => ?_⟩
  rw [after_succ]
  exact c_step (hi m).own (hi m).reps.reportable hash defs _ _ _ id (hq m)

section
variable {hash : HashFn} {defs : List Runner} {σ : Nat → TPSAct} {id : Int}

private theorem PRun.inserted (_ : PRun hash defs σ id) {m₀ m : Nat} {row : Row} {uc : Option Criteria}
    (h : (PgSys.evAt hash defs σ m₀).back = some (.inserted row uc)) (hid : row.id = id) (hm : m₀ < m) :
    id ∈ pgInserted (dbHistory (PgSys.past hash defs σ m)) := by
  induction m with
  | zero => omega
  | succ m ih =>
    rw [past_succ]
    rcases Nat.lt_succ_iff_lt_or_eq.mp hm with hm | rfl
    · exact inserted_grow (ih hm)
    · rw [db_some h]
      exact mem_pgInserted_append.mpr (.inr (by simp [PgEv.inserts, hid]))

private theorem PRun.not_again (R : PRun hash defs σ id) {m : Nat} {row : Row} {uc : Option Criteria}
    (hin : id ∈ pgInserted (dbHistory (PgSys.past hash defs σ m)))
    (h : (PgSys.evAt hash defs σ m).back = some (.inserted row uc)) : row.id ≠ id := by
  rintro rfl
  rcases psys_back hash defs (σ m).tie (σ m).now (PgSys.after hash defs σ m) (σ m).act with ⟨hb, -⟩ | ⟨b, hb, -⟩
  · rw [PgSys.evAt, hb] at h; cases h
  · rw [PgSys.evAt, hb, Option.some.injEq] at h
    exact conc_inserted_new (R.inv m).inv (R.inv m).hist (a := ⟨(σ m).now, (σ m).tie, b⟩) h hin

private theorem PRun.enqueuedWith (R : PRun hash defs σ id) {m₀ : Nat} {row : Row} {uc : Option Criteria}
    (h : (PgSys.evAt hash defs σ m₀).back = some (.inserted row uc)) (hid : row.id = id) {n : Nat} (hn : row.maxAttempts = n) (m : Nat) :
    PgEnqueuedWith id n (dbHistory (PgSys.past hash defs σ m)) := by
  intro e he row' uc' hev hid'
  obtain ⟨te, hte, h1⟩ := List.mem_filterMap.mp he
  obtain ⟨m', -, rfl⟩ := mem_past hte
  rw [Option.map_eq_some_iff] at h1
  obtain ⟨ev, hb, rfl⟩ := h1
  subst hev
  rcases Nat.lt_trichotomy m' m₀ with hlt | rfl | hlt
  · exact absurd hid (R.not_again (R.inserted hb hid' hlt) h)
  · rw [h] at hb
    simp only [Option.some.injEq, PgEv.inserted.injEq] at hb
    rw [← hb.1]; exact hn
  · exact absurd hid' (R.not_again (R.inserted h hid hlt) hb)

private theorem PRun.same (R : PRun hash defs σ id) {m : Nat} {k k' : Row}
    (hk : k ∈ (PgSys.after hash defs σ m).conc.pg.rows) (hk' : k' ∈ (PgSys.after hash defs σ m).conc.pg.rows)
    (h : k.id = id) (h' : k'.id = id) : k = k' :=
  row_unique (R.inv m).inv.nodup hk hk' (by rw [h, h'])

/-- what becomes of the job in one step -/
private theorem PRun.next (R : PRun hash defs σ id) {m : Nat} (hin : id ∈ pgInserted (dbHistory (PgSys.past hash defs σ m)))
    {row' : Row} (hrow' : row' ∈ (PgSys.after hash defs σ (m + 1)).conc.pg.rows) (hid' : row'.id = id) :
    ∃ row ∈ (PgSys.after hash defs σ m).conc.pg.rows, row.id = id ∧
      ((row' = row ∧ ∀ ev, (PgSys.evAt hash defs σ m).back = some ev → ev.touches id = false) ∨
       ((row.status = .scheduled ∨ row.status = .retryable) ∧ (∃ t, row' = row.markExecuting t)) ∨
       (row.status = .executing ∧ ∃ r t o, Reportable t o ∧ PgSys.evAt hash defs σ m = .reported r t (.stmt o .unit) ∧
         t.id = id ∧ RowMove (σ m).now (.stmt o .unit) row row')) := by
  have I := R.inv m
  have T := R.track m
  have hs := R.step m
  generalize PgSys.after hash defs σ (m + 1) = s' at *
  generalize PgSys.evAt hash defs σ m = ev at *
  cases hs with
  | away _ _ _ hback hconc => rw [hconc] at hrow'; exact ⟨row', hrow', hid', .inl ⟨rfl, fun ev h => by rw [hback] at h; cases h⟩⟩
  | other _ _ b _ hback hconc ht =>
    rw [hconc] at hrow'
    rcases untouched_row I.inv I.hist ht hrow' hid' with h | ⟨-, hn, -⟩
    · exact ⟨row', h, hid', .inl ⟨rfl, fun ev h => by rw [hback] at h; cases h; exact ht⟩⟩
    · exact absurd hin hn
  | handed k row res _ he hid hconc =>
    obtain ⟨q, hq, hqid, hmem, x, t, -, hrd, hrow⟩ := handedOut_mem I.inv he
    rw [hconc] at hrow'
    have : row' = row := row_unique (I.inv.step hash (σ m).tie (σ m).now _).nodup hrow' hmem (by rw [hid', hid])
    subst this
    exact ⟨q, hq, by rw [hqid, hid'], .inr (.inl ⟨(ready_iff'.mp hrd).waiting, t, hrow⟩)⟩
  | taken r j st _ hid hhad hconc => rw [hconc] at hrow'; exact ⟨row', hrow', hid', .inl ⟨rfl, fun ev h => by cases h⟩⟩
  | ended r i t j d o _ hid ho hhad hconc => rw [hconc] at hrow'; exact ⟨row', hrow', hid', .inl ⟨rfl, fun ev h => by cases h⟩⟩
  | overflowed r i t j _ hid hhad hconc => rw [hconc] at hrow'; exact ⟨row', hrow', hid', .inl ⟨rfl, fun ev h => by cases h⟩⟩
  | reported r i t o _ hid hhad hnb hconc =>
    rw [hconc] at hrow'
    have hrep := I.reps.reportable r (some i) t o hhad
    rcases (table_step I.inv hash (σ m).tie (σ m).now (.stmt o)).back hrow' with ⟨uc, he, -⟩ | ⟨q, hq, hqid, hm, -⟩
    · rcases stmt_event (PgSys.after hash defs σ m).conc hash (σ m).tie (σ m).now o with h1 | h1 | ⟨res', h1⟩ <;> rw [h1] at he <;> cases he
    · have hqi : q.id = id := by rw [hqid, hid']
      have hu := report_unit I.inv (hash := hash) (tie := (σ m).tie) (now := (σ m).now) hrep hq (by rw [hqi, hid]) hnb
      rw [hu] at hm ⊢
      exact ⟨q, hq, hqi, .inr (.inr ⟨(T.exec r (some i) _ hhad hid q hq hqi).1, r, t, o, hrep, rfl, hid, hm⟩)⟩

/-- the row after a successful report -/
private theorem move_of_report {now : Time} {t : Task} {o : Op} (hr : Reportable t o) {row row' : Row}
    (hid : row.id = t.id) (h : RowMove now (.stmt o .unit) row row') :
    row'.executor = row.executor ∧ (row'.status.isOver = true ∨ (PgEv.stmt o .unit).snoozes t.id = true ∨
      (PgEv.stmt o .unit).recordsFailure t.id = true) := by
  rcases reportable_cases hr with rfl | ⟨e, rfl⟩ | ⟨x, rfl⟩ | ⟨-, e, rfl⟩ | ⟨-, x, e, rfl⟩ <;> cases h <;>
    simp_all [PgEv.touches, PgEv.handsOut, PgEv.retries, PgEv.snoozes, PgEv.reruns, PgEv.edits, PgEv.finishes,
      Row.markComplete, Row.markRetryable, Row.markDiscarded, Row.markCancelled, Row.markSnoozed, JobStatus.isOver,
      PgEv.recordsFailure]

private theorem PRun.fresh (R : PRun hash defs σ id) {m₀ : Nat} {row : Row} {uc : Option Criteria}
    (h : (PgSys.evAt hash defs σ m₀).back = some (.inserted row uc)) (hid : row.id = id) {k : Row}
    (hk : k ∈ (PgSys.after hash defs σ (m₀ + 1)).conc.pg.rows) (hkid : k.id = id) : k = row := by
  rw [after_succ] at hk
  rcases psys_back hash defs (σ m₀).tie (σ m₀).now (PgSys.after hash defs σ m₀) (σ m₀).act with ⟨hb, -⟩ | ⟨b, hb, hc⟩
  · rw [PgSys.evAt, hb] at h; cases h
  · rw [PgSys.evAt, hb, Option.some.injEq] at h
    rw [hc] at hk
    rcases (table_step (R.inv m₀).inv hash (σ m₀).tie (σ m₀).now b).back hk with ⟨uc', he, -⟩ | ⟨q, hq, hqid, -, hn⟩
    · rw [h] at he
      simp only [PgEv.inserted.injEq] at he
      exact he.1.symm
    · rw [h] at hn
      simp [PgEv.inserts, hqid, hkid, hid] at hn

private theorem PRun.executor (R : PRun hash defs σ id) {m₀ m : Nat} {row : Row} {uc : Option Criteria}
    (h : (PgSys.evAt hash defs σ m₀).back = some (.inserted row uc)) (hid : row.id = id) (hm : m₀ < m) {k : Row}
    (hk : k ∈ (PgSys.after hash defs σ m).conc.pg.rows) (hkid : k.id = id) : k.executor = row.executor := by
  induction m generalizing k with
  | zero => omega
  | succ m ih =>
    rcases Nat.lt_succ_iff_lt_or_eq.mp hm with hlt | rfl
    · obtain ⟨q, hq, hqid, hc⟩ := R.next (R.inserted h hid hlt) hk hkid
      rw [← ih hlt hq hqid]
      rcases hc with ⟨rfl, -⟩ | ⟨-, t, rfl⟩ | ⟨-, r, t, o, hrep, -, ht, hmv⟩
      · rfl
      · rfl
      · exact (move_of_report hrep (by rw [hqid, ht]) hmv).1
    · rw [R.fresh h hid hk hkid]

/-- a job that is over stays over -/
private theorem PRun.over (R : PRun hash defs σ id) {m : Nat} (hin : id ∈ pgInserted (dbHistory (PgSys.past hash defs σ m)))
    (ho : ∀ k ∈ (PgSys.after hash defs σ m).conc.pg.rows, k.id = id → k.status.isOver = true) {m' : Nat} (hm : m ≤ m') :
    id ∈ pgInserted (dbHistory (PgSys.past hash defs σ m')) ∧
    ∀ k ∈ (PgSys.after hash defs σ m').conc.pg.rows, k.id = id → k.status.isOver = true := by
  induction hm with
  | refl => exact ⟨hin, ho⟩
  | @step m' _ ih =>
    refine ⟨by rw [past_succ]; exact inserted_grow ih.1, fun k hk hid => ?_⟩
    obtain ⟨q, hq, hqid, hc⟩ := R.next ih.1 hk hid
    have hov := ih.2 q hq hqid
    rcases hc with ⟨rfl, -⟩ | ⟨hw, -⟩ | ⟨hx, -⟩
    · exact hov
    · rcases hw with hw | hw <;> rw [hw] at hov <;> cases hov
    · rw [hx] at hov; cases hov

/-- what a report makes of the stored job -/
private theorem PRun.reported (R : PRun hash defs σ id) {m r : Nat} {t : Task} {ev : PgEv}
    (hrep : PgSys.evAt hash defs σ m = .reported r t ev) (htid : t.id = id)
    {k : Row} (hk : k ∈ (PgSys.after hash defs σ m).conc.pg.rows) (hid : k.id = id)
    {k' : Row} (hk' : k' ∈ (PgSys.after hash defs σ (m + 1)).conc.pg.rows) (hid' : k'.id = id) :
    k'.status.isOver = true ∨ ev.snoozes id = true ∨ ev.recordsFailure id = true := by
  obtain ⟨i, o, hc, hev, hnb, hconc⟩ := reported_inv hrep
  have I := R.inv m
  have hr := I.reps.reportable r (some i) t o hc
  rw [hev] at hnb
  have hu := report_unit I.inv hr hk (by rw [hid, htid]) hnb
  rw [hu] at hev
  subst hev
  rw [after_succ, hconc] at hk'
  rcases (table_step I.inv hash (σ m).tie (σ m).now (.stmt o)).back hk' with ⟨uc, he, -⟩ | ⟨q, hq, hqid, hm, -⟩
  · rw [hu] at he; cases he
  · rw [hu] at hm
    rw [← htid]
    exact (move_of_report hr (by rw [hqid, hid', htid]) hm).2

/-! ## Sessions -/

/-- a session under way takes its next step some time -/
private theorem next_turn (habort : ∀ m i, (σ m).act ≠ .db (.abort i)) {k : Nat} {s : Session} {m m' : Nat} (hm : m ≤ m')
    (hs : (PgSys.after hash defs σ m).conc.sessions[k]? = some s) (ha : (σ m').act = .db (.advance k)) :
    ∃ n, m ≤ n ∧ (PgSys.after hash defs σ n).conc.sessions[k]? = some s ∧ (σ n).act = .db (.advance k) := by
  by_cases h : (σ m).act = .db (.advance k)
  · exact ⟨m, Nat.le_refl m, hs, h⟩
  · have hlt : m < m' := by
      rcases Nat.lt_or_eq_of_le hm with h' | rfl
      · exact h'
      · exact absurd ha h
    have hs' : (PgSys.after hash defs σ (m + 1)).conc.sessions[k]? = some s := by
      rw [after_succ]
      rcases back_act hash defs (σ m).tie (σ m).now (PgSys.after hash defs σ m) (σ m).act with ⟨-, hc, -⟩ | ⟨b, -, hc, h1, h2⟩
      · rw [hc]; exact hs
      · rw [hc]
        exact session_unmoved hs (fun e => h ((h2 k).mp e)) (fun e => habort m k (h1 k e))
    obtain ⟨n, h1, h2, h3⟩ := next_turn habort (m := m + 1) hlt hs' ha
    exact ⟨n, by omega, h2, h3⟩
termination_by m' - m

private theorem advance_at {m k : Nat} (ha : (σ m).act = .db (.advance k)) :
    PgSys.evAt hash defs σ m = .db ((PgSys.after hash defs σ m).conc.step hash (σ m).tie (σ m).now (.advance k)).1 ∧
    (PgSys.after hash defs σ (m + 1)).conc = ((PgSys.after hash defs σ m).conc.step hash (σ m).tie (σ m).now (.advance k)).2 := by
  rw [after_succ, PgSys.evAt, ha]
  exact ⟨rfl, rfl⟩

/-- an `Executing` job comes into flight, or is in flight -/
private theorem PRun.flies (R : PRun hash defs σ id)
    (hno : ∀ m x, (σ m).act ≠ .db (.handout x))
    (hsm : ∀ m, (PgSys.evAt hash defs σ m).smooth = true)
    (htake : ∀ m r rs k res, (PgSys.after hash defs σ m).runners[r]? = some rs → rs.loading = some k →
      (PgSys.after hash defs σ m).conc.sessions[k]? = some (.done res) → ∃ m', m ≤ m' ∧ (σ m').act = .take r)
    (hlen : ∀ m r rs, (PgSys.after hash defs σ m).runners[r]? = some rs → r < defs.length)
    {m : Nat} {k : Row} (hk : k ∈ (PgSys.after hash defs σ m).conc.pg.rows) (hid : k.id = id) (hx : k.status = .executing) :
    ∃ m' r i c, m ≤ m' ∧ (PgSys.after hash defs σ m').carrier r (some i) = some c ∧ c.id = id := by
  have hhas := C69_executing_has_executor_partial hash defs (firstActs σ m)
    (fun b hb x => by
      obtain ⟨n, -, rfl⟩ := List.mem_map.mp hb
      exact hno n x)
    (fun e he => by
      obtain ⟨n, -, rfl⟩ := mem_past he
      exact hsm n) k hk hx
  rw [hid] at hhas
  obtain ⟨r, x, c, hc, hcid⟩ := hasJob_iff.mp hhas
  cases x with
  | some i => exact ⟨m, r, i, c, Nat.le_refl m, hc, hcid⟩
  | none =>
    obtain ⟨rs, hr, hsl⟩ := Option.bind_eq_some_iff.mp hc
    obtain ⟨s, j, hl, hs, rfl⟩ := slot_loaded_inv hsl
    obtain ⟨m', hm', ha⟩ := htake m r rs s _ hr hl hs
    -- the stream keeps it until it is taken
    have main : ∀ d n rs, n + d = m' → m ≤ n → (PgSys.after hash defs σ n).runners[r]? = some rs → rs.loading = some s →
        (PgSys.after hash defs σ n).conc.sessions[s]? = some (.done (.job (some j))) →
        ∃ n', n ≤ n' ∧ (PgSys.evAt hash defs σ n').executes id = true := by
      intro d
      induction d with
      | zero =>
        intro n rs hn _ hr hl hs
        obtain rfl : n = m' := hn
        refine ⟨n, Nat.le_refl n, ?_⟩
        cases hxe : (PgSys.evAt hash defs σ n).executes id with
        | true => rfl
        | false =>
          exfalso
          obtain ⟨rs', h1, h2, -⟩ := stream_keeps hr hl hs hcid hash defs (σ n).tie (σ n).now (σ n).act (hsm n) hxe
          have hlt := hlen n r rs hr
          have hlt' := (List.getElem?_eq_some_iff.mp hr).1
          have hd := List.getElem?_eq_getElem hlt
          have hsm' := hsm n
          rw [PgSys.evAt, ha] at hsm'
          rw [ha] at h1
          simp only [PgSys.step, hd, hr, hl, Option.bind_some, hs] at h1 hsm'
          rw [List.getElem?_set_self hlt', Option.some.injEq] at h1
          subst h1
          split at h2
          · cases h2
          · cases h2
          · rename_i hst; rw [hst] at hsm'; cases hsm'
      | succ d ih =>
        intro n rs hn hmn hr hl hs
        cases hxe : (PgSys.evAt hash defs σ n).executes id with
        | true => exact ⟨n, Nat.le_refl n, hxe⟩
        | false =>
          obtain ⟨rs', h1, h2, h3⟩ := stream_keeps hr hl hs hcid hash defs (σ n).tie (σ n).now (σ n).act (hsm n) hxe
          rw [← after_succ] at h1 h3
          obtain ⟨n', h4, h5⟩ := ih (n + 1) rs' (by omega) (by omega) h1 h2 h3
          exact ⟨n', by omega, h5⟩
    obtain ⟨n, hn, hxe⟩ := main (m' - m) m rs (by omega) (Nat.le_refl m) hr hl hs
    -- an execution that is started is in flight
    have hev : ∃ q res t, PgSys.evAt hash defs σ n = .took q res (some (.running t)) ∧ t.id = id := by
      generalize PgSys.evAt hash defs σ n = ev at hxe
      unfold PSEv.executes at hxe
      split at hxe
      · exact ⟨_, _, _, rfl, by simpa using hxe⟩
      · cases hxe
    obtain ⟨q, res, t, hev, htid⟩ := hev
    have hfly : ∃ i, (PgSys.after hash defs σ (n + 1)).carrier q (some i) = some (.flight ⟨t, .running⟩) := by
      rw [after_succ]
      rw [PgSys.evAt] at hev
      generalize PgSys.after hash defs σ n = st at *
      cases hact : (σ n).act with
      | take p =>
        rw [hact] at hev
        simp only [PgSys.step] at hev ⊢
        split at hev
        · rename_i d ps hd hp
          split at hev
          · rename_i j' hj'
            simp only [PSEv.took.injEq, Option.some.injEq] at hev
            obtain ⟨rfl, -, hst⟩ := hev
            have hlt := (List.getElem?_eq_some_iff.mp hp).1
            refine ⟨ps.flights.length, ?_⟩
            simp only [hst]
            rw [carrier_of (rs := { ps with loading := none, flights := ps.flights ++ [some { task := t }] })
              (by simp [List.getElem?_set_self hlt])]
            simp [PgRunner.slot]
          · cases hev
          · cases hev
        · cases hev
      | db b => rw [hact] at hev; simp [PgSys.step] at hev
      | pull p => rw [hact] at hev; simp only [PgSys.step] at hev; split at hev <;> (try split at hev) <;> cases hev
      | drop p => rw [hact] at hev; simp only [PgSys.step] at hev; split at hev <;> cases hev
      | finish p i b =>
        rw [hact] at hev
        simp only [PgSys.step] at hev
        split at hev <;> (try split at hev) <;> (try split at hev) <;> (try split at hev) <;> cases hev
      | report p i =>
        rw [hact] at hev
        simp only [PgSys.step] at hev
        split at hev <;> (try split at hev) <;> (try split at hev) <;> cases hev
      | lose p i => rw [hact] at hev; simp only [PgSys.step] at hev; split at hev <;> (try split at hev) <;> cases hev
      | stop p => rw [hact] at hev; simp only [PgSys.step] at hev; split at hev <;> cases hev
      | kill p => rw [hact] at hev; simp only [PgSys.step] at hev; split at hev <;> cases hev
    obtain ⟨i, hi⟩ := hfly
    exact ⟨n + 1, q, i, _, by omega, hi, htid⟩

/-- every runner has its executor -/
private theorem runner_def (m : Nat) {r : Nat} {rs : PgRunner} (hr : (PgSys.after hash defs σ m).runners[r]? = some rs) :
    r < defs.length := by
  have hlen : (PgSys.after hash defs σ m).runners.length = defs.length := by
    clear hr
    induction m with
    | zero => simp [PgSys.after, firstActs, PgSys.run, PgSys.init]
    | succ m ih =>
      rw [after_succ, ← ih]
      generalize PgSys.after hash defs σ m = s
      cases (σ m).act <;> simp only [PgSys.step] <;> (repeat' split) <;> simp
  rw [← hlen]
  exact (List.getElem?_eq_some_iff.mp hr).1

private theorem pgTime_close (t : Time) : t - 1000 < pgTime t := by
  have h1 : Int.tmod (t - epoch2000) 1000 < 1000 := Int.tmod_lt_of_pos _ (by decide)
  simp only [pgTime, Time] at *
  omega

/-- a waiting job comes into flight some time -/
private theorem PRun.executed (R : PRun hash defs σ id)
    (hmono : ∀ m, (σ m).now ≤ (σ (m + 1)).now)
    (htime : ∀ t, ∃ m, t ≤ (σ m).now)
    (hno : ∀ m x, (σ m).act ≠ .db (.handout x))
    (habort : ∀ m i, (σ m).act ≠ .db (.abort i))
    (hsm : ∀ m, (PgSys.evAt hash defs σ m).smooth = true)
    (hgo : ∀ m k s, (PgSys.after hash defs σ m).conc.sessions[k]? = some s → (∀ res, s ≠ .done res) →
      ∃ m', m ≤ m' ∧ (σ m').act = .db (.advance k))
    (htake : ∀ m r rs k res, (PgSys.after hash defs σ m).runners[r]? = some rs → rs.loading = some k →
      (PgSys.after hash defs σ m).conc.sessions[k]? = some (.done res) → ∃ m', m ≤ m' ∧ (σ m').act = .take r)
    {x : String} (hpoll : ∀ N, ∃ m r d, N ≤ m ∧ defs[r]? = some d ∧ d.name = x ∧ PgSys.evAt hash defs σ m = .pulled r)
    (hbehind : ∀ j : Row, j.id = id → ∃ N, ∀ m, N ≤ m → j ∈ (PgSys.after hash defs σ m).conc.pg.rows →
      ∀ ev, (PgSys.evAt hash defs σ m).back = some ev →
        ev.QueuesBehind j (σ m).now (PgSys.after hash defs σ m).conc.pg.rows)
    {m : Nat} (hin : id ∈ pgInserted (dbHistory (PgSys.past hash defs σ m)))
    (hlive : ∀ m', m ≤ m' → ∃ k ∈ (PgSys.after hash defs σ m').conc.pg.rows, k.id = id ∧ k.status.isOver = false ∧ k.executor = x) :
    ∃ m' r i c, m ≤ m' ∧ (PgSys.after hash defs σ m').carrier r (some i) = some c ∧ c.id = id := by
  apply Classical.byContradiction
  intro hcontra
  have hin' : ∀ m', m ≤ m' → id ∈ pgInserted (dbHistory (PgSys.past hash defs σ m')) := by
    intro m' hm
    induction hm with
    | refl => exact hin
    | step _ ih => rw [past_succ]; exact inserted_grow ih
  have hne : ∀ m', m ≤ m' → ∀ k ∈ (PgSys.after hash defs σ m').conc.pg.rows, k.id = id → k.status ≠ .executing := by
    intro m' hm k hk hid hx
    obtain ⟨n, r, i, c, h1, h2, h3⟩ := R.flies hno hsm htake (fun m r rs h => runner_def m h) hk hid hx
    exact hcontra ⟨n, r, i, c, Nat.le_trans hm h1, h2, h3⟩
  obtain ⟨j, hj, hjid, hjo, hjx⟩ := hlive m (Nat.le_refl m)
  have hw : j.status = .scheduled ∨ j.status = .retryable := by
    have := hne m (Nat.le_refl m) j hj hjid
    cases hs : j.status <;> rw [hs] at hjo this <;> simp_all [JobStatus.isOver]
  -- nothing touches the job
  have hquiet : ∀ m', m ≤ m' → j ∈ (PgSys.after hash defs σ m').conc.pg.rows ∧
      ∀ ev, (PgSys.evAt hash defs σ m').back = some ev → ev.touches id = false := by
    have one : ∀ m', m ≤ m' → j ∈ (PgSys.after hash defs σ m').conc.pg.rows →
        j ∈ (PgSys.after hash defs σ (m' + 1)).conc.pg.rows ∧
        ∀ ev, (PgSys.evAt hash defs σ m').back = some ev → ev.touches id = false := by
      intro m' hm hjm
      obtain ⟨k, hk, hkid, hko, -⟩ := hlive (m' + 1) (Nat.le_succ_of_le hm)
      obtain ⟨q, hq, hqid, hc⟩ := R.next (hin' m' hm) hk hkid
      obtain rfl := R.same hq hjm hqid hjid
      rcases hc with ⟨rfl, ht⟩ | ⟨-, t, rfl⟩ | ⟨hx, -⟩
      · exact ⟨hk, ht⟩
      · exact absurd rfl (hne (m' + 1) (Nat.le_succ_of_le hm) _ hk hkid)
      · exact absurd hx (hne m' hm _ hq hqid)
    have pres : ∀ m', m ≤ m' → j ∈ (PgSys.after hash defs σ m').conc.pg.rows := by
      intro m' hm
      induction hm with
      | refl => exact hj
      | @step m' hm ih => exact (one m' hm ih).1
    exact fun m' hm => ⟨pres m' hm, (one m' hm (pres m' hm)).2⟩
  have hmono' : ∀ a b, a ≤ b → (σ a).now ≤ (σ b).now := by
    intro a b hab
    induction hab with
    | refl => exact Int.le_refl _
    | step _ ih => exact Int.le_trans ih (hmono _)
  -- from some moment on it is due and nothing is queued in front of it
  obtain ⟨n₁, hn₁⟩ := htime (j.scheduledAt + 1000)
  obtain ⟨n₂, hn₂⟩ := hbehind j hjid
  obtain ⟨N, hN⟩ : ∃ N, N = max m (max n₁ n₂) := ⟨_, rfl⟩
  have hNm : m ≤ N := by omega
  have hdue : ∀ n, N ≤ n → j.scheduledAt < pgTime (σ n).now + 100000000 := by
    intro n hn
    have h1 := hmono' n₁ n (by omega)
    have h2 := pgTime_close (σ n).now
    simp only [Time] at *
    omega
  have hbeh : ∀ n, N ≤ n → ∀ ev, (PgSys.evAt hash defs σ n).back = some ev →
      ev.QueuesBehind j (σ n).now (PgSys.after hash defs σ n).conc.pg.rows :=
    fun n hn => hn₂ n (by omega) (hquiet n (by omega)).1
  -- nobody has it locked
  have hfree : ∀ n, N ≤ n → (PgSys.after hash defs σ n).conc.rowLocked j.id = false := by
    intro n hn
    cases hl : (PgSys.after hash defs σ n).conc.rowLocked j.id with
    | false => rfl
    | true =>
      exfalso
      obtain ⟨k, s, hs, hlk⟩ := rowLocked_iff.mp hl
      obtain ⟨n', h1, h2⟩ := hgo n k s hs (by rintro res rfl; cases hlk)
      obtain ⟨n'', h3, h4, h5⟩ := next_turn habort h1 hs h2
      obtain ⟨e1, -⟩ := advance_at (hash := hash) (defs := defs) h5
      have hq := (hquiet n'' (by omega)).2 _ (by rw [e1]; rfl)
      simp only [PgConc.step, h4] at hq
      cases s with
      | locked y t i =>
        cases hlk
        obtain ⟨q, hq', hqid, -⟩ := (R.inv n'').inv.lockedReady k y t _ h4
        simp only [PgConc.advance] at hq
        split at hq
        · rename_i hnone
          have := List.find?_eq_none.mp hnone q hq'
          simp [hqid] at this
        · rename_i q' hf
          have : q'.id = j.id := by simpa using List.find?_some hf
          simp [PgEv.touches, PgEv.handsOut, Row.markExecuting, this, hjid] at hq
      | replacing e uc rep i =>
        cases hlk
        simp [PgConc.advance, PgEv.touches, PgEv.edits, hjid] at hq
      | _ => cases hlk
  -- the statements sent from now on
  have hgood : ∀ n, N ≤ n → HandoutsGood (PgSys.after hash defs σ N).conc.sessions.length j (σ n).now
      (dbHistory (PgSys.past hash defs σ n)) (PgSys.after hash defs σ n).conc := by
    intro n hn
    induction hn with
    | refl =>
      have none : ∀ (i : Nat) (s : Session), (PgSys.after hash defs σ N).conc.sessions.length ≤ i →
          (PgSys.after hash defs σ N).conc.sessions[i]? = some s → False := by
        intro i s hi hs
        have := (List.getElem?_eq_some_iff.mp hs).1
        omega
      exact ⟨(hquiet N hNm).1, Nat.le_refl _, fun i t snap hi hs => (none i _ hi hs).elim,
        fun i t id hi hs => (none i _ hi hs).elim⟩
    | @step n hn ih =>
      have hge : N ≤ n := hn
      have later : ∀ {l l' : Time} {h c}, l ≤ l' → HandoutsGood (PgSys.after hash defs σ N).conc.sessions.length j l h c →
          HandoutsGood (PgSys.after hash defs σ N).conc.sessions.length j l' h c := by
        intro l l' h c hl G
        exact ⟨G.present, G.long, fun i t snap hi hs => by
          obtain ⟨g1, g2⟩ := G.looking i t snap hi hs
          exact ⟨Int.le_trans g1 hl, g2⟩, G.locked⟩
      have hf' := hfree (n + 1) (by omega)
      have hb' := hbeh n hge
      have hq' := (hquiet n (by omega)).2
      refine later (hmono n) ?_
      rw [past_succ]
      rw [after_succ] at hf' ⊢
      rw [PgSys.evAt] at hb' hq' ⊢
      rcases psys_back hash defs (σ n).tie (σ n).now (PgSys.after hash defs σ n) (σ n).act with ⟨hb, hc⟩ | ⟨b, hb, hc⟩
      · rw [hc, db_none hb]; exact ih
      · rw [hc] at hf' ⊢
        rw [db_some hb]
        exact handoutsGood_step (R.inv n).inv (R.inv n).hist ih hash ⟨(σ n).now, (σ n).tie, b⟩ (Int.le_refl _) hw (hdue n hge)
          (by rw [hjid]; exact hq' _ hb) (hb' _ hb) (hfree n hge) hf'
  have hbud : ∀ n, N ≤ n → ∀ c, (∀ ev, (PgSys.evAt hash defs σ n).back = some ev → ev.handsOutFor j.executor = true → c ≤ 1) →
      ((∃ ev, (PgSys.evAt hash defs σ n).back = some ev ∧ ev.handsOutFor j.executor = true) ∨ c = 0) →
      aheadBudget (PgSys.after hash defs σ N).conc.sessions.length j (PgSys.after hash defs σ (n + 1)).conc + c ≤
      aheadBudget (PgSys.after hash defs σ N).conc.sessions.length j (PgSys.after hash defs σ n).conc := by
    intro n hn c hc1 hc2
    have hb' := hbeh n hn
    rw [PgSys.evAt] at hb' hc1 hc2
    rw [after_succ]
    rcases psys_back hash defs (σ n).tie (σ n).now (PgSys.after hash defs σ n) (σ n).act with ⟨hb, hc⟩ | ⟨b, hb, hc⟩
    · rw [hc]
      rcases hc2 with ⟨ev, he, -⟩ | rfl
      · rw [hb] at he; cases he
      · exact Nat.le_refl _
    · rw [hc]
      have := aheadBudget_step (R.inv n).inv (hgood n hn) hash ⟨(σ n).now, (σ n).tie, b⟩ (hdue n hn) (hb' _ hb)
      dsimp only at this
      split at this
      · rename_i hh
        have := hc1 _ hb hh
        omega
      · rename_i hh
        rcases hc2 with ⟨ev, he, hev⟩ | rfl
        · rw [hb] at he; cases he; exact absurd hev hh
        · omega
  -- hand-outs for the executor go on for ever
  have hmany : ∀ M, N ≤ M → ∃ n, M ≤ n ∧ ∃ ev, (PgSys.evAt hash defs σ n).back = some ev ∧ ev.handsOutFor j.executor = true := by
    intro M hM
    obtain ⟨m₁, r, d, g1, g2, g3, g4⟩ := hpoll M
    have hk : (PgSys.after hash defs σ (m₁ + 1)).conc.sessions[(PgSys.after hash defs σ m₁).conc.sessions.length]? =
        some (.handout j.executor) := by
      rw [after_succ]
      rw [PgSys.evAt] at g4
      generalize PgSys.after hash defs σ m₁ = st at *
      cases hact : (σ m₁).act with
      | pull p =>
        rw [hact] at g4
        simp only [PgSys.step] at g4 ⊢
        split at g4
        · rename_i d' ps hd hp
          split at g4
          · rename_i hif
            simp only [PSEv.pulled.injEq] at g4
            subst g4
            rw [g2, Option.some.injEq] at hd
            subst hd
            rw [if_pos hif]
            simp [PgConc.step, g3, hjx]
          · cases g4
        · cases g4
      | db b => rw [hact] at g4; simp [PgSys.step] at g4
      | take p => rw [hact] at g4; simp only [PgSys.step] at g4; split at g4 <;> (try split at g4) <;> cases g4
      | drop p => rw [hact] at g4; simp only [PgSys.step] at g4; split at g4 <;> cases g4
      | finish p i b =>
        rw [hact] at g4
        simp only [PgSys.step] at g4
        split at g4 <;> (try split at g4) <;> (try split at g4) <;> (try split at g4) <;> cases g4
      | report p i =>
        rw [hact] at g4
        simp only [PgSys.step] at g4
        split at g4 <;> (try split at g4) <;> (try split at g4) <;> cases g4
      | lose p i => rw [hact] at g4; simp only [PgSys.step] at g4; split at g4 <;> (try split at g4) <;> cases g4
      | stop p => rw [hact] at g4; simp only [PgSys.step] at g4; split at g4 <;> cases g4
      | kill p => rw [hact] at g4; simp only [PgSys.step] at g4; split at g4 <;> cases g4
    have hge := (hgood m₁ (by omega)).long
    generalize (PgSys.after hash defs σ m₁).conc.sessions.length = k at *
    -- the statement begins
    obtain ⟨u₁, h1, h2⟩ := hgo _ k _ hk (by rintro res ⟨⟩)
    obtain ⟨n₁, h3, h4, h5⟩ := next_turn habort h1 hk h2
    have hk₁ : (PgSys.after hash defs σ (n₁ + 1)).conc.sessions[k]? =
        some (.looking j.executor (σ n₁).now (PgSys.after hash defs σ n₁).conc.pg.rows) := by
      rw [(advance_at h5).2, conc_session_self h4]; rfl
    -- it locks a row
    obtain ⟨u₂, h6, h7⟩ := hgo _ k _ hk₁ (by rintro res ⟨⟩)
    obtain ⟨n₂, h8, h9, h10⟩ := next_turn habort h6 hk₁ h7
    have hk₂ : ∃ i, (PgSys.after hash defs σ (n₂ + 1)).conc.sessions[k]? = some (.locked j.executor (σ n₁).now i) := by
      rw [(advance_at h10).2]
      rcases C45_choice hash (σ n₂).tie (σ n₂).now _ k _ _ _ h9 with ⟨i, h, -⟩ | ⟨-, -, h⟩
      · exact ⟨i, h⟩
      · exfalso
        have el : RowEligible (σ n₁).now j.executor j := ⟨rfl, hw, hdue n₁ (by omega)⟩
        exact h ⟨j, (hquiet n₁ (by omega)).1, el, hfree n₂ (by omega), j, (hquiet n₂ (by omega)).1, rfl, el⟩
    obtain ⟨i, hk₂⟩ := hk₂
    -- it commits
    obtain ⟨u₃, h11, h12⟩ := hgo _ k _ hk₂ (by rintro res ⟨⟩)
    obtain ⟨n₃, h13, h14, h15⟩ := next_turn habort h11 hk₂ h12
    obtain ⟨q, hq, hqid, hrd⟩ := (R.inv n₃).inv.lockedReady k _ _ _ h14
    refine ⟨n₃, by omega, _, by rw [(advance_at h15).1]; rfl, ?_⟩
    simp only [PgConc.step, h14, PgConc.advance]
    split
    · rename_i hnone
      have := List.find?_eq_none.mp hnone q hq
      simp [hqid] at this
    · rename_i q' hf
      have hq'id : q'.id = i := by simpa using List.find?_some hf
      obtain rfl := row_unique (R.inv n₃).inv.nodup hq (List.mem_of_find?_eq_some hf) (by rw [hqid, hq'id])
      simp [PgEv.handsOutFor, Row.markExecuting, (ready_iff'.mp hrd).executor]
  -- but there are only so many before its turn
  have hdown : ∀ a b, N ≤ a → a ≤ b →
      aheadBudget (PgSys.after hash defs σ N).conc.sessions.length j (PgSys.after hash defs σ b).conc ≤
      aheadBudget (PgSys.after hash defs σ N).conc.sessions.length j (PgSys.after hash defs σ a).conc := by
    intro a b ha hab
    induction hab with
    | refl => exact Nat.le_refl _
    | @step b hab ih =>
      have hge : a ≤ b := hab
      exact Nat.le_trans (hbud b (by omega) 0 (fun _ _ _ => Nat.zero_le _) (.inr rfl)) ih
  have hall : ∀ q, ∃ n, N ≤ n ∧
      aheadBudget (PgSys.after hash defs σ N).conc.sessions.length j (PgSys.after hash defs σ n).conc + q ≤
      aheadBudget (PgSys.after hash defs σ N).conc.sessions.length j (PgSys.after hash defs σ N).conc := by
    intro q
    induction q with
    | zero => exact ⟨N, Nat.le_refl N, Nat.le_refl _⟩
    | succ q ih =>
      obtain ⟨n, h1, h2⟩ := ih
      obtain ⟨n', h3, h4⟩ := hmany n h1
      have h5 := hdown n n' h1 h3
      have h6 := hbud n' (by omega) 1 (fun _ _ _ => Nat.le_refl _) (.inl h4)
      exact ⟨n' + 1, by omega, by omega⟩
  obtain ⟨n, -, h⟩ := hall (aheadBudget (PgSys.after hash defs σ N).conc.sessions.length j (PgSys.after hash defs σ N).conc + 1)
  omega

end

/-- **C119, on Postgres.** Consider any endless schedule of any number of runners and nodes and
other clients on one Postgres database, in which a job with at least one attempt is inserted.
Suppose that other clients leave the job alone (they may prune it) and do not ask for jobs to
execute themselves; that time goes on and never goes back; that runners of the job's executor
keep asking for jobs; that statements and transactions under way are given turns until they
come to their end and none is given up; that an answer is received some time; that everything
goes smoothly (no process ends, no connection fails, all rows can be read and decoded, no
runner panics, none is stopped while it waits for an answer); that executions of the job end
and make their call; that, whatever its row is, from some moment on nothing is queued in front
of it; and that it is not snoozed for ever. Then from some moment on the job is complete,
cancelled or discarded, if it is still stored. -/
theorem C119_on_postgres (hash : HashFn) (defs : List Runner) (σ : Nat → TPSAct) (id : Int) (m₀ : Nat)
    (row : Row) (uc : Option Criteria)
    (hinsert : (PgSys.evAt hash defs σ m₀).back = some (.inserted row uc)) (hid : row.id = id) (hmax : 1 ≤ row.maxAttempts)
    (hleave : ∀ m ev, PgSys.evAt hash defs σ m = .db ev → ev.touches id = true → ev.handsOut id = true)
    (hno : ∀ m x, (σ m).act ≠ .db (.handout x))
    (hmono : ∀ m, (σ m).now ≤ (σ (m + 1)).now) (htime : ∀ t, ∃ m, t ≤ (σ m).now)
    (hpoll : ∀ N, ∃ m r d, N ≤ m ∧ defs[r]? = some d ∧ d.name = row.executor ∧ PgSys.evAt hash defs σ m = .pulled r)
    (hgo : ∀ m k s, (PgSys.after hash defs σ m).conc.sessions[k]? = some s → (∀ res, s ≠ .done res) →
      ∃ m', m ≤ m' ∧ (σ m').act = .db (.advance k))
    (habort : ∀ m i, (σ m).act ≠ .db (.abort i))
    (htake : ∀ m r rs k res, (PgSys.after hash defs σ m).runners[r]? = some rs → rs.loading = some k →
      (PgSys.after hash defs σ m).conc.sessions[k]? = some (.done res) → ∃ m', m ≤ m' ∧ (σ m').act = .take r)
    (hsm : ∀ m, (PgSys.evAt hash defs σ m).smooth = true)
    (hends : ∀ m r rs f, (PgSys.after hash defs σ m).runners[r]? = some rs → some f ∈ rs.flights → f.task.id = id →
      ∃ m' ev, m ≤ m' ∧ PgSys.evAt hash defs σ m' = .reported r f.task ev)
    (hbehind : ∀ j : Row, j.id = id → ∃ N, ∀ m, N ≤ m → j ∈ (PgSys.after hash defs σ m).conc.pg.rows →
      ∀ ev, (PgSys.evAt hash defs σ m).back = some ev →
        ev.QueuesBehind j (σ m).now (PgSys.after hash defs σ m).conc.pg.rows)
    (hsnooze : ∃ N, ∀ m, N ≤ m → ∀ ev, (PgSys.evAt hash defs σ m).back = some ev → ev.snoozes id = false) :
    ∃ N, m₀ < N ∧ ∀ m, N ≤ m → ∀ k ∈ (PgSys.after hash defs σ m).conc.pg.rows, k.id = id →
      k.status = .complete ∨ k.status = .cancelled ∨ k.status = .discarded := by
  have R := prun_of (id := id) hleave
  suffices h : ∃ N, m₀ < N ∧ ∀ k ∈ (PgSys.after hash defs σ N).conc.pg.rows, k.id = id → k.status.isOver = true by
    obtain ⟨N, h1, h2⟩ := h
    refine ⟨N, h1, fun m hm k hk hkid => ?_⟩
    have := (R.over (R.inserted hinsert hid h1) h2 hm).2 k hk hkid
    cases hs : k.status <;> rw [hs] at this <;> simp_all [JobStatus.isOver]
  apply Classical.byContradiction
  intro hcontra
  have hlive : ∀ m, m₀ < m → ∃ k ∈ (PgSys.after hash defs σ m).conc.pg.rows, k.id = id ∧ k.status.isOver = false ∧
      k.executor = row.executor := by
    intro m hm
    apply Classical.byContradiction
    intro hn
    refine hcontra ⟨m, hm, fun k hk hkid => ?_⟩
    cases ho : k.status.isOver with
    | true => rfl
    | false => exact absurd ⟨k, hk, hkid, ho, R.executor hinsert hid hm hk hkid⟩ hn
  obtain ⟨Ns, hNs⟩ := hsnooze
  obtain ⟨n, hn⟩ : ∃ n : Nat, row.maxAttempts = n := ⟨row.maxAttempts.toNat, by omega⟩
  -- a failure is recorded again and again
  have again : ∀ m, m₀ < m → Ns ≤ m → ∃ m', m ≤ m' ∧ ∃ ev, (PgSys.evAt hash defs σ m').back = some ev ∧ ev.recordsFailure id = true := by
    intro m hm hN
    obtain ⟨m₁, r, i, c, h1, h2, h3⟩ := R.executed hmono htime hno habort hsm hgo htake hpoll hbehind (R.inserted hinsert hid hm)
      (fun m' hm' => hlive m' (by omega))
    obtain ⟨rs, hr, hsl⟩ := Option.bind_eq_some_iff.mp h2
    obtain ⟨f, hf, rfl⟩ := slot_flight_inv hsl
    obtain ⟨m₂, ev, h4, h5⟩ := hends m₁ r rs f hr (List.mem_of_getElem? hf) h3
    obtain ⟨k, hk, hkid, -⟩ := hlive m₂ (by omega)
    obtain ⟨k', hk', hkid', hko, -⟩ := hlive (m₂ + 1) (by omega)
    have hback : (PgSys.evAt hash defs σ m₂).back = some ev := by rw [h5]; rfl
    refine ⟨m₂, by omega, ev, hback, ?_⟩
    rcases R.reported h5 h3 hk hkid hk' hkid' with h | h | h
    · rw [hko] at h; cases h
    · rw [hNs m₂ (by omega) ev hback] at h; cases h
    · exact h
  have many : ∀ q, ∃ m, m₀ < m ∧ Ns ≤ m ∧ q ≤ pgFailures id (dbHistory (PgSys.past hash defs σ m)) := by
    have grow : ∀ a b, a ≤ b → pgFailures id (dbHistory (PgSys.past hash defs σ a)) ≤
        pgFailures id (dbHistory (PgSys.past hash defs σ b)) := by
      intro a b hab
      induction hab with
      | refl => exact Nat.le_refl _
      | step _ ih =>
        refine Nat.le_trans ih ?_
        rw [past_succ, dbHistory_append, pgFailures, pgFailures, List.countP_append]
        exact Nat.le_add_right _ _
    intro q
    induction q with
    | zero => exact ⟨max (m₀ + 1) Ns, by omega, by omega, Nat.zero_le _⟩
    | succ q ih =>
      obtain ⟨m, h1, h2, h3⟩ := ih
      obtain ⟨m', h4, ev, h5, h6⟩ := again m h1 h2
      refine ⟨m' + 1, by omega, by omega, ?_⟩
      have := grow m m' h4
      rw [past_succ, db_some h5, pgFailures, List.countP_append]
      rw [pgFailures] at h3 this
      simp only [List.countP_cons, List.countP_nil, h6]
      rw [pgFailures] at this
      simp
      omega
  obtain ⟨m, h1, -, h3⟩ := many (n + 1)
  obtain ⟨k, hk, hkid, -⟩ := hlive m h1
  have hb := C68_failures_bounded hash defs (firstActs σ m) id n (by omega) (R.leave m) (R.enqueuedWith hinsert hid hn m)
  have hd := C68_discarded_iff hash defs (firstActs σ m) id n (by omega) (R.leave m) (R.enqueuedWith hinsert hid hn m) k hk hkid
  have := Nat.le_trans hd.2 hb.1
  rw [PgSys.past] at h3
  omega

/-! ## An endless schedule -/

private def pgEndlessStart : List TPSAct :=
  [psAct 5000 (.db (.plain sampleEnq))] ++ psPull 6000 0 0 ++
  [psAct 7000 (.finish 0 0 { ending := .returns (.error "oops" "it broke") }), psAct 8000 (.report 0 0)] ++
  psPull (12 * sec) 0 1 ++
  [psAct (13 * sec) (.finish 0 1 { ending := .returns .done }), psAct (14 * sec) (.report 0 1)]

/-- A job is enqueued, fails once and succeeds; then the runner keeps asking. -/
def pgEndlessDay (n : Nat) : TPSAct :=
  (pgEndlessStart[n]?).getD (psAct (16 * sec + n)
    (if (n - 15) % 4 = 0 then .pull 0 else if (n - 15) % 4 = 3 then .take 0 else .db (.advance (2 + (n - 15) / 4))))

private def doneRows : List Row := (PgSys.after sampleHash [sampleRunner] pgEndlessDay 15).conc.pg.rows

private def quietSys (S : List Session) (l : Option Nat) : PgSys :=
  ⟨⟨⟨doneRows, 1⟩, S⟩, [{ loading := l, flights := [none, none] }]⟩

private theorem doneRows_complete : ∀ r ∈ doneRows, r.status = .complete := by decide +kernel

private theorem quiet_pull (S : List Session) (tie : Int → Nat) (now : Time) :
    (quietSys S none).step sampleHash [sampleRunner] tie now (.pull 0) =
      (.pulled 0, quietSys (S ++ [.handout "mail"]) (some S.length)) := by
  have hb : belowLimit sampleRunner.maxConcurrency 0 = true := rfl
  have hn : sampleRunner.name = "mail" := rfl
  simp [PgSys.step, quietSys, PgConc.step, PgRunner.inFlight, hb, hn]

private theorem quiet_begin (S : List Session) (l : Option Nat) (tie : Int → Nat) (now : Time) :
    (quietSys (S ++ [.handout "mail"]) l).step sampleHash [sampleRunner] tie now (.db (.advance S.length)) =
      (.db .internal, quietSys (S ++ [.looking "mail" now doneRows]) l) := by
  simp [PgSys.step, quietSys, PgConc.step, PgConc.advance]

private theorem quiet_look (S : List Session) (l : Option Nat) (tie : Int → Nat) (now t : Time) :
    (quietSys (S ++ [.looking "mail" t doneRows]) l).step sampleHash [sampleRunner] tie now (.db (.advance S.length)) =
      (.db .noJob, quietSys (S ++ [.done (.job none)]) l) := by
  have hnone : doneRows.filter (Row.ready t "mail") = [] := by
    rw [List.filter_eq_nil_iff]
    intro r hr h
    have hc := doneRows_complete r hr
    rcases (ready_iff'.mp h).waiting with h | h <;> rw [hc] at h <;> cases h
  simp [PgSys.step, quietSys, PgConc.step, PgConc.advance, hnone, sortBy]

private theorem quiet_take (S : List Session) (tie : Int → Nat) (now : Time) :
    (quietSys (S ++ [.done (.job none)]) (some S.length)).step sampleHash [sampleRunner] tie now (.take 0) =
      (.took 0 (.job none) none, quietSys (S ++ [.done (.job none)]) none) := by
  simp [PgSys.step, quietSys]

private def quietSessions (q : Nat) : List Session :=
  (PgSys.after sampleHash [sampleRunner] pgEndlessDay 15).conc.sessions ++ List.replicate q (.done (.job none))

private theorem quietSessions_length (q : Nat) : (quietSessions q).length = 2 + q := by
  have : (PgSys.after sampleHash [sampleRunner] pgEndlessDay 15).conc.sessions.length = 2 := by decide +kernel
  simp [quietSessions, this]

private theorem quietSessions_done (q : Nat) : ∀ s ∈ quietSessions q, ∃ res, s = .done res := by
  intro s hs
  rcases List.mem_append.mp hs with h | h
  · have : ∀ s ∈ (PgSys.after sampleHash [sampleRunner] pgEndlessDay 15).conc.sessions,
        (match s with | .done _ => true | _ => false) = true := by decide +kernel
    have := this s h
    split at this
    · exact ⟨_, rfl⟩
    · cases this
  · exact ⟨_, (List.mem_replicate.mp h).2⟩

private theorem tail_act (n : Nat) (hn : 15 ≤ n) : pgEndlessDay n = psAct (16 * sec + n)
    (if (n - 15) % 4 = 0 then .pull 0 else if (n - 15) % 4 = 3 then .take 0 else .db (.advance (2 + (n - 15) / 4))) := by
  have hlen : pgEndlessStart.length = 15 := by decide
  simp [pgEndlessDay, List.getElem?_eq_none (show pgEndlessStart.length ≤ n by omega)]

private def TailAt (q : Nat) : Prop :=
    PgSys.after sampleHash [sampleRunner] pgEndlessDay (15 + 4 * q) = quietSys (quietSessions q) none ∧
    PgSys.after sampleHash [sampleRunner] pgEndlessDay (15 + 4 * q + 1) =
      quietSys (quietSessions q ++ [.handout "mail"]) (some (2 + q)) ∧
    PgSys.after sampleHash [sampleRunner] pgEndlessDay (15 + 4 * q + 2) =
      quietSys (quietSessions q ++ [.looking "mail" (16 * sec + (15 + 4 * q + 1 : Nat)) doneRows]) (some (2 + q)) ∧
    PgSys.after sampleHash [sampleRunner] pgEndlessDay (15 + 4 * q + 3) =
      quietSys (quietSessions q ++ [.done (.job none)]) (some (2 + q)) ∧
    PgSys.evAt sampleHash [sampleRunner] pgEndlessDay (15 + 4 * q) = .pulled 0 ∧
    PgSys.evAt sampleHash [sampleRunner] pgEndlessDay (15 + 4 * q + 1) = .db .internal ∧
    PgSys.evAt sampleHash [sampleRunner] pgEndlessDay (15 + 4 * q + 2) = .db .noJob ∧
    PgSys.evAt sampleHash [sampleRunner] pgEndlessDay (15 + 4 * q + 3) = .took 0 (.job none) none ∧
    PgSys.after sampleHash [sampleRunner] pgEndlessDay (15 + 4 * (q + 1)) = quietSys (quietSessions (q + 1)) none

private theorem tail_states (q : Nat) : TailAt q := by
  have base : PgSys.after sampleHash [sampleRunner] pgEndlessDay 15 = quietSys (quietSessions 0) none := by
    have h1 : (PgSys.after sampleHash [sampleRunner] pgEndlessDay 15).conc.pg.seq = 1 := by decide +kernel
    have h2 : (PgSys.after sampleHash [sampleRunner] pgEndlessDay 15).runners =
      [{ loading := none, flights := [none, none] }] := rfl
    simp only [quietSys, quietSessions, List.replicate_zero, List.append_nil, doneRows]
    generalize PgSys.after sampleHash [sampleRunner] pgEndlessDay 15 = s at *
    obtain ⟨⟨⟨rows, seq⟩, ss⟩, rs⟩ := s
    simp only at h1 h2
    subst h1 h2
    rfl
  have go : ∀ q, PgSys.after sampleHash [sampleRunner] pgEndlessDay (15 + 4 * q) = quietSys (quietSessions q) none →
      TailAt q := fun q h0 => by
    have l := quietSessions_length q
    have a0 : (pgEndlessDay (15 + 4 * q)).act = .pull 0 := by
      rw [tail_act _ (by omega), if_pos (by omega)]; rfl
    have a1 : (pgEndlessDay (15 + 4 * q + 1)).act = .db (.advance (quietSessions q).length) := by
      rw [tail_act _ (by omega), if_neg (by omega), if_neg (by omega), l, show (15 + 4 * q + 1 - 15) / 4 = q by omega]; rfl
    have n1 : (pgEndlessDay (15 + 4 * q + 1)).now = 16 * sec + (15 + 4 * q + 1 : Nat) := by
      rw [tail_act _ (by omega)]; rfl
    have a2 : (pgEndlessDay (15 + 4 * q + 2)).act = .db (.advance (quietSessions q).length) := by
      rw [tail_act _ (by omega), if_neg (by omega), if_neg (by omega), l, show (15 + 4 * q + 2 - 15) / 4 = q by omega]; rfl
    have a3 : (pgEndlessDay (15 + 4 * q + 3)).act = .take 0 := by
      rw [tail_act _ (by omega), if_neg (by omega), if_pos (by omega)]; rfl
    have s0 := quiet_pull (quietSessions q) (pgEndlessDay (15 + 4 * q)).tie (pgEndlessDay (15 + 4 * q)).now
    have h1 := after_succ sampleHash [sampleRunner] pgEndlessDay (15 + 4 * q)
    rw [h0, a0, s0] at h1
    have s1 := quiet_begin (quietSessions q) (some (quietSessions q).length) (pgEndlessDay (15 + 4 * q + 1)).tie (pgEndlessDay (15 + 4 * q + 1)).now
    have h2 := after_succ sampleHash [sampleRunner] pgEndlessDay (15 + 4 * q + 1)
    rw [h1, a1, s1] at h2
    have s2 := quiet_look (quietSessions q) (some (quietSessions q).length) (pgEndlessDay (15 + 4 * q + 2)).tie (pgEndlessDay (15 + 4 * q + 2)).now
      (pgEndlessDay (15 + 4 * q + 1)).now
    have h3 := after_succ sampleHash [sampleRunner] pgEndlessDay (15 + 4 * q + 2)
    rw [h2, a2, s2] at h3
    have s3 := quiet_take (quietSessions q) (pgEndlessDay (15 + 4 * q + 3)).tie (pgEndlessDay (15 + 4 * q + 3)).now
    have h4 := after_succ sampleHash [sampleRunner] pgEndlessDay (15 + 4 * q + 3)
    rw [h3, a3, s3] at h4
    have e : quietSessions q ++ [.done (.job none)] = quietSessions (q + 1) := by
      simp [quietSessions, List.replicate_succ']
    have step : PgSys.after sampleHash [sampleRunner] pgEndlessDay (15 + 4 * (q + 1)) = quietSys (quietSessions (q + 1)) none := by
      rw [← e]; exact h4
    refine And.intro h0 ⟨by rw [h1, l], by rw [h2, l, n1], by rw [h3, l], ?_, ?_, ?_, ?_, step⟩
    · rw [PgSys.evAt, h0, a0, s0]
    · rw [PgSys.evAt, h1, a1, s1]
    · rw [PgSys.evAt, h2, a2, s2]
    · rw [PgSys.evAt, h3, a3, s3]
  induction q with
  | zero => exact go 0 base
  | succ q ih => exact go (q + 1) ih.2.2.2.2.2.2.2.2

private theorem tail_view (m : Nat) (hm : 15 ≤ m) :
    (PgSys.after sampleHash [sampleRunner] pgEndlessDay m).conc.pg.rows = doneRows ∧
    (PgSys.evAt sampleHash [sampleRunner] pgEndlessDay m = .pulled 0 ∨
      PgSys.evAt sampleHash [sampleRunner] pgEndlessDay m = .db .internal ∨
      PgSys.evAt sampleHash [sampleRunner] pgEndlessDay m = .db .noJob ∨
      PgSys.evAt sampleHash [sampleRunner] pgEndlessDay m = .took 0 (.job none) none) ∧
    (∃ l, (PgSys.after sampleHash [sampleRunner] pgEndlessDay m).runners = [{ loading := l, flights := [none, none] }]) ∧
    (∀ k s, (PgSys.after sampleHash [sampleRunner] pgEndlessDay m).conc.sessions[k]? = some s → (∀ res, s ≠ .done res) →
      (pgEndlessDay m).act = .db (.advance k) ∨ (pgEndlessDay (m + 1)).act = .db (.advance k)) := by
  obtain ⟨q, i, hi, rfl⟩ : ∃ q i, i < 4 ∧ m = 15 + 4 * q + i := ⟨(m - 15) / 4, (m - 15) % 4, by omega, by omega⟩
  obtain ⟨h0, h1, h2, h3, e0, e1, e2, e3, -⟩ := tail_states q
  have lq := quietSessions_length q
  have old : ∀ (k : Nat) (s : Session), (quietSessions q)[k]? = some s → (∀ res, s ≠ .done res) → False := by
    intro k s hs hn
    obtain ⟨res, h⟩ := quietSessions_done q s (List.mem_of_getElem? hs)
    exact hn res h
  have last : ∀ {x : Session} {k : Nat} {s : Session}, (quietSessions q ++ [x])[k]? = some s → (∀ res, s ≠ .done res) → k = 2 + q ∧ s = x := by
    intro x k s hs hn
    rcases Nat.lt_or_ge k (quietSessions q).length with h | h
    · rw [List.getElem?_append_left h] at hs
      exact (old k s hs hn).elim
    · rw [List.getElem?_append_right h] at hs
      have : k - (quietSessions q).length = 0 := by
        apply Classical.byContradiction
        intro hk
        rw [List.getElem?_eq_none (by simp; omega)] at hs
        cases hs
      rw [this] at hs
      simp at hs
      exact ⟨by omega, hs.symm⟩
  match i, hi with
  | 0, _ =>
    rw [Nat.add_zero, h0, e0]
    exact ⟨rfl, Or.inl rfl, ⟨_, rfl⟩, fun k s hs hn => (old k s hs hn).elim⟩
  | 1, _ =>
    rw [h1, e1]
    refine ⟨rfl, Or.inr (Or.inl rfl), ⟨_, rfl⟩, fun k s hs hn => ?_⟩
    obtain ⟨rfl, -⟩ := last hs hn
    left
    rw [tail_act _ (by omega), if_neg (by omega), if_neg (by omega), show (15 + 4 * q + 1 - 15) / 4 = q by omega]
    rfl
  | 2, _ =>
    rw [h2, e2]
    refine ⟨rfl, Or.inr (Or.inr (Or.inl rfl)), ⟨_, rfl⟩, fun k s hs hn => ?_⟩
    obtain ⟨rfl, -⟩ := last hs hn
    left
    rw [tail_act _ (by omega), if_neg (by omega), if_neg (by omega), show (15 + 4 * q + 2 - 15) / 4 = q by omega]
    rfl
  | 3, _ =>
    rw [h3, e3]
    refine ⟨rfl, Or.inr (Or.inr (Or.inr rfl)), ⟨_, rfl⟩, fun k s hs hn => ?_⟩
    exact absurd (last hs hn).2 (hn _)

private def insertsFirst : Option PgEv → Bool
  | some (.inserted row _) => row.id == 1 && row.maxAttempts == 2 && row.executor == "mail"
  | _ => false

private theorem insertsFirst_spec {o : Option PgEv} (h : insertsFirst o = true) :
    ∃ row uc, o = some (.inserted row uc) ∧ row.id = 1 ∧ row.maxAttempts = 2 ∧ row.executor = "mail" := by
  unfold insertsFirst at h
  split at h
  · simp at h
    exact ⟨_, _, rfl, h.1.1, h.1.2, h.2⟩
  · cases h

private def leavesFirst : PSEv → Bool
  | .db ev => !ev.touches 1 || ev.handsOut 1
  | _ => true

private def plainAct : PSAct → Bool
  | .db (.handout _) => false
  | .db (.abort _) => false
  | _ => true

private def advances (k : Nat) : PSAct → Bool
  | .db (.advance i) => i == k
  | _ => false

private theorem advances_spec {k : Nat} {a : PSAct} (h : advances k a = true) : a = .db (.advance k) := by
  unfold advances at h
  split at h
  · simp at h; rw [h]
  · cases h

private def isDone : Option Session → Bool
  | some (.done _) => true
  | none => true
  | _ => false

private theorem isDone_spec {s : Session} (h : isDone (some s) = true) : ∃ res, s = .done res := by
  cases s <;> simp_all [isDone]

private def takes : PSAct → Bool
  | .take r => r == 0
  | _ => false

private theorem takes_spec {a : PSAct} (h : takes a = true) : a = .take 0 := by
  unfold takes at h
  split at h
  · simp at h; rw [h]
  · cases h

private def reportsTask (t : Task) : PSEv → Bool
  | .reported r t' _ => r == 0 && decide (t' = t)
  | _ => false

private theorem reportsTask_spec {t : Task} {e : PSEv} (h : reportsTask t e = true) : ∃ ev, e = .reported 0 t ev := by
  unfold reportsTask at h
  split at h
  · simp at h; rw [h.1, h.2]; exact ⟨_, rfl⟩
  · cases h

/-- The schedule meets all conditions of the theorem, and the job is done in the end. -/
example :
    (∃ N, 0 < N ∧ ∀ m, N ≤ m → ∀ k ∈ (PgSys.after sampleHash [sampleRunner] pgEndlessDay m).conc.pg.rows, k.id = 1 →
      k.status = .complete ∨ k.status = .cancelled ∨ k.status = .discarded) ∧
    (PgSys.after sampleHash [sampleRunner] pgEndlessDay 15).conc.pg.rows.map (fun k => (k.id, k.status, k.attempt)) =
      [(1, .complete, 2)] := by
  have tail := tail_view
  have upto : ∀ {P : Nat → Prop}, (∀ m, m < 15 → P m) → (∀ m, 15 ≤ m → P m) → ∀ m, P m := by
    intro P h1 h2 m
    rcases Nat.lt_or_ge m 15 with h | h
    · exact h1 m h
    · exact h2 m h
  have one : ∀ m, (PgSys.after sampleHash [sampleRunner] pgEndlessDay m).runners.length = 1 :=
    upto (by decide +kernel) fun m hm => by
      obtain ⟨l, h⟩ := (tail m hm).2.2.1
      rw [h]; rfl
  have only : ∀ {m r rs}, (PgSys.after sampleHash [sampleRunner] pgEndlessDay m).runners[r]? = some rs → r = 0 := by
    intro m r rs h
    have := (List.getElem?_eq_some_iff.mp h).1
    rw [one] at this
    omega
  have acts : ∀ m, plainAct (pgEndlessDay m).act = true := upto (by decide +kernel) fun m hm => by
    rw [tail_act m hm]
    simp only [psAct]
    split
    · rfl
    · split <;> rfl
  obtain ⟨row, uc, hrow, hid, hmax, hexec⟩ :=
    insertsFirst_spec (o := (PgSys.evAt sampleHash [sampleRunner] pgEndlessDay 0).back) (by decide +kernel)
  refine ⟨C119_on_postgres sampleHash [sampleRunner] pgEndlessDay 1 0 row uc hrow hid (by omega) ?_ ?_ ?_ ?_ ?_ ?_ ?_ ?_ ?_ ?_
    ?_ ?_, by decide +kernel⟩
  · intro m ev hev ht
    have := upto (P := fun m => leavesFirst (PgSys.evAt sampleHash [sampleRunner] pgEndlessDay m) = true)
      (by decide +kernel) (fun m hm => by rcases (tail m hm).2.1 with h | h | h | h <;> rw [h] <;> rfl) m
    simp only [hev, leavesFirst, ht] at this
    simpa using this
  · intro m x h
    have := acts m
    rw [h] at this
    cases this
  · refine upto (by decide +kernel) fun m hm => ?_
    rw [tail_act m hm, tail_act (m + 1) (by omega)]
    simp only [psAct, Time] at *
    omega
  · intro t
    refine ⟨15 + t.toNat, ?_⟩
    rw [tail_act _ (by omega)]
    simp only [psAct, Time, sec] at *
    omega
  · intro N
    exact ⟨15 + 4 * N, 0, sampleRunner, by omega, rfl, hexec.symm, (tail_states N).2.2.2.2.1⟩
  · intro m k s hs hn
    rcases Nat.lt_or_ge m 15 with h | h
    · have key : ∀ m, m < 15 → ∀ k, k < 2 →
          isDone (PgSys.after sampleHash [sampleRunner] pgEndlessDay m).conc.sessions[k]? = true ∨
          ∃ m', m' < 15 ∧ m ≤ m' ∧ advances k (pgEndlessDay m').act = true := by decide +kernel
      have len : ∀ m, m < 15 → (PgSys.after sampleHash [sampleRunner] pgEndlessDay m).conc.sessions.length ≤ 2 := by
        decide +kernel
      have hk := (List.getElem?_eq_some_iff.mp hs).1
      have hk2 := len m h
      rcases key m h k (by omega) with h1 | ⟨m', -, h1, h2⟩
      · rw [hs] at h1
        obtain ⟨res, h1⟩ := isDone_spec h1
        exact absurd h1 (hn res)
      · exact ⟨m', h1, advances_spec h2⟩
    · rcases (tail m h).2.2.2 k s hs hn with h | h
      · exact ⟨m, Nat.le_refl _, h⟩
      · exact ⟨m + 1, by omega, h⟩
  · intro m i h
    have := acts m
    rw [h] at this
    cases this
  · intro m r rs k res hr _ _
    obtain rfl := only hr
    refine ⟨15 + 4 * m + 3, by omega, ?_⟩
    rw [tail_act _ (by omega), if_neg (by omega), if_pos (by omega)]
    rfl
  · exact upto (by decide +kernel) fun m hm => by
      rcases (tail m hm).2.1 with h | h | h | h <;> rw [h] <;> rfl
  · intro m r rs f hr hf _
    obtain rfl := only hr
    rcases Nat.lt_or_ge m 15 with h | h
    · have key : ∀ m, m < 15 → ∀ rs ∈ (PgSys.after sampleHash [sampleRunner] pgEndlessDay m).runners,
          ∀ f ∈ rs.flights.filterMap id, ∃ m', m' < 15 ∧ m ≤ m' ∧
            reportsTask f.task (PgSys.evAt sampleHash [sampleRunner] pgEndlessDay m') = true := by decide +kernel
      obtain ⟨m', -, h1, h2⟩ := key m h rs (List.mem_of_getElem? hr) f (by simp [hf])
      obtain ⟨ev, h2⟩ := reportsTask_spec h2
      exact ⟨m', ev, h1, h2⟩
    · obtain ⟨l, h⟩ := (tail m h).2.2.1
      rw [h] at hr
      cases hr
      simp at hf
  · intro j _
    refine ⟨15, fun m hm _ ev hev => ?_⟩
    rcases (tail m hm).2.1 with h | h | h | h <;> rw [h] at hev <;> cases hev <;> trivial
  · refine ⟨15, fun m hm ev hev => ?_⟩
    rcases (tail m hm).2.1 with h | h | h | h <;> rw [h] at hev <;> cases hev <;> rfl

end Rexecutor
