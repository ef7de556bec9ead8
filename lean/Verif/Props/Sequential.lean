import Verif.Lemmas.Api
import Verif.Lemmas.PgRow
import Verif.Spec.Samples
import Verif.Spec.Pg

/-!
# C92: calls that do not overlap

The theorems about single calls (`Mem.api`, `Pg.api`) are about calls from start to end.
Here: a call whose steps are not interleaved with those of others does exactly that in the
concurrent models too, whatever calls have been started before and not finished.
-/

namespace Rexecutor

/-! ## In memory -/

/-- All steps of one call, in a backend where other `enqueue` calls may be half done; the
answer the caller gets, and the backend afterwards. -/
def Conc.callAlone (c : Conc) (x : TApi) : Res × Conc :=
  match x.call with
  | .enqueue e =>
    let c' := c.run (⟨x.now, .start e⟩ :: List.replicate 4 ⟨x.now, .advance c.calls.length⟩)
    (match c'.calls[c.calls.length]? with
      | some (.done r) => r
      | _ => .err .io, c')
  | .op o =>
    let y := c.step x.now (.op o)
    (match y.1 with
      | .op _ r => r
      | _ => .err .io, y.2)

/-- Calls one after the other: the answers, and the backend afterwards. -/
def Conc.callsAlone (c : Conc) : List TApi → List Res × Conc
  | [] => ([], c)
  | x :: xs =>
    let y := c.callAlone x
    let z := Conc.callsAlone y.2 xs
    (y.1 :: z.1, z.2)

private theorem callAlone_mem (c : Conc) (x : TApi) :
    (c.callAlone x).1 = (c.mem.api x.now x.call).1 ∧ (c.callAlone x).2.mem = (c.mem.api x.now x.call).2 := by
  unfold Conc.callAlone Mem.api
  cases x.call with
  | enqueue e =>
    have h := enqueue_is_steps x.now c e _ rfl
    simp only [List.replicate]
    rw [h]
    simp
  | op o => exact ⟨rfl, rfl⟩

/-- **C92, in memory.** Whatever has happened and whichever enqueue calls are half done:
calls made one after the other give the answers and leave the jobs, counter and
notifications of the sequential description. -/
theorem C92_memory (c : Conc) (xs : List TApi) :
    (c.callsAlone xs).1 = c.mem.results xs ∧ (c.callsAlone xs).2.mem = c.mem.runApi xs := by
  induction xs generalizing c with
  | nil => exact ⟨rfl, rfl⟩
  | cons x xs ih =>
    obtain ⟨h1, h2⟩ := callAlone_mem c x
    obtain ⟨i1, i2⟩ := ih (c.callAlone x).2
    simp only [Conc.callsAlone, Mem.results, Mem.runApi]
    rw [i1, i2, h1, h2]
    exact ⟨rfl, rfl⟩

/-- Two calls with another enqueue half done (it has its id and has not added its job):
the first gets the next id, the hand-out finds it. -/
example :
    let c := Conc.run {} [⟨0, .start sampleEnq⟩, ⟨0, .advance 0⟩]
    (c.callsAlone [⟨1, .enqueue sampleUnique⟩, ⟨2, .op (.load "mail")⟩, ⟨3, .op (.complete 1)⟩, ⟨3, .op (.complete 9)⟩]).1 =
      [.id 1, .job (some { sampleJob 1 with status := .executing, attempt := 1, insertedAt := 1, attemptedAt := some 2 }),
        .unit, .err (.jobNotFound 9)] := by decide +kernel

/-! ## On Postgres -/

/-- No session holds a lock, on a row or an advisory one. Sessions may be about to run
their statement or in the middle of the hand-out statement's search. -/
def PgConc.Unlocked (c : PgConc) : Prop := ∀ s ∈ c.sessions, s.rowLock = none ∧ s.holder = none

instance (c : PgConc) : Decidable c.Unlocked := by unfold PgConc.Unlocked; infer_instance

/-- All steps of one call, in a database where other sessions may be open; the answer the
caller gets, and the database afterwards. -/
def PgConc.callAlone (hash : HashFn) (tie : Int → Nat) (c : PgConc) (x : TApi) : Res × PgConc :=
  let answer (c' : PgConc) : Res := match c'.sessions[c.sessions.length]? with
    | some (.done r) => r
    | _ => .err .io
  match x.call with
  | .enqueue e =>
    match e.criteria with
    | none =>
      let y := c.step hash tie x.now (.plain e)
      (match y.1 with
        | .inserted row _ => .id row.id
        | _ => .err .badState, y.2)
    | some uc =>
      let c' := PgConc.run hash c (⟨x.now, tie, .unique e uc⟩ :: List.replicate 4 ⟨x.now, tie, .advance c.sessions.length⟩)
      (answer c', c')
  | .op (.load ex) =>
    let c' := PgConc.run hash c (⟨x.now, tie, .handout ex⟩ :: List.replicate 3 ⟨x.now, tie, .advance c.sessions.length⟩)
    (answer c', c')
  | .op o =>
    let y := c.step hash tie x.now (.stmt o)
    (match y.1 with
      | .stmt _ r => r
      | _ => .err .io, y.2)

/-- Calls one after the other: the answers, and the database afterwards. -/
def PgConc.callsAlone (hash : HashFn) (ties : Nat → Int → Nat) (c : PgConc) : List TApi → List Res × PgConc
  | [] => ([], c)
  | x :: xs =>
    let y := c.callAlone hash (ties xs.length) x
    let z := PgConc.callsAlone hash ties y.2 xs
    (y.1 :: z.1, z.2)

private theorem unlocked_row {c : PgConc} (h : c.Unlocked) (id : Int) : c.rowLocked id = false := by
  unfold PgConc.rowLocked
  rw [List.any_eq_false]
  intro s hs
  rw [(h s hs).1]
  simp

private theorem unlocked_advisory {c : PgConc} (hash : HashFn) (h : c.Unlocked) (a : Int) : c.advisoryLocked hash a = false := by
  unfold PgConc.advisoryLocked
  rw [List.any_eq_false]
  intro s hs
  rw [(h s hs).2]
  simp

private theorem unlocked_snoc {c : PgConc} {p : Pg} (h : c.Unlocked) {s : Session} (h1 : s.rowLock = none) (h2 : s.holder = none) :
    PgConc.Unlocked { pg := p, sessions := c.sessions ++ [s] } := by
  intro t ht
  rcases List.mem_append.mp ht with ht | ht
  · exact h t ht
  · rw [List.mem_singleton] at ht; subst ht; exact ⟨h1, h2⟩

private theorem advance_last (hash : HashFn) (tie : Int → Nat) (now : Time) (p : Pg) (ss : List Session) (s : Session) :
    (PgConc.step hash tie now { pg := p, sessions := ss ++ [s] } (.advance ss.length)).2 =
      { pg := (PgConc.advance hash tie now { pg := p, sessions := ss ++ [s] } s).2.2,
        sessions := ss ++ [(PgConc.advance hash tie now { pg := p, sessions := ss ++ [s] } s).2.1] } := by
  simp [PgConc.step]

private theorem handout_alone (hash : HashFn) (tie : Int → Nat) (now : Time) (x : String) (c : PgConc) (h : c.Unlocked)
    (hn : (rowIds c.pg.rows).Nodup) :
    PgConc.run hash c (⟨now, tie, .handout x⟩ :: List.replicate 3 ⟨now, tie, .advance c.sessions.length⟩) =
      { pg := (c.pg.load tie now x).2, sessions := c.sessions ++ [.done (c.pg.load tie now x).1] } := by
  simp only [List.replicate, PgConc.run]
  have h0 : (c.step hash tie now (.handout x)).2 = { pg := c.pg, sessions := c.sessions ++ [.handout x] } := rfl
  rw [h0, advance_last]
  simp only [PgConc.advance]
  rw [advance_last]
  have hu : PgConc.Unlocked { pg := c.pg, sessions := c.sessions ++ [.looking x now c.pg.rows] } := unlocked_snoc h rfl rfl
  cases hs : sortBy (Row.before tie) (c.pg.rows.filter (Row.ready now x)) with
  | nil =>
    simp only [PgConc.advance, hs, List.find?_nil]
    rw [advance_last]
    simp only [PgConc.advance, Pg.load, hs]
  | cons r rs =>
    have hr : r ∈ c.pg.rows.filter (Row.ready now x) := by
      have : r ∈ sortBy (Row.before tie) (c.pg.rows.filter (Row.ready now x)) := by rw [hs]; simp
      exact (sortBy_perm _ _).mem_iff.mp this
    rw [List.mem_filter] at hr
    have hc : (fun r : Row => !PgConc.rowLocked { pg := c.pg, sessions := c.sessions ++ [.looking x now c.pg.rows] } r.id &&
        c.pg.rows.any fun r' => r'.id == r.id && r'.ready now x) r = true := by
      show (!PgConc.rowLocked _ r.id && c.pg.rows.any fun r' => r'.id == r.id && r'.ready now x) = true
      rw [unlocked_row hu]
      simp only [Bool.not_false, Bool.true_and, List.any_eq_true]
      exact ⟨r, hr.1, by simp [hr.2]⟩
    simp only [PgConc.advance, hs]
    rw [List.find?_cons_of_pos (p := fun r : Row => !PgConc.rowLocked { pg := c.pg, sessions := c.sessions ++ [.looking x now c.pg.rows] } r.id &&
        c.pg.rows.any fun r' => r'.id == r.id && r'.ready now x) hc]
    simp only
    rw [advance_last]
    have hf : c.pg.rows.find? (fun r' => r'.id == r.id) = some r := by
      cases hf : c.pg.rows.find? (fun r' => r'.id == r.id) with
      | none =>
        rw [List.find?_eq_none] at hf
        exact absurd (hf r hr.1) (by simp)
      | some r' =>
        have := List.find?_some hf
        simp only [beq_iff_eq] at this
        rw [row_unique hn (List.mem_of_find?_eq_some hf) hr.1 this]
    simp only [PgConc.advance, hf, Pg.load, hs]
    cases (r.markExecuting now).decode <;> rfl

private theorem unique_alone (hash : HashFn) (tie : Int → Nat) (now : Time) (e : EnqueuableJob) (uc : Criteria) (c : PgConc)
    (h : c.Unlocked) :
    PgConc.run hash c (⟨now, tie, .unique e uc⟩ :: List.replicate 4 ⟨now, tie, .advance c.sessions.length⟩) =
      { pg := (c.pg.insertUnique hash tie now e uc).2,
        sessions := c.sessions ++ [.done (c.pg.insertUnique hash tie now e uc).1] } := by
  simp only [List.replicate, PgConc.run]
  have h0 : (c.step hash tie now (.unique e uc)).2 = { pg := c.pg, sessions := c.sessions ++ [.unique e uc now] } := rfl
  rw [h0, advance_last]
  have hu : PgConc.Unlocked { pg := c.pg, sessions := c.sessions ++ [.unique e uc now] } := unlocked_snoc h rfl rfl
  simp only [PgConc.advance, unlocked_advisory hash hu, Bool.false_eq_true, if_false]
  rw [advance_last]
  have hloc : ∀ (p : Pg) (s : Session), s.rowLock = none → ∀ id,
      PgConc.rowLocked { pg := p, sessions := c.sessions ++ [s] } id = false := by
    intro p s hs id
    unfold PgConc.rowLocked
    rw [List.any_eq_false]
    intro t ht
    rcases List.mem_append.mp ht with ht | ht
    · rw [(h t ht).1]; simp
    · rw [List.mem_singleton] at ht; subst ht; rw [hs]; simp
  cases hs : sortBy (fun a b => decide (tie a.id ≤ tie b.id)) (c.pg.rows.filter fun r => uc.finds e.executor e.scheduledAt r) with
  | nil =>
    simp only [PgConc.advance, hs, Pg.insertUnique, Pg.insert]
    rw [advance_last]
    simp only [PgConc.advance]
    split
    · rw [advance_last]; simp only [PgConc.advance]
    · rw [advance_last]; simp only [PgConc.advance]; rfl
  | cons r rs =>
    simp only [PgConc.advance, hs, Pg.insertUnique]
    rw [advance_last]
    simp only [PgConc.advance]
    cases hc : uc.onConflict with
    | doNothing =>
      simp only
      rw [advance_last]; simp only [PgConc.advance]
    | replace rep =>
      have hl := hloc c.pg (.found e uc r.id r.status) rfl r.id
      simp only [hl, Bool.false_eq_true, if_false]
      split
      · split
        · rw [advance_last]; simp only [PgConc.advance]
        · rw [advance_last]; simp only [PgConc.advance]
      · rw [advance_last]; simp only [PgConc.advance]

private theorem callAlone_pg (hash : HashFn) (tie : Int → Nat) (c : PgConc) (x : TApi) (h : c.Unlocked)
    (hn : (rowIds c.pg.rows).Nodup) :
    (c.callAlone hash tie x).1 = (c.pg.api hash tie x.now x.call).1 ∧
    (c.callAlone hash tie x).2.pg = (c.pg.api hash tie x.now x.call).2 ∧
    (c.callAlone hash tie x).2.Unlocked := by
  unfold PgConc.callAlone Pg.api
  have stmt : ∀ o : Op, (∀ ex, o ≠ .load ex) →
      c.step hash tie x.now (.stmt o) = (.stmt o (c.pg.step tie x.now o).1, { c with pg := (c.pg.step tie x.now o).2 }) := by
    intro o ho
    have hf : (o.needs tie x.now c.pg.rows).any c.rowLocked = false := by
      rw [List.any_eq_false]; intro i _; rw [unlocked_row h]; simp
    cases o with
    | load ex => exact absurd rfl (ho ex)
    | _ => simp only [PgConc.step, hf, Bool.false_eq_true, if_false]
  cases x.call with
  | enqueue e =>
    cases hc : e.criteria with
    | none =>
      simp only [hc, Pg.enqueue, Pg.insert, PgConc.step]
      by_cases hf : c.pg.seq ≥ 2147483647
      · simp only [hf, if_true]; exact ⟨trivial, trivial, h⟩
      · simp only [hf, if_false]; exact ⟨rfl, trivial, h⟩
    | some uc =>
      simp only [hc, Pg.enqueue]
      rw [unique_alone hash tie x.now e uc c h]
      simp only [List.getElem?_append_right (Nat.le_refl _), Nat.sub_self, List.getElem?_cons_zero, true_and]
      exact unlocked_snoc h rfl rfl
  | op o =>
    cases o with
    | load ex =>
      simp only
      rw [handout_alone hash tie x.now ex c h hn]
      simp only [List.getElem?_append_right (Nat.le_refl _), Nat.sub_self, List.getElem?_cons_zero, Pg.step, true_and]
      exact unlocked_snoc h rfl rfl
    | _ => simp only; rw [stmt _ (by simp)]; exact ⟨rfl, rfl, h⟩

private theorem callAlone_inv (hash : HashFn) (tie : Int → Nat) (c : PgConc) (x : TApi) (H : PgInv c) :
    PgInv (c.callAlone hash tie x).2 := by
  unfold PgConc.callAlone
  cases x.call with
  | enqueue e =>
    cases hc : e.criteria with
    | none => simp only [hc]; exact H.step ..
    | some uc => simp only [hc]; exact H.run ..
  | op o =>
    cases o with
    | load ex => exact H.run ..
    | _ => exact H.step ..

private theorem callsAlone_pg (hash : HashFn) (ties : Nat → Int → Nat) (xs : List TApi) (c : PgConc) (H : PgInv c) (h : c.Unlocked) :
    (c.callsAlone hash ties xs).1 = c.pg.results hash ties xs ∧
    (c.callsAlone hash ties xs).2.pg = c.pg.runApi hash ties xs ∧ (c.callsAlone hash ties xs).2.Unlocked := by
  induction xs generalizing c with
  | nil => exact ⟨rfl, rfl, h⟩
  | cons x xs ih =>
    obtain ⟨h1, h2, h3⟩ := callAlone_pg hash (ties xs.length) c x h H.nodup
    obtain ⟨i1, i2, i3⟩ := ih _ (callAlone_inv hash (ties xs.length) c x H) h3
    simp only [PgConc.callsAlone, Pg.results, Pg.runApi]
    rw [i1, i2, h1, h2]
    exact ⟨rfl, rfl, i3⟩

/-- **C92, Postgres.** Whatever has happened and whichever sessions are open, as long as
none of them holds a lock: calls made one after the other give the answers and leave the
table of the sequential description, and hold no lock afterwards. -/
theorem C92_postgres (hash : HashFn) (ties : Nat → Int → Nat) (as : List TPgAct) (xs : List TApi)
    (h : (PgConc.run hash {} as).Unlocked) :
    ((PgConc.run hash {} as).callsAlone hash ties xs).1 = (PgConc.run hash {} as).pg.results hash ties xs ∧
    ((PgConc.run hash {} as).callsAlone hash ties xs).2.pg = (PgConc.run hash {} as).pg.runApi hash ties xs ∧
    ((PgConc.run hash {} as).callsAlone hash ties xs).2.Unlocked :=
  callsAlone_pg hash ties xs _ (pgInv hash as) h

/-- An open hand-out statement and an open insert do not disturb the calls. -/
example :
    let c := PgConc.run sampleHash {} [pgAct 1 (.plain sampleEnq), pgAct 2 (.handout "mail"), pgAct 2 (.advance 0),
      pgAct 3 (.unique sampleEnq { key := some 4, executor := true, duration := none, statuses := [], onConflict := .doNothing })]
    c.Unlocked ∧
    (c.callsAlone sampleHash (fun _ => Int.toNat) [⟨4, .enqueue sampleUnique⟩, ⟨5, .enqueue sampleEnq⟩, ⟨6, .op (.complete 2)⟩, ⟨7, .op (.complete 9)⟩]).1 =
      [.id 1, .id 2, .unit, .err (.jobNotFound 9)] := by decide +kernel

/-- An open lock is waited for: while a session holds the lock on the row, completing that
job does not come back. Without the hypothesis the answers differ. -/
theorem C92_locked_differs : ∃ (hash : HashFn) (ties : Nat → Int → Nat) (as : List TPgAct) (xs : List TApi),
    ((PgConc.run hash {} as).callsAlone hash ties xs).1 ≠ (PgConc.run hash {} as).pg.results hash ties xs :=
  ⟨sampleHash, fun _ i => i.toNat,
    [pgAct 1 (.plain sampleEnq), pgAct 2 (.handout sampleEnq.executor), pgAct 200000000 (.advance 0), pgAct 200000000 (.advance 0)],
    [⟨200000000, .op (.complete 1)⟩], by decide +kernel⟩

end Rexecutor
