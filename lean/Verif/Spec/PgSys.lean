import Verif.Model.PgSys
import Verif.Spec.PgHistory
import Verif.Spec.System

/-! # Vocabulary for statements about runners on Postgres -/

namespace Rexecutor

/-- What the database did in a step of the system, if anything. -/
def PSEv.back : PSEv → Option PgEv
  | .db ev => some ev
  | .pulled _ => some .internal
  | .reported _ _ ev => some ev
  | _ => none

/-- What the database did in a history of the system. -/
def dbHistory (h : List TPSEv) : List TPgEv :=
  h.filterMap fun e => e.ev.back.map fun ev => { now := e.now, ev := ev }

/-- Other clients leave job `id` alone. They may enqueue and prune it, and a stream may
be handed it. -/
def OthersLeave (id : Int) (h : List TPSEv) : Prop :=
  ∀ e ∈ h, ∀ ev, e.ev = .db ev → ev.touches id = true → ev.handsOut id = true

/-- An execution of job `id` ended in a failure. -/
def PSEv.failsRun (id : Int) : PSEv → Bool
  | .ended _ t j _ => t.id == id && j.isFailure
  | _ => false

/-- A runner started an execution of job `id`. -/
def PSEv.executes (id : Int) : PSEv → Bool
  | .took _ _ (some (.running t)) => t.id == id
  | _ => false

/-- Number of events of a kind in a history. -/
def countPg (p : PSEv → Bool) (h : List TPSEv) : Nat := h.countP fun e => p e.ev

/-- A failure of job `id` was recorded: a successful retry or discard. -/
def PgEv.recordsFailure (id : Int) : PgEv → Bool
  | .stmt (.retryable i _ _) .unit => i == id
  | .stmt (.discarded i _) .unit => i == id
  | _ => false

/-- Number of recorded failures of job `id`. -/
def pgFailures (id : Int) (h : List TPgEv) : Nat := h.countP fun e => e.ev.recordsFailure id

/-- Job `id`, whenever it is inserted, is inserted with this number of attempts. -/
def PgEnqueuedWith (id : Int) (n : Nat) (h : List TPgEv) : Prop :=
  ∀ e ∈ h, ∀ row uc, e.ev = .inserted row uc → row.id = id → row.maxAttempts = n

/-- Someone has job `id`: some runner has an execution of it in flight, or its stream has
received it. -/
def PgSys.hasJob (s : PgSys) (id : Int) : Prop :=
  ∃ rs ∈ s.runners, (∃ f, some f ∈ rs.flights ∧ f.task.id = id) ∨
    ∃ k j, rs.loading = some k ∧ s.conc.sessions[k]? = some (.done (.job (some j))) ∧ j.id = id

/-- No process ends, no connection fails, no row is unreadable, no runner panics, and
no runner is told to stop while its stream waits for a hand-out statement. -/
def PSEv.smooth : PSEv → Bool
  | .killed _ => false
  | .lost _ _ => false
  | .dropped _ waiting => !waiting
  | .stopped _ waiting => !waiting
  | .took _ _ (some (.running _)) => true
  | .took _ _ (some _) => false
  | .ended _ _ _ none => false
  | .db (.handedOut _ (.err _)) => false
  | _ => true

instance hasJobDec (s : PgSys) (id : Int) : Decidable (s.hasJob id) :=
  decidable_of_iff ((s.runners.any fun rs => (rs.flights.any fun f => match f with | some f => f.task.id == id | none => false) ||
      match rs.loading with
      | none => false
      | some k => match s.conc.sessions[k]? with
        | some (.done (.job (some j))) => j.id == id
        | _ => false) = true) <| by
    unfold PgSys.hasJob
    rw [List.any_eq_true]
    refine exists_congr fun rs => and_congr_right fun _ => ?_
    rw [Bool.or_eq_true]
    refine or_congr ?_ ?_
    · rw [List.any_eq_true]
      constructor
      · rintro ⟨f, h1, h2⟩
        cases f with
        | none => cases h2
        | some f => exact ⟨f, h1, by simpa using h2⟩
      · rintro ⟨f, h1, h2⟩; exact ⟨some f, h1, by simpa using h2⟩
    · constructor
      · intro h
        split at h
        · cases h
        · rename_i k hk
          split at h
          · rename_i j hj; exact ⟨k, j, hk, hj, by simpa using h⟩
          · cases h
      · rintro ⟨k, j, h1, h2, h3⟩
        rw [h1]; simp only; rw [h2]; simpa using h3

/-- Whatever is done to the row of job `id` in this step other than by runners respects its
attempts; hand-outs are not restricted. -/
def PgGoodEdit (hash : HashFn) (id : Int) (s : PgSys) (tie : Int → Nat) (now : Time) : PSAct → Prop
  | .db b => (s.conc.step hash tie now b).1.handsOut id = false →
      ∀ r ∈ s.conc.pg.rows, ∀ r' ∈ (s.conc.step hash tie now b).2.pg.rows, r.id = id → r'.id = id →
      EditOk (s.hasJob id) r.status r.attempt r.maxAttempts r'.status r'.attempt r'.maxAttempts
  | _ => True

instance (hash : HashFn) (id : Int) (s : PgSys) (tie : Int → Nat) (now : Time) (a : PSAct) :
    Decidable (PgGoodEdit hash id s tie now a) := by
  unfold PgGoodEdit; split <;> infer_instance

/-- Whatever is done to the row of job `id` in this schedule other than by runners respects
its attempts. -/
def PgGoodEdits (hash : HashFn) (defs : List Runner) (id : Int) (s : PgSys) : List TPSAct → Prop
  | [] => True
  | a :: as => PgGoodEdit hash id s a.tie a.now a.act ∧ PgGoodEdits hash defs id (s.step hash defs a.tie a.now a.act).2 as

instance pgGoodEditsDec (hash : HashFn) (defs : List Runner) (id : Int) :
    (s : PgSys) → (as : List TPSAct) → Decidable (PgGoodEdits hash defs id s as)
  | _, [] => inferInstanceAs (Decidable True)
  | s, a :: as =>
    have := pgGoodEditsDec hash defs id (s.step hash defs a.tie a.now a.act).2 as
    inferInstanceAs (Decidable (PgGoodEdit hash id s a.tie a.now a.act ∧ _))

end Rexecutor
