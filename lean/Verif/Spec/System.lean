import Verif.Model.System
import Verif.Spec.History

/-! Vocabulary for statements about runners on one backend. -/

namespace Rexecutor

/-- What the backend did in a step of the system, if anything. -/
def SEv.back : SEv → Option Ev
  | .client ev => some ev
  | .pulled _ ev _ => some ev
  | .reported _ _ ev => some ev
  | _ => none

/-- What the backend did in a history of the system. -/
def backHistory (h : List TSEv) : List TEv :=
  h.filterMap fun e => e.ev.back.map fun ev => { now := e.now, ev := ev }

/-- Runner `r` started this execution. -/
def SEv.starts (r : Nat) (t : Task) : SEv → Bool
  | .pulled r' _ (some (.running t')) => r' == r && t' == t
  | _ => false

/-- This execution of runner `r` ended. -/
def SEv.ends (r : Nat) (t : Task) : SEv → Bool
  | .ended r' t' _ _ => r' == r && t' == t
  | _ => false

/-- This execution of runner `r` made its backend call. -/
def SEv.reports (r : Nat) (t : Task) : SEv → Bool
  | .reported r' t' _ => r' == r && t' == t
  | _ => false

/-- Runner `r` panicked. -/
def SEv.crashes (r : Nat) : SEv → Bool
  | .pulled r' _ (some .runnerPanics) => r' == r
  | .ended r' _ _ none => r' == r
  | _ => false

/-- A runner started an execution of job `id`. -/
def SEv.executes (id : Int) : SEv → Bool
  | .pulled _ _ (some (.running t)) => t.id == id
  | _ => false

/-- The event is the shutdown. -/
def SEv.isShutdown : SEv → Bool
  | .shutdown => true
  | _ => false

/-- Number of events of a kind in a history. -/
def countEv (p : SEv → Bool) (h : List TSEv) : Nat := h.countP fun e => p e.ev

/-- A client other than the runners takes, finishes, retries, snoozes, reruns, updates
or replaces job `id`. -/
def SEv.clientTouches (id : Int) : SEv → Bool
  | .client ev => ev.handsOut id || ev.finishes id || ev.putsBack id
  | _ => false

/-- Other clients leave job `id` alone. (They may enqueue and prune it.) -/
def ClientsLeave (id : Int) (h : List TSEv) : Prop := ∀ e ∈ h, e.ev.clientTouches id = false

/-- The execution ended in a failure: an error, a panic, an abort or a timeout. -/
def Joined.isFailure : Joined → Bool
  | .result (.error _ _) => true
  | .result _ => false
  | .joinError _ _ => true
  | .elapsed _ => true

/-- An execution of job `id` ended in a failure. -/
def SEv.failsRun (id : Int) : SEv → Bool
  | .ended _ t j _ => t.id == id && j.isFailure
  | _ => false

/-- A failure of job `id` was recorded: a successful retry or discard. -/
def Ev.recordsFailure (id : Int) : Ev → Bool
  | .op (.retryable i _ _) .unit => i == id
  | .op (.discarded i _) .unit => i == id
  | _ => false

/-- Number of recorded failures of job `id`. -/
def failures (id : Int) (h : List TEv) : Nat := h.countP fun e => e.ev.recordsFailure id

/-- The executions runner `r` has in flight. -/
def Sys.flightsOf (s : Sys) (r : Nat) : List Flight :=
  match s.runners[r]? with
  | some rs => rs.flights
  | none => []

/-- An edit of a job by a client other than the runners that respects the attempts: the
attempt number stays, `max_attempts` stays or is set above the attempts made, and the status
changes only while no runner is busy with the job, not to `Executing`, and to a waiting
status only if an attempt is left. The numbers are those before
and after the edit. -/
def EditOk (busy : Prop) (st : JobStatus) (att max : Int) (st' : JobStatus) (att' max' : Int) : Prop :=
  att' = att ∧ (max' = max ∨ att < max') ∧
  (st' = st ∨ (¬ busy ∧ st' ≠ .executing ∧ (st' = .scheduled ∨ st' = .retryable → att < max')))

instance (busy : Prop) [Decidable busy] (st : JobStatus) (att max : Int) (st' : JobStatus) (att' max' : Int) :
    Decidable (EditOk busy st att max st' att' max') := by unfold EditOk; infer_instance

/-- Whatever other clients do to job `id` in this step respects its attempts. -/
def GoodEdit (id : Int) (s : Sys) (now : Time) : SAct → Prop
  | .client b => ∀ k ∈ s.conc.mem.jobs, ∀ k' ∈ (s.conc.step now b).2.mem.jobs,
      k.job.id = id → k'.job.id = id →
      EditOk (∃ rs ∈ s.runners, ∃ f ∈ rs.flights, f.task.id = id)
        k.job.status k.job.attempt k.job.maxAttempts k'.job.status k'.job.attempt k'.job.maxAttempts
  | _ => True

instance (id : Int) (s : Sys) (now : Time) (a : SAct) : Decidable (GoodEdit id s now a) := by
  unfold GoodEdit; split <;> infer_instance

/-- Whatever other clients do to job `id` in this schedule respects its attempts. -/
def GoodEdits (defs : List Runner) (id : Int) (s : Sys) : List TSAct → Prop
  | [] => True
  | a :: as => GoodEdit id s a.now a.act ∧ GoodEdits defs id (s.step defs a.now a.act).2 as

instance goodEditsDec (defs : List Runner) (id : Int) : (s : Sys) → (as : List TSAct) → Decidable (GoodEdits defs id s as)
  | _, [] => inferInstanceAs (Decidable True)
  | s, a :: as =>
    have := goodEditsDec defs id (s.step defs a.now a.act).2 as
    inferInstanceAs (Decidable (GoodEdit id s a.now a.act ∧ _))

end Rexecutor
