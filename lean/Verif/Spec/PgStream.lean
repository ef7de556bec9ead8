import Verif.Model.PgStream

/-! Vocabulary for statements about Postgres notifications and streams. -/

namespace Rexecutor

/-- The call is about the one job with this id and may change it. -/
inductive Addresses (id : Int) : Op → Prop where
  | complete : Addresses id (.complete id)
  | retryable (t : Time) (e : ExecError) : Addresses id (.retryable id t e)
  | discarded (e : ExecError) : Addresses id (.discarded id e)
  | cancelled (e : ExecError) : Addresses id (.cancelled id e)
  | snoozed (t : Time) : Addresses id (.snoozed id t)
  | rerun : Addresses id (.rerun id)
  | update (j : Job) (h : j.id = id) : Addresses id (.update j)

/-- The event is the commit of an insert or update that left row `r` in the table. -/
inductive Commits (after : List Row) : PgEv → Row → Prop where
  | inserted (r : Row) (uc : Option Criteria) : Commits after (.inserted r uc) r
  | handedOut (r : Row) (res : Res) : Commits after (.handedOut r res) r
  | replaced (r : Row) (h : r ∈ after) : Commits after (.replaced r.id) r
  | call (o : Op) (res : Res) (r : Row) (h : r ∈ after) (ho : Addresses r.id o) : Commits after (.stmt o res) r

/-- The row is waiting to be executed. -/
def Row.Waiting (r : Row) : Prop := r.status = .scheduled ∨ r.status = .retryable

instance (r : Row) : Decidable r.Waiting := by unfold Row.Waiting; infer_instance

/-- The scheduled times of the rows of executor `x` that the events, one after the other,
committed and left waiting. -/
inductive News (x : String) : List NetEv → List Time → Prop where
  | nil : News x [] []
  | news (ev : PgEv) (rows : List Row) (r : Row) (evs : List NetEv) (ts : List Time) (h : Commits rows ev r)
      (hw : r.Waiting) (hx : r.executor = x) (hs : News x evs ts) : News x (.db ev rows :: evs) (r.scheduledAt :: ts)
  | none (ev : PgEv) (rows : List Row) (evs : List NetEv) (ts : List Time)
      (h : ∀ r, Commits rows ev r → r.Waiting → r.executor ≠ x) (hs : News x evs ts) : News x (.db ev rows :: evs) ts
  | other (ev : NetEv) (evs : List NetEv) (ts : List Time) (h : ∀ e rows, ev ≠ .db e rows) (hs : News x evs ts) :
      News x (ev :: evs) ts

/-- The messages stream `i` took from its channel. -/
def receivedBy (i : Nat) (evs : List NetEv) : List Time :=
  evs.filterMap fun ev => match ev with
    | .received k t => if k = i then some t else none
    | _ => none

/-- The notifications for executor `x` that a node has not handled yet. -/
def PgNode.pending (x : String) (n : PgNode) : List Time :=
  (n.inbox.filter fun m => m.1 == x).map (·.2)

/-- No notification is lost on node `n`: its connection does not break. -/
def Unbroken (n : Nat) (as : List TNetAct) : Prop := ∀ a ∈ as, a.act ≠ .reconnect n

/-- An action at time `t` where the database prefers small ids. -/
def netAct (t : Time) (a : NetAct) : TNetAct := ⟨t, Int.toNat, a⟩

end Rexecutor
