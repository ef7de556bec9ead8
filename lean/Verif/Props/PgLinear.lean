import Verif.Lemmas.PgRow
import Verif.Spec.Samples
import Verif.Spec.Pg

/-!
# C117: concurrent calls on Postgres as if made one after another

In memory they are (C114). On Postgres they are not, since a hand-out reads the table as it
was when its statement began, and skips rows locked by others. Hand-outs among themselves,
and next to calls that finish jobs, are.
-/

namespace Rexecutor

/-! ## Specification -/

/-- A call that has returned: the positions in the schedule where it began and ended, and the
answer. -/
structure MadeCall where
  began : Nat
  ended : Nat
  call : Api
  answer : Res

/-- The call that begins with an action at position `n` and takes several steps. -/
def PgAct.begins (n : Nat) : PgAct → List (Nat × Api)
  | .handout x => [(n, .op (.load x))]
  | .unique e _ => [(n, .enqueue e)]
  | _ => []

/-- The call that ends with an action at position `n`, which leads from `c` to `c'`. Calls that
are given up have no answer and are left out. -/
def callsEnding (n : Nat) (c c' : PgConc) (ev : PgEv) (begun : List (Nat × Api)) : PgAct → List MadeCall
  | .advance i =>
    match c.sessions[i]?, c'.sessions[i]?, begun[i]? with
    | some (.done _), _, _ => []
    | _, some (.done r), some b => [⟨b.1, n, b.2, r⟩]
    | _, _, _ => []
  | .plain e =>
    match ev with
    | .inserted row _ => [⟨n, n, .enqueue e, .id row.id⟩]
    | _ => [⟨n, n, .enqueue e, .err .badState⟩]
  | .stmt o =>
    match ev with
    | .stmt _ r => [⟨n, n, .op o, r⟩]
    | _ => []
  | _ => []

/-- The calls that return in a schedule, which begins at position `n` with the calls `begun`
under way. -/
def callsMade (hash : HashFn) (n : Nat) (c : PgConc) (begun : List (Nat × Api)) : List TPgAct → List MadeCall
  | [] => []
  | a :: as =>
    let x := c.step hash a.tie a.now a.act
    callsEnding n c x.2 x.1 begun a.act ++ callsMade hash (n + 1) x.2 (begun ++ a.act.begins n) as

/-- The calls that return in schedule `as` from a state in which no call is under way. -/
def PgConc.callsReturned (hash : HashFn) (c : PgConc) (as : List TPgAct) : List MadeCall :=
  callsMade hash 0 c (c.sessions.map fun _ => (0, .op .notifyAll)) as

/-- No call is under way. -/
def PgConc.Idle (c : PgConc) : Prop := ∀ s ∈ c.sessions, ∃ r, s = .done r

/-- Making the calls one after another in this order, each at the time given, explains a
schedule: they are the calls that returned; a call that had ended before another began comes
first; the time of a call is the time of an action while it was under way; and for some choices
of the database the answers are those received, and the table is the one left behind. -/
structure Explains (hash : HashFn) (c : PgConc) (as : List TPgAct) (order : List (MadeCall × Time)) : Prop where
  calls : (order.map (·.1)).Perm (c.callsReturned hash as)
  inTime : order.Pairwise fun a b => ¬ b.1.ended < a.1.began
  times : ∀ x ∈ order, ∃ n a, as[n]? = some a ∧ x.1.began ≤ n ∧ n ≤ x.1.ended ∧ a.now = x.2
  same : ∃ ties, c.pg.results hash ties (order.map fun x => ⟨x.2, x.1.call⟩) = order.map (·.1.answer) ∧
    c.pg.runApi hash ties (order.map fun x => ⟨x.2, x.1.call⟩) = (c.run hash as).pg

/-- The calls of `C117_calm_partial`: hand-outs, none of which is given up; plain enqueues, failures
and snoozes whose job is `late`; calls that finish a job; pruning of finished jobs. -/
def PgAct.Calm (late : Time → Prop) : PgAct → Prop
  | .handout _ => True
  | .advance _ => True
  | .plain e => e.criteria = none ∧ late e.scheduledAt
  | .stmt (.complete _) => True
  | .stmt (.discarded _ _) => True
  | .stmt (.cancelled _ _) => True
  | .stmt (.retryable _ next _) => late next
  | .stmt (.snoozed _ next) => late next
  | .stmt (.prune spec) => spec.status = .complete ∨ spec.status = .discarded ∨ spec.status = .cancelled
  | _ => False

/-! ## C117 -/

private theorem perm_three {l : List α} {a b c : α} (h : l.Perm [a, b, c]) :
    l = [a, b, c] ∨ l = [a, c, b] ∨ l = [b, a, c] ∨ l = [b, c, a] ∨ l = [c, a, b] ∨ l = [c, b, a] := by
  have two : ∀ {l : List α} {a b : α}, l.Perm [a, b] → l = [a, b] ∨ l = [b, a] := by
    intro l a b h
    match l, h with
    | [], h => exact absurd h.length_eq (by simp)
    | [x], h => exact absurd h.length_eq (by simp)
    | x :: y :: z :: l, h => exact absurd h.length_eq (by simp)
    | [x, y], h =>
      rcases List.mem_cons.mp (h.subset (List.mem_cons_self ..)) with rfl | hx
      · have := List.perm_singleton.mp ((List.perm_cons x).mp h); simp_all
      · obtain rfl := List.mem_singleton.mp hx
        have := List.perm_singleton.mp ((List.perm_cons x).mp (h.trans (List.Perm.swap ..))); simp_all
  match l, h with
  | [], h => exact absurd h.length_eq (by simp)
  | x :: l, h =>
    rcases List.mem_cons.mp (h.subset (List.mem_cons_self ..)) with rfl | hx
    · rcases two ((List.perm_cons x).mp h) with e | e <;> simp [e]
    · rcases List.mem_cons.mp hx with rfl | hx
      · rcases two ((List.perm_cons x).mp (h.trans (List.Perm.swap ..))) with e | e <;> simp [e]
      · obtain rfl := List.mem_singleton.mp hx
        have : [a, b, x].Perm (x :: [a, b]) := by
          exact (List.perm_append_comm (l₁ := [a, b]) (l₂ := [x]))
        rcases two ((List.perm_cons x).mp (h.trans this)) with e | e <;> simp [e]

/-- The number of the job in an answer. -/
private def Res.number : Res → Option Int
  | .id i => some i
  | .job (some j) => some j.id
  | _ => none

private def prio (n : Nat) : EnqueuableJob := { sampleEnq with priority := n }

private def overtaken : List TPgAct := List.map (pgAct 0) [
  .handout "mail", .advance 0, .plain (prio 1), .handout "mail", .advance 1, .advance 1, .advance 1, .advance 0, .advance 0]

private def twoJobs : List TPgAct := [pgAct (-1000) (.plain (prio 0)), pgAct 0 (.plain (prio 2))]

private theorem times_zero {as : List TPgAct} (h0 : ∀ a ∈ as, a.now = 0) {order : List (MadeCall × Time)}
    (h : ∀ x ∈ order, ∃ n a, as[n]? = some a ∧ x.1.began ≤ n ∧ n ≤ x.1.ended ∧ a.now = x.2) :
    order.map (fun x => (⟨x.2, x.1.call⟩ : TApi)) = (order.map (·.1)).map fun m => ⟨0, m.call⟩ := by
  rw [List.map_map]
  apply List.map_congr_left
  intro x hx
  obtain ⟨n, a, ha, _, _, ht⟩ := h x hx
  simp only [Function.comp, ← ht, h0 a (List.mem_of_getElem? ha)]

/-- **C117 fails** with enqueues and hand-outs only. Jobs 1 and 2 are waiting, job 1 first. A
stream begins its hand-out; job 3 is enqueued, with a priority between the two; another stream
asks and gets job 1; then the first gets job 2, although job 3 is more urgent. No order of the
three calls explains this. -/
theorem C117_violated : ∃ (hash : HashFn) (before as : List TPgAct),
    (PgConc.run hash {} before).Idle ∧ ((PgConc.run hash {} before).run hash as).Idle ∧
    (∀ a ∈ as, a.now = 0 ∧ ((∃ x, a.act = .handout x) ∨ (∃ e, a.act = .plain e) ∨ ∃ i, a.act = .advance i)) ∧
    ¬ ∃ order, Explains hash (PgConc.run hash {} before) as order := by
  refine ⟨sampleHash, twoJobs, overtaken, ?_, ?_, ?_, ?_⟩
  · intro s hs; exact nomatch hs
  · have : ((PgConc.run sampleHash {} twoJobs).run sampleHash overtaken).sessions.all (fun s => match s with | .done _ => true | _ => false) = true := by
      decide +kernel
    intro s hs
    have := List.all_eq_true.mp this s hs
    cases s <;> simp_all
  · intro a ha
    simp only [overtaken, List.map_cons, List.map_nil, List.mem_cons, List.not_mem_nil, or_false] at ha
    rcases ha with rfl | rfl | rfl | rfl | rfl | rfl | rfl | rfl | rfl <;> simp [pgAct]
  · rintro ⟨order, hc, ho, ht, ties, hr, -⟩
    have h0 : ∀ a ∈ overtaken, a.now = 0 := by
      intro a ha
      simp only [overtaken, List.mem_map] at ha
      obtain ⟨_, _, rfl⟩ := ha; rfl
    rw [times_zero h0 ht] at hr
    replace ho : (order.map (·.1)).Pairwise fun a b => ¬ b.ended < a.began := List.pairwise_map.mpr ho
    rw [show (order.map (·.1.answer)) = (order.map (·.1)).map (·.answer) by simp] at hr
    generalize order.map (·.1) = l at *
    obtain ⟨A, D, E, hm, hA, hD, hE⟩ : ∃ A D E, (PgConc.run sampleHash {} twoJobs).callsReturned sampleHash overtaken = [E, D, A] ∧
        (A.began = 0 ∧ A.ended = 8 ∧ A.call = .op (.load "mail") ∧ A.answer.number = some 2) ∧
        (D.began = 3 ∧ D.ended = 6 ∧ D.call = .op (.load "mail") ∧ D.answer.number = some 1) ∧
        (E.began = 2 ∧ E.ended = 2 ∧ E.call = .enqueue (prio 1)) := ⟨_, _, _, rfl, ⟨rfl, rfl, rfl, rfl⟩, ⟨rfl, rfl, rfl, rfl⟩, ⟨rfl, rfl, rfl⟩⟩
    rw [hm] at hc
    have hn := congrArg (List.map Res.number) hr
    rcases perm_three hc with rfl | rfl | rfl | rfl | rfl | rfl <;>
      simp only [List.map_cons, List.map_nil, hA, hD, hE] at hn <;>
      simp only [List.pairwise_cons, List.mem_cons, List.not_mem_nil, or_false, forall_eq_or_imp, forall_eq, hA, hD, hE] at ho
    · have : ((PgConc.run sampleHash {} twoJobs).pg.results sampleHash ties
        [⟨0, .enqueue (prio 1)⟩, ⟨0, .op (.load "mail")⟩, ⟨0, .op (.load "mail")⟩]).map Res.number = [some 3, some 1, some 3] := rfl
      rw [this] at hn; exact absurd hn (by simp)
    · have : ((PgConc.run sampleHash {} twoJobs).pg.results sampleHash ties
        [⟨0, .enqueue (prio 1)⟩, ⟨0, .op (.load "mail")⟩, ⟨0, .op (.load "mail")⟩]).map Res.number = [some 3, some 1, some 3] := rfl
      rw [this] at hn; exact absurd hn (by simp)
    · omega
    · omega
    · have : ((PgConc.run sampleHash {} twoJobs).pg.results sampleHash ties
        [⟨0, .op (.load "mail")⟩, ⟨0, .enqueue (prio 1)⟩, ⟨0, .op (.load "mail")⟩]).map Res.number = [some 1, some 3, some 3] := rfl
      rw [this] at hn; exact absurd hn (by simp)
    · omega


private def looked : List TPgAct := List.map (pgAct 0) [
  .handout "mail", .advance 0, .advance 0, .handout "mail", .advance 1, .advance 1, .advance 1, .stmt (.query (.executorEqual "mail")), .advance 0]

/-- The numbers of the jobs in an answer, and whether they are executing. -/
private def Res.seen : Res → List (Int × Bool)
  | .job (some j) => [(j.id, j.status == .executing)]
  | .jobs js => js.map fun j => (j.id, j.status == .executing)
  | _ => []

/-- **C117 fails** with hand-outs and a query. Jobs 1 and 2 are waiting, job 1 first. One stream
locks job 1, another locks job 2 and returns first; then a query shows job 2 as executing and
job 1 as waiting. No order of the three calls explains this. -/
theorem C117_violated_query : ∃ (hash : HashFn) (before as : List TPgAct),
    (PgConc.run hash {} before).Idle ∧ ((PgConc.run hash {} before).run hash as).Idle ∧
    (∀ a ∈ as, a.now = 0 ∧ ((∃ x, a.act = .handout x) ∨ (∃ q, a.act = .stmt (.query q)) ∨ ∃ i, a.act = .advance i)) ∧
    ¬ ∃ order, Explains hash (PgConc.run hash {} before) as order := by
  refine ⟨sampleHash, twoJobs, looked, ?_, ?_, ?_, ?_⟩
  · intro s hs; exact nomatch hs
  · have : ((PgConc.run sampleHash {} twoJobs).run sampleHash looked).sessions.all (fun s => match s with | .done _ => true | _ => false) = true := by
      decide +kernel
    intro s hs
    have := List.all_eq_true.mp this s hs
    cases s <;> simp_all
  · intro a ha
    simp only [looked, List.map_cons, List.map_nil, List.mem_cons, List.not_mem_nil, or_false] at ha
    rcases ha with rfl | rfl | rfl | rfl | rfl | rfl | rfl | rfl | rfl <;> simp [pgAct]
  · rintro ⟨order, hc, ho, ht, ties, hr, -⟩
    have h0 : ∀ a ∈ looked, a.now = 0 := by
      intro a ha
      simp only [looked, List.mem_map] at ha
      obtain ⟨_, _, rfl⟩ := ha; rfl
    rw [times_zero h0 ht] at hr
    replace ho : (order.map (·.1)).Pairwise fun a b => ¬ b.ended < a.began := List.pairwise_map.mpr ho
    rw [show (order.map (·.1.answer)) = (order.map (·.1)).map (·.answer) by simp] at hr
    generalize order.map (·.1) = l at *
    obtain ⟨A, B, Q, hm, hA, hB, hQ⟩ : ∃ A B Q, (PgConc.run sampleHash {} twoJobs).callsReturned sampleHash looked = [B, Q, A] ∧
        (A.began = 0 ∧ A.ended = 8 ∧ A.call = .op (.load "mail") ∧ A.answer.seen = [(1, true)]) ∧
        (B.began = 3 ∧ B.ended = 6 ∧ B.call = .op (.load "mail") ∧ B.answer.seen = [(2, true)]) ∧
        (Q.began = 7 ∧ Q.ended = 7 ∧ Q.call = .op (.query (.executorEqual "mail")) ∧ Q.answer.seen = [(2, true), (1, false)]) :=
      ⟨_, _, _, rfl, ⟨rfl, rfl, rfl, rfl⟩, ⟨rfl, rfl, rfl, rfl⟩, ⟨rfl, rfl, rfl, rfl⟩⟩
    rw [hm] at hc
    have hn := congrArg (List.map Res.seen) hr
    rcases perm_three hc with rfl | rfl | rfl | rfl | rfl | rfl <;>
      simp only [List.map_cons, List.map_nil, hA, hB, hQ] at hn <;>
      simp only [List.pairwise_cons, List.mem_cons, List.not_mem_nil, or_false, forall_eq_or_imp, forall_eq, hA, hB, hQ] at ho
    · have : (((PgConc.run sampleHash {} twoJobs).pg.results sampleHash ties
        [⟨0, .op (.load "mail")⟩, ⟨0, .op (.query (.executorEqual "mail"))⟩, ⟨0, .op (.load "mail")⟩]).map Res.seen).head? = some [(1, true)] := rfl
      rw [hn] at this; exact absurd this (by simp)
    · have : (((PgConc.run sampleHash {} twoJobs).pg.results sampleHash ties
        [⟨0, .op (.load "mail")⟩, ⟨0, .op (.load "mail")⟩, ⟨0, .op (.query (.executorEqual "mail"))⟩]).map Res.seen).head? = some [(1, true)] := rfl
      rw [hn] at this; exact absurd this (by simp)
    · omega
    · omega
    · have : (((PgConc.run sampleHash {} twoJobs).pg.results sampleHash ties
        [⟨0, .op (.load "mail")⟩, ⟨0, .op (.load "mail")⟩, ⟨0, .op (.query (.executorEqual "mail"))⟩]).map Res.seen)
          = [[(1, true)], [(2, true)], [(2, true), (1, true)]] := by
        simp only [Pg.results, List.length]
        rfl
      rw [hn] at this; exact absurd this (by simp)
    · omega


/-! ## What holds -/

section Sorting

private theorem insertBy_first {le : α → α → Bool} {a : α} {l : List α} (h : ∀ x ∈ l, le a x = true) : insertBy le a l = a :: l := by
  cases l with
  | nil => rfl
  | cons b bs => simp [insertBy, h b (List.mem_cons_self ..)]

private theorem filter_insertBy {le : α → α → Bool}
    (trans : ∀ a b c, le a b = true → le b c = true → le a c = true) (p : α → Bool) (a : α) (l : List α)
    (h : l.Pairwise fun x y => le x y = true) :
    (insertBy le a l).filter p = if p a then insertBy le a (l.filter p) else l.filter p := by
  induction l with
  | nil => cases hp : p a <;> simp [insertBy, hp]
  | cons b bs ih =>
    rw [List.pairwise_cons] at h
    unfold insertBy
    by_cases hab : le a b = true
    · have hfirst : ∀ x ∈ (b :: bs).filter p, le a x = true := by
        intro x hx
        rcases List.mem_cons.mp (List.mem_filter.mp hx).1 with rfl | hx
        · exact hab
        · exact trans _ _ _ hab (h.1 x hx)
      rw [if_pos hab, List.filter_cons (x := a), ← insertBy.eq_def]
      split
      · rw [insertBy_first hfirst]
      · rfl
    · rw [if_neg hab, List.filter_cons, ih h.2, ← insertBy.eq_def, List.filter_cons]
      cases p b <;> cases p a <;> simp [insertBy, hab]

private theorem filter_sortBy {le : α → α → Bool} (total : ∀ a b, le a b = true ∨ le b a = true)
    (trans : ∀ a b c, le a b = true → le b c = true → le a c = true) (p : α → Bool) (l : List α) :
    (sortBy le l).filter p = sortBy le (l.filter p) := by
  induction l with
  | nil => rfl
  | cons a l ih =>
    rw [sortBy, filter_insertBy trans p a _ (sortBy_sorted total trans l), ih, List.filter_cons]
    split <;> rfl

end Sorting

private theorem first_total (tie : Int → Nat) (a b : Row) :
    Row.before tie a b = true ∨ Row.before tie b a = true := by
  simp only [Row.before, Bool.or_eq_true, Bool.and_eq_true, decide_eq_true_eq, beq_iff_eq]
  simp only [Time]
  omega

private theorem first_trans (tie : Int → Nat) (a b c : Row) (h1 : Row.before tie a b = true)
    (h2 : Row.before tie b c = true) : Row.before tie a c = true := by
  simp only [Row.before, Bool.or_eq_true, Bool.and_eq_true, decide_eq_true_eq, beq_iff_eq] at *
  simp only [Time] at *
  omega

/-- The rows with hand-outs that have locked their row already done. -/
private def ahead (L : Int → Option Time) (r : Row) : Row :=
  match L r.id with
  | some t => r.markExecuting t
  | none => r

private theorem ahead_id (L : Int → Option Time) (r : Row) : (ahead L r).id = r.id := by
  unfold ahead; split <;> rfl

private theorem ahead_none {L : Int → Option Time} {r : Row} (h : L r.id = none) : ahead L r = r := by
  unfold ahead; rw [h]

private theorem ahead_some {L : Int → Option Time} {r : Row} {t : Time} (h : L r.id = some t) : ahead L r = r.markExecuting t := by
  unfold ahead; rw [h]

private theorem executing_not_ready (t t' : Time) (x : String) (r : Row) : (r.markExecuting t').ready t x = false := by
  simp [Row.ready, Row.markExecuting]

/-- The state `q` of the calls made one after another, next to the state `c`. `T` are the times
of the schedule. -/
private structure Beside (T : Time → Prop) (c : PgConc) (q : Pg) : Prop where
  inv : PgInv c
  sess : ∀ s ∈ c.sessions, (∃ x, s = .handout x) ∨ (∃ x t snap, s = .looking x t snap) ∨ (∃ x t id, s = .locked x t id) ∨ ∃ r, s = .done r
  seq : q.seq = c.pg.seq
  rows : ∃ L : Int → Option Time, q.rows = c.pg.rows.map (ahead L) ∧
    ∀ id t, L id = some t ↔ ∃ (i : Nat) (x : String), c.sessions[i]? = some (.locked x t id)
  snap : ∀ (x : String) (t : Time) (snap : List Row), .looking x t snap ∈ c.sessions →
    T t ∧ (rowIds snap).Nodup ∧ (c.pg.rows.filter (Row.ready t x)).Sublist (snap.filter (Row.ready t x))

private theorem Beside.locked {T : Time → Prop} {c : PgConc} {q : Pg} (B : Beside T c q) (id : Int) :
    c.rowLocked id = true ↔ ∃ (i : Nat) (x : String) (t : Time), c.sessions[i]? = some (.locked x t id) := by
  rw [rowLocked_iff]
  constructor
  · rintro ⟨i, s, hi, hs⟩
    rcases B.sess s (List.mem_of_getElem? hi) with ⟨x, rfl⟩ | ⟨x, t, sn, rfl⟩ | ⟨x, t, id', rfl⟩ | ⟨r, rfl⟩
    · cases hs
    · cases hs
    · cases hs; exact ⟨i, x, t, hi⟩
    · cases hs
  · rintro ⟨i, x, t, hi⟩; exact ⟨i, _, hi, rfl⟩

private theorem sublist_filter {l' l : List Row} (h : l'.Sublist l) (hn : (l.map (·.id)).Nodup) :
    l' = l.filter fun r => l'.any fun r' => r'.id == r.id := by
  induction h with
  | slnil => rfl
  | @cons l₁ l₂ a h ih =>
    simp only [List.map_cons, List.nodup_cons] at hn
    rw [List.filter_cons, if_neg]
    · exact ih hn.2
    · simp only [List.any_eq_true, beq_iff_eq, not_exists, not_and]
      intro r hr e
      exact hn.1 (List.mem_map.mpr ⟨r, h.subset hr, e⟩)
  | @cons_cons l₁ l₂ a h ih =>
    simp only [List.map_cons, List.nodup_cons] at hn
    rw [List.filter_cons, if_pos (by simp)]
    congr 1
    refine (ih hn.2).trans (List.filter_congr fun r hr => ?_)
    have : (a.id == r.id) = false := by
      simp only [beq_eq_false_iff_ne, ne_eq]
      intro e; exact hn.1 (List.mem_map.mpr ⟨r, hr, e.symm⟩)
    simp [this]

/-- The row a hand-out picks is the first one for the calls made one after another. -/
private theorem Beside.pick {T : Time → Prop} {c : PgConc} {q : Pg} (B : Beside T c q) {x : String} {t : Time} {snap : List Row}
    (h : .looking x t snap ∈ c.sessions) (tie : Int → Nat) :
    ((sortBy (Row.before tie) (snap.filter (Row.ready t x))).find? fun r =>
        !c.rowLocked r.id && c.pg.rows.any fun r' => r'.id == r.id && r'.ready t x) =
      (sortBy (Row.before tie) (q.rows.filter (Row.ready t x))).head? := by
  obtain ⟨-, hn, hsub⟩ := B.snap x t snap h
  have hn' : ((snap.filter (Row.ready t x)).map (·.id)).Nodup := (List.filter_sublist.map _).nodup hn
  obtain ⟨L, hq, hL⟩ := B.rows
  have hun : ∀ r : Row, c.rowLocked r.id = true ↔ ∃ t, L r.id = some t := by
    intro r
    rw [B.locked]
    constructor
    · rintro ⟨i, x, t, hi⟩; exact ⟨t, (hL _ _).mpr ⟨i, x, hi⟩⟩
    · rintro ⟨t, ht⟩; obtain ⟨i, x, hi⟩ := (hL _ _).mp ht; exact ⟨i, x, t, hi⟩
  have hq' : q.rows.filter (Row.ready t x) = (c.pg.rows.filter (Row.ready t x)).filter fun r => !c.rowLocked r.id := by
    rw [hq]
    clear hq hsub hn' hn
    induction c.pg.rows with
    | nil => rfl
    | cons r rs ih =>
      rw [List.map_cons, List.filter_cons, ih, List.filter_cons]
      cases hl : L r.id with
      | none =>
        rw [ahead_none hl]
        have : c.rowLocked r.id = false := by
          cases hc : c.rowLocked r.id with
          | false => rfl
          | true => obtain ⟨t', h'⟩ := (hun r).mp hc; rw [hl] at h'; cases h'
        split
        · rw [List.filter_cons, this]; rfl
        · rfl
      | some t' =>
        rw [ahead_some hl, executing_not_ready, if_neg Bool.false_ne_true]
        have : c.rowLocked r.id = true := (hun r).mpr ⟨t', hl⟩
        split
        · rw [List.filter_cons, this]; simp
        · rfl
  rw [← List.head?_filter, filter_sortBy (first_total tie) (first_trans tie), hq']
  congr 2
  conv => rhs; rw [sublist_filter hsub hn', List.filter_filter]
  apply List.filter_congr
  intro r _
  congr 1
  rw [List.any_filter]
  congr 1
  funext r'
  exact Bool.and_comm _ _

/-- A job scheduled then is not due at any time in `T`. -/
private def LateFor (T : Time → Prop) (next : Time) : Prop := ∀ t, T t → pgTime t + 100000000 ≤ pgTime next

private theorem late_not_ready {T : Time → Prop} {next t : Time} (h : LateFor T next) (ht : T t) {r : Row} (hr : r.scheduledAt = pgTime next)
    (x : String) : r.ready t x = false := by
  have h1 := h t ht
  have h2 : ¬ r.scheduledAt - pgTime t < 100 * ms := by
    rw [hr]; simp only [ms, Time] at *; omega
  simp [Row.ready, h2]

private theorem filter_update {P : Row → Bool} {id : Int} {f : Row → Row} (h : ∀ r, P (f r) = false) (rows : List Row) :
    (((updateRows id f rows).1).filter P).Sublist (rows.filter P) := by
  simp only [updateRows]
  induction rows with
  | nil => exact List.Sublist.slnil
  | cons r rs ih =>
    rw [List.map_cons, List.filter_cons, List.filter_cons]
    by_cases hr : r.id = id
    · rw [if_pos hr, h, if_neg Bool.false_ne_true]
      split
      · exact ih.cons _
      · exact ih
    · rw [if_neg hr]
      split
      · exact ih.cons_cons _
      · exact ih

/-- A by-id call on a row nobody has locked, after which the row is not due. -/
private theorem Beside.update {T : Time → Prop} {c : PgConc} {q : Pg} (B : Beside T c q) {id : Int} {f : Row → Row}
    (hl : c.rowLocked id = false) (hf : ∀ r, (f r).id = r.id) (hr : ∀ r t x, T t → (f r).ready t x = false)
    (hi : PgInv { c with pg := { c.pg with rows := (updateRows id f c.pg.rows).1 } }) :
    Beside T { c with pg := { c.pg with rows := (updateRows id f c.pg.rows).1 } } { q with rows := (updateRows id f q.rows).1 } := by
  obtain ⟨L, hq, hL⟩ := B.rows
  have hn : L id = none := by
    cases h : L id with
    | none => rfl
    | some t =>
      obtain ⟨i, x, hi⟩ := (hL _ _).mp h
      rw [(B.locked id).mpr ⟨i, x, t, hi⟩] at hl; cases hl
  refine ⟨hi, B.sess, B.seq, ⟨L, ?_, hL⟩, ?_⟩
  · simp only [updateRows, hq, List.map_map]
    apply List.map_congr_left
    intro r _
    simp only [Function.comp, ahead_id]
    by_cases h : r.id = id
    · rw [if_pos h, if_pos h, ahead_none (h ▸ hn), ahead_none (by rw [hf, h]; exact hn)]
    · rw [if_neg h, if_neg h]
  · intro x t snap hs
    obtain ⟨h1, h2, h3⟩ := B.snap x t snap hs
    exact ⟨h1, h2, (filter_update (fun r => hr r t x h1) _).trans h3⟩

private theorem filter_ahead {L : Int → Option Time} {P : Row → Bool} {rows : List Row}
    (h : ∀ r ∈ rows, ∀ t, L r.id = some t → P (r.markExecuting t) = false ∧ P r = false) :
    (rows.map (ahead L)).filter P = rows.filter P := by
  induction rows with
  | nil => rfl
  | cons r rs ih =>
    have ih := ih fun r hr => h r (List.mem_cons_of_mem _ hr)
    rw [List.map_cons, List.filter_cons, List.filter_cons, ih]
    cases hl : L r.id with
    | none => rw [ahead_none hl]
    | some t =>
      obtain ⟨h1, h2⟩ := h r (List.mem_cons_self ..) t hl
      rw [ahead_some hl, h1, h2]; rfl

private theorem Beside.waiting {T : Time → Prop} {c : PgConc} {q : Pg} (B : Beside T c q) {L : Int → Option Time}
    (hL : ∀ id t, L id = some t ↔ ∃ (i : Nat) (x : String), c.sessions[i]? = some (.locked x t id)) {r : Row} (hr : r ∈ c.pg.rows)
    {t : Time} (h : L r.id = some t) : r.status = .scheduled ∨ r.status = .retryable := by
  obtain ⟨i, x, hi⟩ := (hL _ _).mp h
  obtain ⟨r', hr', he, hrd⟩ := B.inv.lockedReady i x t r.id hi
  obtain rfl := row_unique B.inv.nodup hr' hr he
  simp only [Row.ready, Bool.and_eq_true, Bool.or_eq_true, beq_iff_eq] at hrd
  exact hrd.1.2

/-- Pruning of finished jobs. -/
private theorem Beside.prune {T : Time → Prop} {c : PgConc} {q : Pg} (B : Beside T c q) {tie : Int → Nat} {now : Time} {spec : PruneSpec}
    (hs : spec.status = .complete ∨ spec.status = .discarded ∨ spec.status = .cancelled)
    (hi : PgInv { c with pg := c.pg.prune tie now spec }) :
    Beside T { c with pg := c.pg.prune tie now spec } (q.prune tie now spec) := by
  obtain ⟨L, hq, hL⟩ := B.rows
  have hp : ∀ r ∈ c.pg.rows, ∀ t, L r.id = some t → spec.picks (r.markExecuting t) = false ∧ spec.picks r = false := by
    intro r hr t ht
    have h1 : (r.markExecuting t).status ≠ spec.status := by
      show JobStatus.executing ≠ _
      rcases hs with h | h | h <;> rw [h] <;> decide
    have h2 : r.status ≠ spec.status := by
      rcases B.waiting hL hr ht with h' | h' <;> rw [h'] <;> rcases hs with h | h | h <;> rw [h] <;> decide
    simp [PruneSpec.picks, h1, h2]
  have hd : spec.doomed now tie q.rows = spec.doomed now tie c.pg.rows := by
    unfold PruneSpec.doomed
    rw [hq]
    split
    · rw [filter_ahead]
      intro r hr t ht
      obtain ⟨h1, h2⟩ := hp r hr t ht
      rw [h1, h2]; simp
    · rw [filter_ahead hp]
  refine ⟨hi, B.sess, B.seq, ⟨L, ?_, hL⟩, ?_⟩
  · simp only [Pg.prune, hd]
    rw [hq, List.filter_map]
    congr 1
    apply List.filter_congr
    intro r _
    simp only [Function.comp, ahead_id]
  · intro x t snap hs
    obtain ⟨h1, h2, h3⟩ := B.snap x t snap hs
    exact ⟨h1, h2, (List.filter_sublist.filter _).trans h3⟩

/-- A plain enqueue of a job that is not due. -/
private theorem Beside.append {T : Time → Prop} {c : PgConc} {q : Pg} (B : Beside T c q) {row : Row} {n : Nat}
    (hn : row.id ∉ rowIds c.pg.rows) (hr : ∀ t x, T t → row.ready t x = false)
    (hi : PgInv { c with pg := { rows := c.pg.rows ++ [row], seq := n } }) :
    Beside T { c with pg := { rows := c.pg.rows ++ [row], seq := n } } { rows := q.rows ++ [row], seq := n } := by
  obtain ⟨L, hq, hL⟩ := B.rows
  refine ⟨hi, B.sess, rfl, ⟨L, ?_, hL⟩, ?_⟩
  · rw [hq, List.map_append, List.map_singleton, ahead_none]
    cases h : L row.id with
    | none => rfl
    | some t =>
      obtain ⟨i, x, hi⟩ := (hL _ _).mp h
      obtain ⟨r, hr, he, -⟩ := B.inv.lockedReady i x t _ hi
      exact absurd (mem_rowIds.mpr ⟨r, hr, he⟩) hn
  · intro x t snap hs
    obtain ⟨h1, h2, h3⟩ := B.snap x t snap hs
    refine ⟨h1, h2, ?_⟩
    rw [List.filter_append]
    simpa [hr t x h1] using h3

private theorem set_at {l : List Session} {i k : Nat} {s s₀ : Session} (h : l[i]? = some s₀) :
    (l.set i s)[k]? = if k = i then some s else l[k]? := by
  rw [List.getElem?_set]
  have := (List.getElem?_eq_some_iff.mp h).1
  by_cases hk : i = k
  · subst hk; simp [this]
  · simp [hk, Ne.symm hk]

/-- A hand-out is opened. -/
private theorem Beside.opened {T : Time → Prop} {c : PgConc} {q : Pg} (B : Beside T c q) (x : String)
    (hi : PgInv { c with sessions := c.sessions ++ [.handout x] }) :
    Beside T { c with sessions := c.sessions ++ [.handout x] } q := by
  obtain ⟨L, hq, hL⟩ := B.rows
  refine ⟨hi, ?_, B.seq, ⟨L, hq, ?_⟩, ?_⟩
  · intro s hs
    rcases List.mem_append.mp hs with hs | hs
    · exact B.sess s hs
    · exact .inl ⟨x, List.mem_singleton.mp hs⟩
  · intro id t
    rw [hL]
    constructor
    · rintro ⟨i, y, h⟩
      exact ⟨i, y, by rw [List.getElem?_append_left (List.getElem?_eq_some_iff.mp h).1]; exact h⟩
    · rintro ⟨i, y, h⟩
      rcases List.mem_append.mp (List.mem_of_getElem? h) with h' | h'
      · obtain ⟨k, hk⟩ := List.mem_iff_getElem?.mp h'; exact ⟨k, y, hk⟩
      · cases List.mem_singleton.mp h'
  · intro y t snap hs
    rcases List.mem_append.mp hs with hs | hs
    · exact B.snap y t snap hs
    · cases List.mem_singleton.mp hs

/-- A session that has not locked a row goes on without locking one. -/
private theorem Beside.moved {T : Time → Prop} {c : PgConc} {q : Pg} (B : Beside T c q) {i : Nat} {s₀ s : Session}
    (h₀ : c.sessions[i]? = some s₀) (h₁ : s₀.rowLock = none)
    (hs : (∃ r, s = .done r) ∨ ∃ x t, s = .looking x t c.pg.rows ∧ T t)
    (hi : PgInv { c with sessions := c.sessions.set i s }) : Beside T { c with sessions := c.sessions.set i s } q := by
  obtain ⟨L, hq, hL⟩ := B.rows
  refine ⟨hi, ?_, B.seq, ⟨L, hq, ?_⟩, ?_⟩
  · intro s' hs'
    rcases List.mem_or_eq_of_mem_set hs' with h | rfl
    · exact B.sess s' h
    · rcases hs with ⟨r, rfl⟩ | ⟨x, t, rfl, -⟩
      · exact .inr (.inr (.inr ⟨r, rfl⟩))
      · exact .inr (.inl ⟨x, t, _, rfl⟩)
  · intro id t
    rw [hL]
    constructor
    · rintro ⟨k, y, h⟩
      refine ⟨k, y, ?_⟩
      rw [set_at h₀, if_neg, h]
      rintro rfl
      rw [h] at h₀; cases h₀; cases h₁
    · rintro ⟨k, y, h⟩
      rw [set_at h₀] at h
      split at h
      · cases h; rcases hs with ⟨r, h⟩ | ⟨x, t, h, -⟩ <;> cases h
      · exact ⟨k, y, h⟩
  · intro y t snap hs'
    rcases List.mem_or_eq_of_mem_set hs' with h | h
    · exact B.snap y t snap h
    · rcases hs with ⟨r, rfl⟩ | ⟨x, t', rfl, ht⟩
      · cases h
      · cases h; exact ⟨ht, B.inv.nodup, List.Sublist.refl _⟩

/-- The answer of a hand-out. -/
private def handoutAnswer (row : Row) : Res :=
  match row.decode with
  | none => .err .encodeDecode
  | some j => .job (some j)

private theorem load_none {q : Pg} {tie : Int → Nat} {t : Time} {x : String}
    (h : (sortBy (Row.before tie) (q.rows.filter (Row.ready t x))).head? = none) : q.load tie t x = (.job none, q) := by
  unfold Pg.load
  rw [List.head?_eq_none_iff.mp h]

private theorem load_some {q : Pg} {tie : Int → Nat} {t : Time} {x : String} {r : Row}
    (h : (sortBy (Row.before tie) (q.rows.filter (Row.ready t x))).head? = some r) :
    q.load tie t x = (handoutAnswer (r.markExecuting t), { q with rows := (updateRows r.id (Row.markExecuting t) q.rows).1 }) := by
  obtain ⟨l, hl⟩ := List.head?_eq_some_iff.mp h
  unfold Pg.load handoutAnswer
  rw [hl]
  simp only
  cases (r.markExecuting t).decode <;> rfl

/-- A hand-out locks its row: that is where it is made. -/
private theorem Beside.lock {T : Time → Prop} {c : PgConc} {q : Pg} (B : Beside T c q) {i : Nat} {x : String} {t : Time} {snap : List Row}
    (h₀ : c.sessions[i]? = some (.looking x t snap)) {tie : Int → Nat} {r : Row}
    (hr : (sortBy (Row.before tie) (q.rows.filter (Row.ready t x))).head? = some r)
    (hi : PgInv { c with sessions := c.sessions.set i (.locked x t r.id) }) :
    r ∈ c.pg.rows ∧ c.rowLocked r.id = false ∧
    Beside T { c with sessions := c.sessions.set i (.locked x t r.id) } { q with rows := (updateRows r.id (Row.markExecuting t) q.rows).1 } := by
  obtain ⟨L, hq, hL⟩ := B.rows
  have hm : r ∈ q.rows.filter (Row.ready t x) := (sortBy_perm _ _).mem_iff.mp (List.mem_of_mem_head? hr)
  rw [List.mem_filter, hq, List.mem_map] at hm
  obtain ⟨⟨r', hm, he⟩, hrd⟩ := hm
  have hn : L r'.id = none := by
    cases h : L r'.id with
    | none => rfl
    | some t' => rw [← he, ahead_some h, executing_not_ready] at hrd; cases hrd
  rw [ahead_none hn] at he
  subst he
  refine ⟨hm, ?_, hi, ?_, B.seq, ⟨fun id => if id = r'.id then some t else L id, ?_, ?_⟩, ?_⟩
  · cases h : c.rowLocked r'.id with
    | false => rfl
    | true =>
      obtain ⟨k, y, t', hk⟩ := (B.locked _).mp h
      rw [(hL _ _).mpr ⟨k, y, hk⟩] at hn; cases hn
  · intro s' hs'
    rcases List.mem_or_eq_of_mem_set hs' with h | rfl
    · exact B.sess s' h
    · exact .inr (.inr (.inl ⟨x, t, _, rfl⟩))
  · simp only [updateRows, hq, List.map_map]
    apply List.map_congr_left
    intro r₁ _
    simp only [Function.comp, ahead_id]
    by_cases h : r₁.id = r'.id
    · rw [if_pos h, ahead_none (h ▸ hn)]
      unfold ahead
      simp [h]
    · rw [if_neg h]
      unfold ahead
      simp [h]
  · intro id t'
    show (if id = r'.id then some t else L id) = some t' ↔ _
    constructor
    · intro h
      split at h
      · rename_i hid
        cases h; subst hid
        exact ⟨i, x, by rw [set_at h₀, if_pos rfl]⟩
      · obtain ⟨k, y, hk⟩ := (hL _ _).mp h
        refine ⟨k, y, ?_⟩
        rw [set_at h₀, if_neg, hk]
        rintro rfl
        rw [hk] at h₀; cases h₀
    · rintro ⟨k, y, hk⟩
      rw [set_at h₀] at hk
      split at hk
      · cases hk; simp
      · have := (hL _ _).mpr ⟨k, y, hk⟩
        rw [if_neg, this]
        rintro rfl
        rw [this] at hn; cases hn
  · intro y t' snap' hs'
    rcases List.mem_or_eq_of_mem_set hs' with h | h
    · exact B.snap y t' snap' h
    · cases h

/-- The commit of a hand-out changes nothing any more. -/
private theorem Beside.commit {T : Time → Prop} {c : PgConc} {q : Pg} (B : Beside T c q) {i : Nat} {x : String} {t : Time} {id : Int} {res : Res}
    (h₀ : c.sessions[i]? = some (.locked x t id))
    (hi : PgInv { pg := { c.pg with rows := (updateRows id (Row.markExecuting t) c.pg.rows).1 }, sessions := c.sessions.set i (.done res) }) :
    Beside T { pg := { c.pg with rows := (updateRows id (Row.markExecuting t) c.pg.rows).1 }, sessions := c.sessions.set i (.done res) } q := by
  obtain ⟨L, hq, hL⟩ := B.rows
  have hi' := (hL id t).mpr ⟨i, x, h₀⟩
  refine ⟨hi, ?_, B.seq, ⟨fun j => if j = id then none else L j, ?_, ?_⟩, ?_⟩
  · intro s' hs'
    rcases List.mem_or_eq_of_mem_set hs' with h | rfl
    · exact B.sess s' h
    · exact .inr (.inr (.inr ⟨res, rfl⟩))
  · simp only [updateRows, hq, List.map_map]
    apply List.map_congr_left
    intro r _
    simp only [Function.comp]
    by_cases h : r.id = id
    · rw [if_pos h, ahead_some (h ▸ hi'), ahead_none]
      simp [Row.markExecuting, h]
    · rw [if_neg h]
      unfold ahead
      simp [h]
  · intro id' t'
    show (if id' = id then none else L id') = some t' ↔ _
    constructor
    · intro h
      split at h
      · cases h
      · rename_i hid
        obtain ⟨k, y, hk⟩ := (hL _ _).mp h
        refine ⟨k, y, ?_⟩
        show (c.sessions.set i _)[k]? = _
        rw [set_at h₀, if_neg, hk]
        rintro rfl
        rw [hk] at h₀; cases h₀; exact hid rfl
    · rintro ⟨k, y, hk⟩
      replace hk : (c.sessions.set i (Session.done res))[k]? = _ := hk
      rw [set_at h₀] at hk
      split at hk
      · cases hk
      · rename_i hki
        rw [if_neg, (hL _ _).mpr ⟨k, y, hk⟩]
        rintro rfl
        exact hki (B.inv.lockOne k i _ _ _ hk h₀ rfl rfl)
  · intro y t' snap' hs'
    rcases List.mem_or_eq_of_mem_set hs' with h | h
    · obtain ⟨h1, h2, h3⟩ := B.snap y t' snap' h
      exact ⟨h1, h2, (filter_update (fun r => executing_not_ready t' t y r) _).trans h3⟩
    · cases h

/-- The sessions that have locked a row. -/
private def pend (c : PgConc) : List Nat := (List.range c.sessions.length).filter fun i => (c.sessions[i]?.bind Session.rowLock).isSome

private theorem mem_pend {c : PgConc} {i : Nat} : i ∈ pend c ↔ ∃ s id, c.sessions[i]? = some s ∧ s.rowLock = some id := by
  simp only [pend, List.mem_filter, List.mem_range]
  constructor
  · rintro ⟨h, h'⟩
    cases hs : c.sessions[i]? with
    | none => rw [hs] at h'; cases h'
    | some s =>
      rw [hs] at h'
      obtain ⟨id, hid⟩ := Option.isSome_iff_exists.mp h'
      exact ⟨s, id, rfl, hid⟩
  · rintro ⟨s, id, hs, hid⟩
    refine ⟨(List.getElem?_eq_some_iff.mp hs).1, ?_⟩
    rw [hs]; simp [hid]

private theorem pend_nodup (c : PgConc) : (pend c).Nodup := List.nodup_range.filter _

private theorem pend_same {c c' : PgConc} (h : ∀ i, i ∈ pend c' ↔ i ∈ pend c) : (pend c').Perm (pend c) :=
  (List.perm_ext_iff_of_nodup (pend_nodup _) (pend_nodup _)).mpr h

private theorem pend_more {c c' : PgConc} {i : Nat} (hi : i ∉ pend c) (h : ∀ k, k ∈ pend c' ↔ k = i ∨ k ∈ pend c) :
    (pend c').Perm (i :: pend c) :=
  (List.perm_ext_iff_of_nodup (pend_nodup _) (List.nodup_cons.mpr ⟨hi, pend_nodup _⟩)).mpr (by simpa using h)

/-- A call where it is made. -/
private structure Lin where
  call : MadeCall
  time : Time
  tie : Int → Nat

/-- The calls one after another lead from `q` to `q'`. -/
private def Chain (hash : HashFn) (q : Pg) : List Lin → Pg → Prop
  | [], q' => q = q'
  | e :: es, q' => (q.api hash e.tie e.time e.call.call).1 = e.call.answer ∧ Chain hash (q.api hash e.tie e.time e.call.call).2 es q'

/-- What is known of the sessions under way. -/
private structure Tracked (Read : Nat → Time → Prop) (n : Nat) (begun : List (Nat × Api)) (c : PgConc) : Prop where
  len : begun.length = c.sessions.length
  handout : ∀ (i : Nat) (x : String), c.sessions[i]? = some (.handout x) → ∃ b, begun[i]? = some (b, .op (.load x)) ∧ b < n
  looking : ∀ (i : Nat) (x : String) (t : Time) (snap : List Row), c.sessions[i]? = some (.looking x t snap) →
    ∃ b k, begun[i]? = some (b, .op (.load x)) ∧ b ≤ k ∧ k < n ∧ Read k t
  locked : ∀ (i : Nat) (x : String) (t : Time) (id : Int), c.sessions[i]? = some (.locked x t id) →
    ∃ b, begun[i]? = some (b, .op (.load x))

/-- The call of a session that has locked its row. -/
private structure Owed (n : Nat) (begun : List (Nat × Api)) (c : PgConc) (i : Nat) (t : Time) (id : Int) (m : MadeCall) : Prop where
  ended : n ≤ m.ended
  begun : begun[i]? = some (m.began, m.call)
  answer : ∃ r ∈ c.pg.rows, r.id = id ∧ m.answer = handoutAnswer (r.markExecuting t)

/-- The calls that return from here on: those still to be made, and those of sessions that have
locked their row. -/
private def Result (hash : HashFn) (Read : Nat → Time → Prop) (n : Nat) (c : PgConc) (begun : List (Nat × Api)) (q : Pg) (as : List TPgAct) : Prop :=
  ∃ (lin : List Lin) (owed : Nat → MadeCall),
    (callsMade hash n c begun as).Perm (lin.map (·.call) ++ (pend c).map owed) ∧
    (∀ (i : Nat) (x : String) (t : Time) (id : Int), c.sessions[i]? = some (.locked x t id) → Owed n begun c i t id (owed i)) ∧
    lin.Pairwise (fun a b => ¬ b.call.ended < a.call.began) ∧
    (∀ e ∈ lin, n ≤ e.call.ended ∧ ∃ k, e.call.began ≤ k ∧ k ≤ e.call.ended ∧ Read k e.time) ∧
    Chain hash q lin (c.run hash as).pg

/-- A session that has locked its row is left alone by a step. -/
private def Keeps (c c' : PgConc) (begun begun' : List (Nat × Api)) (i : Nat) : Prop :=
  ∀ (x : String) (t : Time) (id : Int), c.sessions[i]? = some (.locked x t id) →
    c'.sessions[i]? = some (.locked x t id) ∧ begun'[i]? = begun[i]? ∧ ∀ r ∈ c'.pg.rows, r.id = id → r ∈ c.pg.rows

private theorem Owed.back {n : Nat} {begun begun' : List (Nat × Api)} {c c' : PgConc} {i : Nat} {x : String} {t : Time} {id : Int}
    {m : MadeCall} (h : Keeps c c' begun begun' i) (hl : c.sessions[i]? = some (.locked x t id)) (ho : Owed (n + 1) begun' c' i t id m) :
    Owed n begun c i t id m := by
  obtain ⟨_, h2, h3⟩ := h x t id hl
  obtain ⟨r, hr, he, ha⟩ := ho.answer
  exact ⟨by have := ho.ended; omega, h2 ▸ ho.begun, r, h3 r hr he, he, ha⟩

section Steps

variable {hash : HashFn} {Read : Nat → Time → Prop} {n : Nat} {c : PgConc} {begun : List (Nat × Api)} {q : Pg} {a : TPgAct} {as : List TPgAct}

/-- No call is made or returns. -/
private theorem result_quiet {q : Pg}
    (R : Result hash Read (n + 1) (c.step hash a.tie a.now a.act).2 (begun ++ a.act.begins n) q as)
    (he : callsEnding n c (c.step hash a.tie a.now a.act).2 (c.step hash a.tie a.now a.act).1 begun a.act = [])
    (hp : ∀ i, i ∈ pend (c.step hash a.tie a.now a.act).2 ↔ i ∈ pend c)
    (hk : ∀ i, Keeps c (c.step hash a.tie a.now a.act).2 begun (begun ++ a.act.begins n) i) :
    Result hash Read n c begun q (a :: as) := by
  obtain ⟨lin, owed, h1, h2, h3, h4, h5⟩ := R
  refine ⟨lin, owed, ?_, ?_, h3, ?_, h5⟩
  · simp only [callsMade, he, List.nil_append]
    exact h1.trans (((pend_same hp).map _).append_left _)
  · intro i x t id hl
    exact (h2 i x t id (hk i x t id hl).1).back (hk i) hl
  · intro e he
    obtain ⟨h, h'⟩ := h4 e he
    exact ⟨by omega, h'⟩

/-- A call is made and returns. -/
private theorem result_call {m : MadeCall} {t : Time} {tie : Int → Nat}
    (R : Result hash Read (n + 1) (c.step hash a.tie a.now a.act).2 (begun ++ a.act.begins n) (q.api hash tie t m.call).2 as)
    (he : callsEnding n c (c.step hash a.tie a.now a.act).2 (c.step hash a.tie a.now a.act).1 begun a.act = [m])
    (hp : ∀ i, i ∈ pend (c.step hash a.tie a.now a.act).2 ↔ i ∈ pend c)
    (hk : ∀ i, Keeps c (c.step hash a.tie a.now a.act).2 begun (begun ++ a.act.begins n) i)
    (ha : (q.api hash tie t m.call).1 = m.answer) (hb : m.began ≤ n) (hn : m.ended = n)
    (ht : ∃ k, m.began ≤ k ∧ k ≤ n ∧ Read k t) :
    Result hash Read n c begun q (a :: as) := by
  obtain ⟨lin, owed, h1, h2, h3, h4, h5⟩ := R
  refine ⟨⟨m, t, tie⟩ :: lin, owed, ?_, ?_, ?_, ?_, ha, h5⟩
  · simp only [callsMade, he, List.map_cons, List.cons_append, List.nil_append]
    exact (h1.trans (((pend_same hp).map _).append_left _)).cons _
  · intro i x t id hl
    exact (h2 i x t id (hk i x t id hl).1).back (hk i) hl
  · refine List.pairwise_cons.mpr ⟨fun e he => ?_, h3⟩
    have := (h4 e he).1
    show ¬ e.call.ended < m.began
    omega
  · intro e he
    rcases List.mem_cons.mp he with rfl | he
    · rw [show (Lin.call ⟨m, t, tie⟩) = m from rfl, hn]
      exact ⟨Nat.le_refl _, ht⟩
    · obtain ⟨h, h'⟩ := h4 e he
      exact ⟨by omega, h'⟩

/-- A session locks its row: its call is made. -/
private theorem result_lock {i : Nat} {x : String} {t : Time} {r : Row} {tie : Int → Nat} {b : Nat}
    (R : Result hash Read (n + 1) (c.step hash a.tie a.now a.act).2 (begun ++ a.act.begins n) (q.api hash tie t (.op (.load x))).2 as)
    (he : callsEnding n c (c.step hash a.tie a.now a.act).2 (c.step hash a.tie a.now a.act).1 begun a.act = [])
    (hi : i ∉ pend c) (hp : ∀ k, k ∈ pend (c.step hash a.tie a.now a.act).2 ↔ k = i ∨ k ∈ pend c)
    (hk : ∀ k, Keeps c (c.step hash a.tie a.now a.act).2 begun (begun ++ a.act.begins n) k)
    (hl : (c.step hash a.tie a.now a.act).2.sessions[i]? = some (.locked x t r.id))
    (hr : ∀ r' ∈ (c.step hash a.tie a.now a.act).2.pg.rows, r'.id = r.id → r' = r)
    (hb : (begun ++ a.act.begins n)[i]? = some (b, .op (.load x)))
    (ha : (q.api hash tie t (.op (.load x))).1 = handoutAnswer (r.markExecuting t)) (hbn : b < n)
    (ht : ∃ k, b ≤ k ∧ k < n ∧ Read k t) :
    Result hash Read n c begun q (a :: as) := by
  obtain ⟨lin, owed, h1, h2, h3, h4, h5⟩ := R
  have ho := h2 i x t r.id hl
  have e := ho.begun.symm.trans hb
  simp only [Option.some.injEq, Prod.mk.injEq] at e
  obtain ⟨r', hr', he', ha'⟩ := ho.answer
  rw [hr r' hr' he'] at ha'
  refine ⟨⟨owed i, t, tie⟩ :: lin, owed, ?_, ?_, ?_, ?_, ?_⟩
  · simp only [callsMade, he, List.map_cons, List.cons_append, List.nil_append]
    exact (h1.trans (((pend_more hi hp).map _).append_left _)).trans List.perm_middle
  · intro k x t id hl
    exact (h2 k x t id (hk k x t id hl).1).back (hk k) hl
  · refine List.pairwise_cons.mpr ⟨fun e' he => ?_, h3⟩
    have := (h4 e' he).1
    show ¬ e'.call.ended < (owed i).began
    omega
  · intro e' he
    rcases List.mem_cons.mp he with rfl | he
    · have := ho.ended
      obtain ⟨k, hk1, hk2, hk3⟩ := ht
      refine ⟨?_, k, ?_, ?_, hk3⟩
      · show n ≤ (owed i).ended; omega
      · show (owed i).began ≤ k; omega
      · show k ≤ (owed i).ended; omega
    · obtain ⟨h, h'⟩ := h4 e' he
      exact ⟨by omega, h'⟩
  · refine ⟨?_, ?_⟩
    · show (q.api hash tie t (owed i).call).1 = (owed i).answer
      rw [e.2, ha, ha']
    · show Chain hash (q.api hash tie t (owed i).call).2 lin _
      rw [e.2]; exact h5

/-- A session that has locked its row returns. -/
private theorem result_commit {i : Nat} {x : String} {t : Time} {id : Int} {m : MadeCall}
    (R : Result hash Read (n + 1) (c.step hash a.tie a.now a.act).2 (begun ++ a.act.begins n) q as)
    (he : callsEnding n c (c.step hash a.tie a.now a.act).2 (c.step hash a.tie a.now a.act).1 begun a.act = [m])
    (hi : i ∉ pend (c.step hash a.tie a.now a.act).2) (hp : ∀ k, k ∈ pend c ↔ k = i ∨ k ∈ pend (c.step hash a.tie a.now a.act).2)
    (hk : ∀ k, k ≠ i → Keeps c (c.step hash a.tie a.now a.act).2 begun (begun ++ a.act.begins n) k)
    (hl : c.sessions[i]? = some (.locked x t id)) (ho : Owed n begun c i t id m) :
    Result hash Read n c begun q (a :: as) := by
  obtain ⟨lin, owed, h1, h2, h3, h4, h5⟩ := R
  refine ⟨lin, fun k => if k = i then m else owed k, ?_, ?_, h3, ?_, h5⟩
  · simp only [callsMade, he, List.cons_append, List.nil_append]
    refine (h1.cons m).trans ?_
    have h : ((pend c).map fun k => if k = i then m else owed k).Perm (m :: (pend (c.step hash a.tie a.now a.act).2).map owed) := by
      refine ((pend_more hi hp).map _).trans ?_
      rw [List.map_cons, if_pos rfl]
      refine List.Perm.cons _ (.of_eq (List.map_congr_left fun k hk' => if_neg ?_))
      rintro rfl; exact hi hk'
    exact (List.perm_middle.symm).trans (h.symm.append_left _)
  · intro k y t' id' hl'
    by_cases hki : k = i
    · subst hki
      rw [hl] at hl'; cases hl'
      simp only [if_pos]
      exact ho
    · simp only [if_neg hki]
      exact (h2 k y t' id' (hk k hki y t' id' hl').1).back (hk k hki) hl'
  · intro e he
    obtain ⟨h, h'⟩ := h4 e he
    exact ⟨by omega, h'⟩

end Steps

section Tracking

variable {Read : Nat → Time → Prop} {n : Nat} {begun : List (Nat × Api)} {c : PgConc}

private theorem Tracked.next (K : Tracked Read n begun c) (pg : Pg) : Tracked Read (n + 1) (begun ++ []) { c with pg := pg } := by
  rw [List.append_nil]
  refine ⟨K.len, ?_, ?_, K.locked⟩
  · intro i x h
    obtain ⟨b, h1, h2⟩ := K.handout i x h
    exact ⟨b, h1, by omega⟩
  · intro i x t snap h
    obtain ⟨b, k, h1, h2, h3, h4⟩ := K.looking i x t snap h
    exact ⟨b, k, h1, h2, by omega, h4⟩

private theorem Tracked.opened (K : Tracked Read n begun c) (x : String) :
    Tracked Read (n + 1) (begun ++ [(n, .op (.load x))]) { c with sessions := c.sessions ++ [.handout x] } := by
  have old : ∀ (i : Nat) (s : Session), (c.sessions ++ [.handout x])[i]? = some s →
      (c.sessions[i]? = some s ∧ (begun ++ [(n, Api.op (.load x))])[i]? = begun[i]?) ∨
      (s = .handout x ∧ (begun ++ [(n, Api.op (.load x))])[i]? = some (n, .op (.load x))) := by
    intro i s h
    by_cases hi : i < c.sessions.length
    · rw [List.getElem?_append_left hi] at h
      exact .inl ⟨h, List.getElem?_append_left (by rw [K.len]; exact hi)⟩
    · by_cases he : i = c.sessions.length
      · subst he
        simp only [List.getElem?_concat_length, Option.some.injEq] at h
        refine .inr ⟨h.symm, ?_⟩
        rw [← K.len]; simp
      · have : (c.sessions ++ [Session.handout x]).length ≤ i := by simp; omega
        rw [List.getElem?_eq_none this] at h; cases h
  refine ⟨by simp [K.len], ?_, ?_, ?_⟩
  · intro i y h
    rcases old i _ h with ⟨h, hb⟩ | ⟨h, hb⟩
    · obtain ⟨b, h1, h2⟩ := K.handout i y h
      exact ⟨b, hb.trans h1, by omega⟩
    · cases h; exact ⟨n, hb, by omega⟩
  · intro i y t snap h
    rcases old i _ h with ⟨h, hb⟩ | ⟨h, hb⟩
    · obtain ⟨b, k, h1, h2, h3, h4⟩ := K.looking i y t snap h
      exact ⟨b, k, hb.trans h1, h2, by omega, h4⟩
    · cases h
  · intro i y t id h
    rcases old i _ h with ⟨h, hb⟩ | ⟨h, hb⟩
    · obtain ⟨b, h1⟩ := K.locked i y t id h
      exact ⟨b, hb.trans h1⟩
    · cases h

private theorem Tracked.moved (K : Tracked Read n begun c) (pg : Pg) {i : Nat} {s s₀ : Session} (h₀ : c.sessions[i]? = some s₀)
    (hs : (∃ r, s = .done r) ∨
      (∃ x t snap b k, s = .looking x t snap ∧ begun[i]? = some (b, .op (.load x)) ∧ b ≤ k ∧ k < n + 1 ∧ Read k t) ∨
      ∃ x t id b, s = .locked x t id ∧ begun[i]? = some (b, .op (.load x))) :
    Tracked Read (n + 1) (begun ++ []) { pg := pg, sessions := c.sessions.set i s } := by
  rw [List.append_nil]
  refine ⟨by simp [K.len], ?_, ?_, ?_⟩
  · intro k y h
    replace h : (c.sessions.set i s)[k]? = _ := h
    rw [set_at h₀] at h
    split at h
    · cases h; rcases hs with ⟨r, h⟩ | ⟨x, t, snap, b, k, h, -⟩ | ⟨x, t, id, b, h, -⟩ <;> cases h
    · obtain ⟨b, h1, h2⟩ := K.handout k y h
      exact ⟨b, h1, by omega⟩
  · intro k y t snap h
    replace h : (c.sessions.set i s)[k]? = _ := h
    rw [set_at h₀] at h
    split at h
    · rename_i hk; subst hk
      cases h
      rcases hs with ⟨r, h⟩ | ⟨x, t, snap, b, k, h, h'⟩ | ⟨x, t, id, b, h, -⟩
      · cases h
      · cases h; exact ⟨b, k, h'⟩
      · cases h
    · obtain ⟨b, k', h1, h2, h3, h4⟩ := K.looking k y t snap h
      exact ⟨b, k', h1, h2, by omega, h4⟩
  · intro k y t id h
    replace h : (c.sessions.set i s)[k]? = _ := h
    rw [set_at h₀] at h
    split at h
    · rename_i hk; subst hk
      cases h
      rcases hs with ⟨r, h⟩ | ⟨x, t, snap, b, k, h, h'⟩ | ⟨x, t, id, b, h, h'⟩
      · cases h
      · cases h
      · cases h; exact ⟨b, h'⟩
    · exact K.locked k y t id h

end Tracking

private theorem keeps_table {c : PgConc} {pg : Pg} {begun : List (Nat × Api)}
    (h : ∀ id, c.rowLocked id = true → ∀ r ∈ pg.rows, r.id = id → r ∈ c.pg.rows) (i : Nat) :
    Keeps c { c with pg := pg } begun (begun ++ []) i := by
  intro x t id hl
  exact ⟨hl, by rw [List.append_nil], h id (rowLocked_iff.mpr ⟨i, _, hl, rfl⟩)⟩

private theorem keeps_session {c : PgConc} {begun : List (Nat × Api)} {i : Nat} {s₀ s : Session} (h₀ : c.sessions[i]? = some s₀)
    (h₁ : s₀.rowLock = none) (k : Nat) : Keeps c { c with sessions := c.sessions.set i s } begun (begun ++ []) k := by
  intro x t id hl
  refine ⟨?_, by rw [List.append_nil], fun r hr _ => hr⟩
  show (c.sessions.set i s)[k]? = _
  rw [set_at h₀, if_neg, hl]
  rintro rfl
  rw [hl] at h₀; cases h₀; cases h₁

private theorem pend_table {c : PgConc} (pg : Pg) (i : Nat) : i ∈ pend { c with pg := pg } ↔ i ∈ pend c := Iff.rfl

private theorem pend_session {c : PgConc} {pg : Pg} {i : Nat} {s₀ s : Session} (h₀ : c.sessions[i]? = some s₀) (k : Nat) :
    k ∈ pend { pg := pg, sessions := c.sessions.set i s } ↔ (k = i ∧ s.rowLock.isSome) ∨ (k ≠ i ∧ k ∈ pend c) := by
  rw [mem_pend, mem_pend]
  show (∃ s' id, (c.sessions.set i s)[k]? = some s' ∧ _) ↔ _
  rw [set_at h₀]
  by_cases hk : k = i
  · simp only [hk, if_true, Option.some.injEq, true_and, ne_eq, not_true, false_and, or_false, Option.isSome_iff_exists]
    constructor
    · rintro ⟨_, id, rfl, h⟩; exact ⟨id, h⟩
    · rintro ⟨id, h⟩; exact ⟨_, id, rfl, h⟩
  · simp [hk]

section Main

variable {hash : HashFn} {T : Time → Prop} {Read : Nat → Time → Prop} {n : Nat} {c : PgConc} {begun : List (Nat × Api)} {q : Pg}
  {now : Time} {tie : Int → Nat} {as : List TPgAct}

private theorem made_opened (B : Beside T c q) (K : Tracked Read n begun c) (x : String)
    (ih : ∀ begun' q', Beside T (c.step hash tie now (.handout x)).2 q' → Tracked Read (n + 1) begun' (c.step hash tie now (.handout x)).2 →
      Result hash Read (n + 1) (c.step hash tie now (.handout x)).2 begun' q' as) :
    Result hash Read n c begun q (⟨now, tie, .handout x⟩ :: as) := by
  have hi := B.inv.step hash tie now (.handout x)
  refine result_quiet (ih _ _ (B.opened x hi) (K.opened x)) rfl ?_ ?_
  · intro i
    rw [mem_pend, mem_pend]
    show (∃ s id, (c.sessions ++ [.handout x])[i]? = some s ∧ _) ↔ _
    constructor
    · rintro ⟨s, id, hs, hl⟩
      by_cases hi : i < c.sessions.length
      · rw [List.getElem?_append_left hi] at hs; exact ⟨s, id, hs, hl⟩
      · rw [List.getElem?_append_right (by omega)] at hs
        have := List.mem_of_getElem? hs
        cases List.mem_singleton.mp this
        cases hl
    · rintro ⟨s, id, hs, hl⟩
      exact ⟨s, id, by rw [List.getElem?_append_left (List.getElem?_eq_some_iff.mp hs).1]; exact hs, hl⟩
  · intro i y t id hl
    have hlen := (List.getElem?_eq_some_iff.mp hl).1
    refine ⟨?_, ?_, fun r hr _ => hr⟩
    · show (c.sessions ++ [.handout x])[i]? = _
      rw [List.getElem?_append_left hlen]; exact hl
    · exact List.getElem?_append_left (by rw [K.len]; exact hlen)

private theorem made_plain (B : Beside T c q) (K : Tracked Read n begun c) (e : EnqueuableJob) (hR : Read n now)
    (hc : e.criteria = none) (hlate : LateFor T e.scheduledAt)
    (ih : ∀ begun' q', Beside T (c.step hash tie now (.plain e)).2 q' → Tracked Read (n + 1) begun' (c.step hash tie now (.plain e)).2 →
      Result hash Read (n + 1) (c.step hash tie now (.plain e)).2 begun' q' as) :
    Result hash Read n c begun q (⟨now, tie, .plain e⟩ :: as) := by
  have hi := B.inv.step hash tie now (.plain e)
  by_cases hs : c.pg.seq ≥ 2147483647
  · have hst : c.step hash tie now (.plain e) = (.internal, c) := by simp only [PgConc.step, if_pos hs]
    have hq : q.api hash tie now (.enqueue e) = (.err .badState, q) := by
      simp only [Pg.api, Pg.enqueue, hc, Pg.insert, B.seq, if_pos hs]
    refine result_call (m := ⟨n, n, .enqueue e, .err .badState⟩) (t := now) (tie := tie) ?_ ?_ ?_ ?_ ?_ (Nat.le_refl _) rfl ⟨n, Nat.le_refl _, Nat.le_refl _, hR⟩
    · simp only [hq]
      refine ih _ _ ?_ ?_
      · rw [hst]; exact B
      · rw [hst]; exact K.next c.pg
    · simp only [hst, callsEnding]
    · intro i; rw [hst]
    · intro i; simp only [hst]; exact keeps_table (pg := c.pg) (fun _ _ r hr _ => hr) i
    · rw [hq]
  · have hst : c.step hash tie now (.plain e) = (.inserted (e.toRow now (c.pg.seq + 1 : Nat) none) none,
        { c with pg := { rows := c.pg.rows ++ [e.toRow now (c.pg.seq + 1 : Nat) none], seq := c.pg.seq + 1 } }) := by
      simp only [PgConc.step, if_neg hs]
    have hq : q.api hash tie now (.enqueue e) = (.id (c.pg.seq + 1 : Nat),
        { rows := q.rows ++ [e.toRow now (c.pg.seq + 1 : Nat) none], seq := c.pg.seq + 1 }) := by
      simp only [Pg.api, Pg.enqueue, hc, Pg.insert, B.seq, if_neg hs]
    have hnew : (e.toRow now (c.pg.seq + 1 : Nat) none).id ∉ rowIds c.pg.rows := by
      intro h
      have := B.inv.bound _ h
      simp only [EnqueuableJob.toRow] at this
      omega
    refine result_call (m := ⟨n, n, .enqueue e, .id (c.pg.seq + 1 : Nat)⟩) (t := now) (tie := tie) ?_ ?_ ?_ ?_ ?_ (Nat.le_refl _) rfl ⟨n, Nat.le_refl _, Nat.le_refl _, hR⟩
    · simp only [hq]
      refine ih _ _ ?_ ?_
      · rw [hst] at hi ⊢
        exact B.append hnew (fun t x ht => late_not_ready hlate ht rfl x) hi
      · rw [hst]; exact K.next _
    · simp only [hst, callsEnding]; rfl
    · intro i; rw [hst]; exact pend_table _ i
    · intro i; simp only [hst]
      refine keeps_table (fun id hl r hr he => ?_) i
      rcases List.mem_append.mp hr with hr | hr
      · exact hr
      · rw [List.mem_singleton] at hr
        subst hr
        obtain ⟨k, x, t, hk⟩ := (B.locked id).mp hl
        obtain ⟨r', hr', he', -⟩ := B.inv.lockedReady k x t id hk
        exact absurd (mem_rowIds.mpr ⟨r', hr', he'.trans he.symm⟩) hnew
    · rw [hq]

private theorem made_stmt (B : Beside T c q) (K : Tracked Read n begun c) (o : Op) (hR : Read n now)
    (hcalm : PgAct.Calm (LateFor T) (.stmt o))
    (ih : ∀ begun' q', Beside T (c.step hash tie now (.stmt o)).2 q' → Tracked Read (n + 1) begun' (c.step hash tie now (.stmt o)).2 →
      Result hash Read (n + 1) (c.step hash tie now (.stmt o)).2 begun' q' as) :
    Result hash Read n c begun q (⟨now, tie, .stmt o⟩ :: as) := by
  have hi := B.inv.step hash tie now (.stmt o)
  have hload : ∀ x, o ≠ .load x := by rintro x rfl; exact hcalm
  have hgen : c.step hash tie now (.stmt o) = if (o.needs tie now c.pg.rows).any c.rowLocked then (.blocked, c)
      else (.stmt o (c.pg.step tie now o).1, { c with pg := (c.pg.step tie now o).2 }) := by
    cases o <;> first | rfl | exact absurd rfl (hload _)
  by_cases hb : (o.needs tie now c.pg.rows).any c.rowLocked = true
  · rw [if_pos hb] at hgen
    refine result_quiet (ih _ _ ?_ ?_) ?_ ?_ ?_
    · rw [hgen]; exact B
    · rw [hgen]; exact K.next c.pg
    · simp only [hgen, callsEnding]
    · intro i; rw [hgen]
    · intro i; simp only [hgen]; exact keeps_table (pg := c.pg) (fun _ _ r hr _ => hr) i
  · rw [if_neg hb] at hgen
    -- the call has the same answer for the calls made one after another
    have key : (q.step tie now o).1 = (c.pg.step tie now o).1 ∧
        Beside T { c with pg := (c.pg.step tie now o).2 } (q.step tie now o).2 ∧
        ∀ id, c.rowLocked id = true → ∀ r ∈ (c.pg.step tie now o).2.rows, r.id = id → r ∈ c.pg.rows := by
      rw [hgen] at hi
      have one : ∀ id f, o.needs tie now c.pg.rows = [id] → (∀ r : Row, (f r).id = r.id) → (∀ (p : Pg), p.step tie now o = p.onRow id f) →
          (∀ r t x, T t → (f r).ready t x = false) →
          (q.step tie now o).1 = (c.pg.step tie now o).1 ∧ Beside T { c with pg := (c.pg.step tie now o).2 } (q.step tie now o).2 ∧
          ∀ id, c.rowLocked id = true → ∀ r ∈ (c.pg.step tie now o).2.rows, r.id = id → r ∈ c.pg.rows := by
        intro id f h1 h2 h3 h4
        have hids : rowIds q.rows = rowIds c.pg.rows := by
          obtain ⟨L, hq, -⟩ := B.rows
          simp only [rowIds, hq, List.map_map]
          exact List.map_congr_left fun r _ => ahead_id L r
        have hl : c.rowLocked id = false := by
          rw [h1] at hb; simpa using hb
        simp only [h3] at hi ⊢
        rcases onRow_cases id f c.pg B.inv.nodup with ⟨hm, h5⟩ | ⟨hm, h5⟩ <;>
          rcases onRow_cases id f q (hids ▸ B.inv.nodup) with ⟨hm', h5'⟩ | ⟨hm', h5'⟩
        · rw [h5, h5']; exact ⟨rfl, B, fun _ _ r hr _ => hr⟩
        · rw [hids] at hm'; exact absurd hm' hm
        · rw [hids] at hm'; exact absurd hm hm'
        · rw [h5] at hi
          rw [h5, h5']
          refine ⟨rfl, B.update hl h2 h4 hi, ?_⟩
          intro id' hl' r hr he
          obtain ⟨r', hr', rfl⟩ := updateRows_mem.mp hr
          split at he
          · rename_i h
            rw [h2, h] at he
            rw [he, hl'] at hl; cases hl
          · rename_i h
            rw [if_neg h]; exact hr'
      cases o with
      | complete id => exact one id (Row.markComplete now) rfl (fun _ => rfl) (fun _ => rfl) (fun r t x _ => by simp [Row.ready, Row.markComplete])
      | discarded id e => exact one id (Row.markDiscarded now e) rfl (fun _ => rfl) (fun _ => rfl) (fun r t x _ => by simp [Row.ready, Row.markDiscarded])
      | cancelled id e => exact one id (Row.markCancelled now e) rfl (fun _ => rfl) (fun _ => rfl) (fun r t x _ => by simp [Row.ready, Row.markCancelled])
      | retryable id next e => exact one id (Row.markRetryable now next e) rfl (fun _ => rfl) (fun _ => rfl) (fun r t x ht => late_not_ready hcalm ht rfl x)
      | snoozed id next => exact one id (Row.markSnoozed next) rfl (fun _ => rfl) (fun _ => rfl) (fun r t x ht => late_not_ready hcalm ht rfl x)
      | prune spec =>
        refine ⟨rfl, B.prune hcalm hi, ?_⟩
        intro id _ r hr _
        exact (prune_mem.mp hr).1
      | rerun id => exact hcalm.elim
      | update j => exact hcalm.elim
      | query q => exact hcalm.elim
      | load x => exact hcalm.elim
      | subscribe x => exact hcalm.elim
      | notifyAll => exact hcalm.elim
    refine result_call (m := ⟨n, n, .op o, (c.pg.step tie now o).1⟩) (t := now) (tie := tie) ?_ ?_ ?_ ?_ key.1 (Nat.le_refl _) rfl ⟨n, Nat.le_refl _, Nat.le_refl _, hR⟩
    · refine ih _ _ ?_ ?_
      · rw [hgen]; exact key.2.1
      · rw [hgen]; exact K.next _
    · simp only [hgen, callsEnding]
    · intro i; rw [hgen]; exact pend_table _ i
    · intro i; simp only [hgen]; exact keeps_table key.2.2 i

private theorem made_advance (B : Beside T c q) (K : Tracked Read n begun c) (i : Nat) (hR : Read n now) (hT : T now)
    (ih : ∀ begun' q', Beside T (c.step hash tie now (.advance i)).2 q' → Tracked Read (n + 1) begun' (c.step hash tie now (.advance i)).2 →
      Result hash Read (n + 1) (c.step hash tie now (.advance i)).2 begun' q' as) :
    Result hash Read n c begun q (⟨now, tie, .advance i⟩ :: as) := by
  have hi := B.inv.step hash tie now (.advance i)
  have same : c.step hash tie now (.advance i) = (.internal, c) → (c.sessions[i]? = none ∨ ∃ r, c.sessions[i]? = some (.done r)) →
      Result hash Read n c begun q (⟨now, tie, .advance i⟩ :: as) := by
    intro hst hs
    refine result_quiet (ih _ _ ?_ ?_) ?_ ?_ ?_
    · rw [hst]; exact B
    · rw [hst]; exact K.next c.pg
    · simp only [hst, callsEnding]
      rcases hs with hs | ⟨r, hs⟩ <;> simp [hs]
    · intro k; rw [hst]
    · intro k; simp only [hst]; exact keeps_table (pg := c.pg) (fun _ _ r hr _ => hr) k
  cases hs : c.sessions[i]? with
  | none => exact same (by simp only [PgConc.step, hs]) (.inl hs)
  | some s =>
    have hset : c.sessions.set i s = c.sessions := by
      obtain ⟨h, rfl⟩ := List.getElem?_eq_some_iff.mp hs
      exact List.set_getElem_self h
    rcases B.sess s (List.mem_of_getElem? hs) with ⟨x, rfl⟩ | ⟨x, t, snap, rfl⟩ | ⟨x, t, id, rfl⟩ | ⟨r, rfl⟩
    · -- the statement begins
      obtain ⟨b, hb, hbn⟩ := K.handout i x hs
      have hst : c.step hash tie now (.advance i) = (.internal, { c with sessions := c.sessions.set i (.looking x now c.pg.rows) }) := by
        simp only [PgConc.step, hs, PgConc.advance]
      rw [hst] at hi
      refine result_quiet (ih _ _ ?_ ?_) ?_ ?_ ?_
      · rw [hst]; exact B.moved hs rfl (.inr ⟨x, now, rfl, hT⟩) hi
      · rw [hst]; exact K.moved c.pg hs (.inr (.inl ⟨x, now, _, b, n, rfl, hb, by omega, by omega, hR⟩))
      · simp only [hst, callsEnding, hs, set_at hs, if_true]
      · intro k
        rw [hst, pend_session hs]
        constructor
        · rintro (⟨-, h⟩ | ⟨-, h⟩)
          · cases h
          · exact h
        · intro h
          refine .inr ⟨?_, h⟩
          rintro rfl
          obtain ⟨s, id, h1, h2⟩ := mem_pend.mp h
          rw [hs] at h1; cases h1; cases h2
      · intro k; simp only [hst]; exact keeps_session hs rfl k
    · -- it picks a row
      obtain ⟨b, k, hb, hbk, hkn, hk⟩ := K.looking i x t snap hs
      have hpick := B.pick (List.mem_of_getElem? hs) tie
      have hnp : i ∉ pend c := by
        intro h
        obtain ⟨s, id, h1, h2⟩ := mem_pend.mp h
        rw [hs] at h1; cases h1; cases h2
      cases hr : (sortBy (Row.before tie) (q.rows.filter (Row.ready t x))).head? with
      | none =>
        rw [hr] at hpick
        have hst : c.step hash tie now (.advance i) = (.noJob, { c with sessions := c.sessions.set i (.done (.job none)) }) := by
          simp only [PgConc.step, hs, PgConc.advance, hpick]
        have hq : q.api hash tie t (.op (.load x)) = (.job none, q) := load_none hr
        rw [hst] at hi
        refine result_call (m := ⟨b, n, .op (.load x), .job none⟩) (t := t) (tie := tie) ?_ ?_ ?_ ?_ ?_ (by show b ≤ n; omega) rfl
          ⟨k, hbk, by omega, hk⟩
        · simp only [hq]
          refine ih _ _ ?_ ?_
          · rw [hst]; exact B.moved hs rfl (.inl ⟨_, rfl⟩) hi
          · rw [hst]; exact K.moved c.pg hs (.inl ⟨_, rfl⟩)
        · simp only [hst, callsEnding, hs, set_at hs, if_true, hb]
        · intro k'
          rw [hst, pend_session hs]
          constructor
          · rintro (⟨-, h⟩ | ⟨-, h⟩)
            · cases h
            · exact h
          · intro h
            exact .inr ⟨fun e => hnp (e ▸ h), h⟩
        · intro k'; simp only [hst]; exact keeps_session hs rfl k'
        · rw [hq]
      | some r =>
        rw [hr] at hpick
        have hst : c.step hash tie now (.advance i) = (.internal, { c with sessions := c.sessions.set i (.locked x t r.id) }) := by
          simp only [PgConc.step, hs, PgConc.advance, hpick]
        have hq : q.api hash tie t (.op (.load x)) = _ := load_some hr
        rw [hst] at hi
        obtain ⟨hm, hnl, B'⟩ := B.lock hs hr hi
        refine result_lock (i := i) (x := x) (t := t) (r := r) (tie := tie) (b := b) ?_ ?_ hnp ?_ ?_ ?_ ?_ ?_ ?_ (by omega) ⟨k, hbk, hkn, hk⟩
        · simp only [hq]
          refine ih _ _ ?_ ?_
          · rw [hst]; exact B'
          · rw [hst]; exact K.moved c.pg hs (.inr (.inr ⟨x, t, r.id, b, rfl, hb⟩))
        · simp only [hst, callsEnding, hs, set_at hs, if_true]
        · intro k'
          rw [hst, pend_session hs]
          by_cases h : k' = i
          · simp [h, Session.rowLock]
          · simp [h]
        · intro k'; simp only [hst]; exact keeps_session hs rfl k'
        · simp only [hst]; rw [set_at hs, if_pos rfl]
        · intro r' hr' he
          simp only [hst] at hr'
          exact row_unique B.inv.nodup hr' hm he
        · show (begun ++ [])[i]? = _
          rw [List.append_nil]; exact hb
        · rw [hq]
    · -- it commits
      obtain ⟨b, hb⟩ := K.locked i x t id hs
      obtain ⟨r₀, hr₀, he₀, -⟩ := B.inv.lockedReady i x t id hs
      obtain ⟨r, hr⟩ : ∃ r, c.pg.rows.find? (fun r => r.id == id) = some r := by
        cases h : c.pg.rows.find? (fun r => r.id == id) with
        | some r => exact ⟨r, rfl⟩
        | none => exact absurd (List.find?_eq_none.mp h r₀ hr₀) (by simp [he₀])
      have hrm := List.mem_of_find?_eq_some hr
      have hrid : r.id = id := by simpa using List.find?_some hr
      have hst : c.step hash tie now (.advance i) = (.handedOut (r.markExecuting t) (handoutAnswer (r.markExecuting t)),
          { pg := { c.pg with rows := (updateRows id (Row.markExecuting t) c.pg.rows).1 },
            sessions := c.sessions.set i (.done (handoutAnswer (r.markExecuting t))) }) := by
        simp only [PgConc.step, hs, PgConc.advance, hr, handoutAnswer]
        rfl
      rw [hst] at hi
      refine result_commit (i := i) (x := x) (t := t) (id := id) (m := ⟨b, n, .op (.load x), handoutAnswer (r.markExecuting t)⟩)
        (ih _ _ ?_ ?_) ?_ ?_ ?_ ?_ hs ⟨Nat.le_refl _, hb, r, hrm, hrid, rfl⟩
      · rw [hst]; exact B.commit hs hi
      · rw [hst]; exact K.moved _ hs (.inl ⟨_, rfl⟩)
      · simp only [hst, callsEnding, hs, set_at hs, if_true, hb]
      · rw [hst, pend_session hs]
        simp [Session.rowLock]
      · intro k
        rw [hst, pend_session hs]
        by_cases h : k = i
        · subst h
          simp only [true_or, iff_true]
          exact mem_pend.mpr ⟨_, _, hs, rfl⟩
        · simp [h]
      · intro k hk y t' id' hl
        simp only [hst]
        refine ⟨?_, by show (begun ++ [])[k]? = _; rw [List.append_nil], ?_⟩
        · rw [set_at hs, if_neg hk]; exact hl
        · intro r' hr' he
          obtain ⟨r'', hr'', rfl⟩ := updateRows_mem.mp hr'
          split at he
          · rename_i h
            have h' : r''.id = id' := he
            rw [h] at h'
            exact absurd (B.inv.lockOne k i _ _ id hl hs (by rw [h']; rfl) rfl) hk
          · rename_i h
            rw [if_neg h]; exact hr''
    · refine same ?_ (.inr ⟨r, hs⟩)
      simp only [PgConc.step, hs, PgConc.advance, hset]

end Main

private theorem made_result (hash : HashFn) (T : Time → Prop) (Read : Nat → Time → Prop) (as : List TPgAct) :
    ∀ (n : Nat) (c : PgConc) (begun : List (Nat × Api)) (q : Pg), Beside T c q → Tracked Read n begun c →
      (∀ a ∈ as, a.act.Calm (LateFor T)) → (∀ a ∈ as, T a.now) → (∀ j a, as[j]? = some a → Read (n + j) a.now) →
      (c.run hash as).Idle → Result hash Read n c begun q as := by
  induction as with
  | nil =>
    intro n c begun q B K _ _ _ hidle
    have none : ∀ (i : Nat) (s : Session), c.sessions[i]? = some s → s.rowLock = none := by
      intro i s h
      obtain ⟨r, rfl⟩ := hidle s (List.mem_of_getElem? h)
      rfl
    have hp : pend c = [] := by
      rw [List.eq_nil_iff_forall_not_mem]
      intro i h
      obtain ⟨s, id, h1, h2⟩ := mem_pend.mp h
      rw [none i s h1] at h2; cases h2
    refine ⟨[], fun _ => ⟨0, 0, .op .notifyAll, .unit⟩, ?_, ?_, List.Pairwise.nil, ?_, ?_⟩
    · simp [callsMade, hp]
    · intro i x t id h; exact absurd (none i _ h) (by simp [Session.rowLock])
    · simp
    · obtain ⟨L, hq, hL⟩ := B.rows
      have : q.rows = c.pg.rows := by
        rw [hq]
        conv => rhs; rw [← List.map_id c.pg.rows]
        apply List.map_congr_left
        intro r _
        refine ahead_none ?_
        cases h : L r.id with
        | none => rfl
        | some t =>
          obtain ⟨i, x, hi⟩ := (hL _ _).mp h
          exact absurd (none i _ hi) (by simp [Session.rowLock])
      have hs := B.seq
      show q = c.pg
      cases q; cases hc : c.pg
      simp_all
  | cons a as ih =>
    intro n c begun q B K hcalm hT hR hidle
    obtain ⟨now, tie, act⟩ := a
    have ih' : ∀ begun' q', Beside T (c.step hash tie now act).2 q' → Tracked Read (n + 1) begun' (c.step hash tie now act).2 →
        Result hash Read (n + 1) (c.step hash tie now act).2 begun' q' as := by
      intro begun' q' B' K'
      refine ih (n + 1) _ begun' q' B' K' (fun a h => hcalm a (List.mem_cons_of_mem _ h)) (fun a h => hT a (List.mem_cons_of_mem _ h)) ?_ hidle
      intro j a hj
      have := hR (j + 1) a (by simpa using hj)
      rwa [show n + (j + 1) = n + 1 + j by omega] at this
    have hc := hcalm _ (List.mem_cons_self ..)
    have ht : T now := hT _ (List.mem_cons_self ..)
    have hr : Read n now := hR 0 _ rfl
    cases act with
    | handout x => exact made_opened B K x ih'
    | advance i => exact made_advance B K i hr ht ih'
    | plain e => exact made_plain B K e hr hc.1 hc.2 ih'
    | stmt o => exact made_stmt B K o hr hc ih'
    | unique e uc => exact hc.elim
    | abort i => exact hc.elim

private theorem results_congr (hash : HashFn) {ties ties' : Nat → Int → Nat} (cs : List TApi) (p : Pg)
    (h : ∀ k, k < cs.length → ties k = ties' k) :
    p.results hash ties cs = p.results hash ties' cs ∧ p.runApi hash ties cs = p.runApi hash ties' cs := by
  induction cs generalizing p with
  | nil => exact ⟨rfl, rfl⟩
  | cons x cs ih =>
    have h0 : ties cs.length = ties' cs.length := h _ (by simp)
    obtain ⟨h1, h2⟩ := ih (p.api hash (ties' cs.length) x.now x.call).2 fun k hk => h k (by simp; omega)
    simp only [Pg.results, Pg.runApi, h0, h1, h2, and_self]

private theorem Chain.results {hash : HashFn} {q q' : Pg} {lin : List Lin} (h : Chain hash q lin q') :
    ∃ ties, q.results hash ties (lin.map fun e => ⟨e.time, e.call.call⟩) = lin.map (·.call.answer) ∧
      q.runApi hash ties (lin.map fun e => ⟨e.time, e.call.call⟩) = q' := by
  induction lin generalizing q with
  | nil => exact ⟨fun _ _ => 0, rfl, h⟩
  | cons e es ih =>
    obtain ⟨ties, h1, h2⟩ := ih h.2
    have hc := results_congr hash (ties := ties) (ties' := fun k => if k = es.length then e.tie else ties k)
      (es.map fun e => ⟨e.time, e.call.call⟩) (q.api hash e.tie e.time e.call.call).2 (by
        intro k hk
        simp only [List.length_map] at hk
        rw [if_neg (by omega)])
    refine ⟨fun k => if k = es.length then e.tie else ties k, ?_, ?_⟩
    · simp only [List.map_cons, Pg.results, List.length_map, if_true]
      rw [← hc.1, h1, h.1]
    · simp only [List.map_cons, Pg.runApi, List.length_map, if_true]
      rw [← hc.2, h2]

private theorem calm_mono {P Q : Time → Prop} (h : ∀ t, P t → Q t) {a : PgAct} (ha : a.Calm P) : a.Calm Q := by
  cases a with
  | plain e => exact ⟨ha.1, h _ ha.2⟩
  | stmt o => cases o <;> first | exact ha | exact h _ ha
  | _ => exact ha

/-- **C117, what holds.** Start from any reachable state in which no call is under way, and take
any schedule of hand-outs, of which none is given up, next to reports of how executions ended, plain
enqueues and pruning of finished jobs. If no job enqueued or put back meanwhile becomes due
before the end, then making the calls one after another in some order, which respects which
call had returned before which began, explains all answers and the table. Missing: jobs that
become due meanwhile (`C117_violated`), queries (`C117_violated_query`), unique enqueues,
rerun, update, pruning of waiting jobs, hand-outs that are given up. -/
theorem C117_calm_partial (hash : HashFn) (before as : List TPgAct)
    (h₀ : (PgConc.run hash {} before).Idle) (h₁ : ((PgConc.run hash {} before).run hash as).Idle)
    (hcalm : ∀ a ∈ as, a.act.Calm fun t => ∀ b ∈ as, pgTime b.now + 100000000 ≤ pgTime t) :
    ∃ order, Explains hash (PgConc.run hash {} before) as order := by
  generalize hc : PgConc.run hash {} before = c at *
  have hinv : PgInv c := hc ▸ pgInv hash before
  have none : ∀ (i : Nat) (s : Session), c.sessions[i]? = some s → ∃ r, s = .done r := fun i s h => h₀ s (List.mem_of_getElem? h)
  have B : Beside (fun t => ∃ b ∈ as, b.now = t) c c.pg := by
    refine ⟨hinv, fun s hs => .inr (.inr (.inr (h₀ s hs))), rfl, ⟨fun _ => Option.none, ?_, ?_⟩, ?_⟩
    · conv => lhs; rw [← List.map_id c.pg.rows]
      exact List.map_congr_left fun r _ => (ahead_none rfl).symm
    · intro id t
      refine ⟨(fun h => nomatch h), ?_⟩
      rintro ⟨i, x, h⟩
      obtain ⟨r, h⟩ := none i _ h; cases h
    · intro x t snap h
      obtain ⟨r, h⟩ := h₀ _ h; cases h
  have K : Tracked (fun k t => ∃ a, as[k]? = some a ∧ a.now = t) 0 (c.sessions.map fun _ => (0, Api.op .notifyAll)) c := by
    refine ⟨by simp, ?_, ?_, ?_⟩
    · intro i x h; obtain ⟨r, h⟩ := none i _ h; cases h
    · intro i x t snap h; obtain ⟨r, h⟩ := none i _ h; cases h
    · intro i x t id h; obtain ⟨r, h⟩ := none i _ h; cases h
  obtain ⟨lin, owed, r1, r2, r3, r4, r5⟩ := made_result hash _ _ as 0 c _ c.pg B K
    (fun a ha => calm_mono (fun t ht t' ht' => by obtain ⟨b, hb, rfl⟩ := ht'; exact ht b hb) (hcalm a ha))
    (fun a ha => ⟨a, ha, rfl⟩) (fun j a hj => ⟨a, by rw [Nat.zero_add]; exact hj, rfl⟩) h₁
  have hp : pend c = [] := by
    rw [List.eq_nil_iff_forall_not_mem]
    intro i h
    obtain ⟨s, id, h1, h2⟩ := mem_pend.mp h
    obtain ⟨r, rfl⟩ := none i s h1; cases h2
  rw [hp, List.map_nil, List.append_nil] at r1
  refine ⟨lin.map fun e => (e.call, e.time), ?_, ?_, ?_, ?_⟩
  · rw [List.map_map]
    exact r1.symm
  · rw [List.pairwise_map]; exact r3
  · intro x hx
    obtain ⟨e, he, rfl⟩ := List.mem_map.mp hx
    obtain ⟨-, k, h1, h2, a, h3, h4⟩ := r4 e he
    exact ⟨k, a, h3, h1, h2, h4⟩
  · obtain ⟨ties, h1, h2⟩ := r5.results
    refine ⟨ties, ?_, ?_⟩
    · simp only [List.map_map] at h1 ⊢
      exact h1
    · simp only [List.map_map] at h2 ⊢
      exact h2

/-- Three streams at once, an enqueue for the next day and a report: the streams get jobs 1 and 2 and
nothing, although none of them saw another's job executing when it began. -/
private def calmly : List TPgAct := List.map (pgAct 0) [
  .handout "mail", .handout "mail", .handout "mail", .advance 0, .advance 1, .advance 2,
  .plain { sampleEnq with scheduledAt := 86400 * sec }, .advance 1, .advance 2, .advance 2, .stmt (.complete 2), .advance 0, .advance 1]

example : ∃ order, Explains sampleHash (PgConc.run sampleHash {} twoJobs) calmly order := by
  refine C117_calm_partial _ _ _ (fun s hs => nomatch hs) ?_ ?_
  · have : ((PgConc.run sampleHash {} twoJobs).run sampleHash calmly).sessions.all (fun s => match s with | .done _ => true | _ => false) = true := by
      decide +kernel
    intro s hs
    have := List.all_eq_true.mp this s hs
    cases s <;> simp_all
  · intro a ha
    have h0 : ∀ b ∈ calmly, b.now = 0 := by
      intro a ha
      simp only [calmly, List.mem_map] at ha
      obtain ⟨_, _, rfl⟩ := ha; rfl
    have hlate : ∀ b ∈ calmly, pgTime b.now + 100000000 ≤ pgTime (86400 * sec) := by
      intro b hb; rw [h0 b hb]; decide
    simp only [calmly, List.map_cons, List.map_nil, List.mem_cons, List.not_mem_nil, or_false] at ha
    rcases ha with rfl | rfl | rfl | rfl | rfl | rfl | rfl | rfl | rfl | rfl | rfl | rfl | rfl <;>
      first | exact trivial | exact ⟨rfl, hlate⟩

example : ((PgConc.run sampleHash {} twoJobs).callsReturned sampleHash calmly).map (fun m => (m.began, m.ended, m.answer.number)) =
    [(6, 6, some 3), (2, 9, some 2), (10, 10, none), (0, 11, none), (1, 12, some 1)] := by decide +kernel

end Rexecutor
