import Verif.Model.Poison
import Verif.Model.PgConc
import Verif.Lemmas.ListLemmas
import Verif.Spec.Samples
import Verif.Spec.History
import Verif.Spec.Pg

/-! # C147: an enqueue that fails leaves the stored jobs as they were -/

namespace Rexecutor

/-! ## In memory -/

/-- The call has stored something, or is over and succeeded. -/
private def Pending.Past (p : Pending) : Prop := (∃ id e, p = .pushed id e) ∨ ∃ id, p = .done (.id id)

private theorem past_advance {now : Time} {m : Mem} {p : Pending} (h : p.Past) : (m.advance now p).2.1.Past := by
  rcases h with ⟨id, e, rfl⟩ | ⟨id, rfl⟩
  · exact .inr ⟨id, rfl⟩
  · exact .inr ⟨id, rfl⟩

private theorem past_poisoned {now : Time} {m : Mem} {p : Pending} (h : p.Past) : (m.advancePoisoned now p).2.1.Past := by
  rcases h with ⟨id, e, rfl⟩ | ⟨id, rfl⟩
  · exact .inr ⟨id, rfl⟩
  · exact .inr ⟨id, rfl⟩

private theorem jobs_advance {now : Time} {m : Mem} {p : Pending} :
    (m.advance now p).2.2.jobs = m.jobs ∨ (m.advance now p).2.1.Past := by
  cases p with
  | start e =>
    left
    simp only [Mem.advance]
    split
    · rfl
    · split <;> rfl
  | noMatch e => exact .inl rfl
  | allocated id e => exact .inr (.inl ⟨id, e, rfl⟩)
  | pushed id e => exact .inr (.inr ⟨id, rfl⟩)
  | matched job =>
    rcases onJob_cases job.id (fun _ => job) true m with ⟨-, hr⟩ | ⟨_, _, _, -, -, -, h4, -, -⟩
    · have hu : m.update job = (.err (.jobNotFound job.id), m) := hr
      left
      simp only [Mem.advance, hu]
    · have hu : m.update job = (.unit, (m.update job).2) := Prod.ext h4 rfl
      right
      simp only [Mem.advance]
      rw [hu]
      exact .inr ⟨job.id, rfl⟩
  | done r => exact .inl rfl

private theorem jobs_poisoned {now : Time} {m : Mem} {p : Pending} : (m.advancePoisoned now p).2.2.jobs = m.jobs := by
  cases p with
  | start e =>
    simp only [Mem.advancePoisoned]
    split <;> rename_i h
    · simp [Mem.advance, h]
    · rfl
  | noMatch e => rfl
  | allocated id e => rfl
  | pushed id e =>
    simp only [Mem.advancePoisoned, Mem.advance, Mem.notify]
    split <;> rfl
  | matched job => rfl
  | done r => rfl

private theorem past_set {calls : List Pending} {i j : Nat} {p q p' : Pending} (hi : calls[i]? = some p) (hp : p.Past)
    (hj : calls[j]? = some q) (hq : q.Past → p'.Past) : ∃ p, (calls.set j p')[i]? = some p ∧ p.Past := by
  by_cases h : j = i
  · subst h
    rw [hi] at hj; cases hj
    have hlt : j < calls.length := by
      rcases Nat.lt_or_ge j calls.length with h' | h'
      · exact h'
      · rw [List.getElem?_eq_none h'] at hi; cases hi
    exact ⟨p', List.getElem?_set_self hlt, hq hp⟩
  · exact ⟨p, by rw [List.getElem?_set_ne h]; exact hi, hp⟩

private theorem past_conc {now : Time} {c : Conc} {a : Act} {i : Nat} {p : Pending} (hi : c.calls[i]? = some p) (hp : p.Past) :
    ∃ p, (c.step now a).2.calls[i]? = some p ∧ p.Past := by
  cases a with
  | start e =>
    have hlt : i < c.calls.length := by
      rcases Nat.lt_or_ge i c.calls.length with h' | h'
      · exact h'
      · rw [List.getElem?_eq_none h'] at hi; cases hi
    exact ⟨p, by simp only [Conc.step]; rw [List.getElem?_append_left hlt]; exact hi, hp⟩
  | op o => exact ⟨p, hi, hp⟩
  | advance j =>
    simp only [Conc.step]
    cases hj : c.calls[j]? with
    | none => exact ⟨p, hi, hp⟩
    | some q => exact past_set hi hp hj past_advance

private theorem past_step {now : Time} {s : Locked} {a : Act} {i : Nat} {p : Pending} (hi : s.conc.calls[i]? = some p) (hp : p.Past) :
    ∃ p, (s.step now a).2.conc.calls[i]? = some p ∧ p.Past := by
  unfold Locked.step
  split
  · cases a with
    | start e => exact past_conc (now := now) (a := .start e) hi hp
    | op o => cases o <;> exact ⟨p, hi, hp⟩
    | advance j =>
      simp only [Conc.stepPoisoned]
      cases hj : s.conc.calls[j]? with
      | none => exact ⟨p, hi, hp⟩
      | some q => exact past_set hi hp hj past_poisoned
  · split
    · split
      · exact ⟨p, hi, hp⟩
      · exact past_conc hi hp
    · exact past_conc hi hp

private theorem past_run {s : Locked} {as : List TAct} {i : Nat} {p : Pending} (hi : s.conc.calls[i]? = some p) (hp : p.Past) :
    ∃ p, (s.run as).conc.calls[i]? = some p ∧ p.Past := by
  induction as generalizing s p with
  | nil => exact ⟨p, hi, hp⟩
  | cons a as ih =>
    obtain ⟨q, hq, hq'⟩ := past_step (now := a.now) (a := a.act) hi hp
    exact ih hq hq'

private theorem failed_step {now : Time} {s : Locked} {i : Nat} :
    (s.step now (.advance i)).2.conc.mem.jobs = s.conc.mem.jobs ∨
    ∃ p, (s.step now (.advance i)).2.conc.calls[i]? = some p ∧ p.Past := by
  have hlt : ∀ {p}, s.conc.calls[i]? = some p → i < s.conc.calls.length := by
    intro p hi
    rcases Nat.lt_or_ge i s.conc.calls.length with h' | h'
    · exact h'
    · rw [List.getElem?_eq_none h'] at hi; cases hi
  unfold Locked.step
  split
  · left
    simp only [Conc.stepPoisoned]
    split
    · rfl
    · exact jobs_poisoned
  · simp only [Conc.step]
    cases hi : s.conc.calls[i]? with
    | none => exact .inl rfl
    | some p =>
      rcases jobs_advance (now := now) (m := s.conc.mem) (p := p) with h | h
      · exact .inl h
      · exact .inr ⟨_, List.getElem?_set_self (hlt hi), h⟩

/-- **C147, in memory.** From any state, also with a poisoned lock, through any interleaving:
if an enqueue call has failed in the end, then none of its steps has changed any stored job,
added one or removed one. -/
theorem C147_in_memory (s : Locked) (as : List TAct) (i : Nat) (err : BackendError)
    (herr : (s.run as).conc.calls[i]? = some (.done (.err err))) (n : Nat) (a : TAct) (hn : as[n]? = some a)
    (ha : a.act = .advance i) :
    (s.run (as.take (n + 1))).conc.mem.jobs = (s.run (as.take n)).conc.mem.jobs := by
  induction as generalizing s n with
  | nil => simp at hn
  | cons b as ih =>
    cases n with
    | succ n => exact ih (s.step b.now b.act).2 herr n (by simpa using hn)
    | zero =>
      simp only [List.getElem?_cons_zero, Option.some.injEq] at hn
      subst hn
      simp only [Nat.zero_add, List.take_succ_cons, List.take_zero, Locked.run]
      rw [ha]
      rcases failed_step (now := b.now) (s := s) (i := i) with h | ⟨p, h1, h2⟩
      · exact h
      · exfalso
        simp only [Locked.run] at herr
        rw [ha] at herr
        obtain ⟨q, h3, h4⟩ := past_run (as := as) h1 h2
        rw [herr] at h3
        cases h3
        rcases h4 with ⟨_, _, h⟩ | ⟨_, h⟩ <;> cases h

/-- A unique enqueue finds a job, which is pruned before it is replaced: the enqueue fails. -/
example :
    let as := enqSteps 0 0 sampleUnique ++ [⟨5, .start sampleUnique⟩, ⟨5, .advance 1⟩,
      call 6 (.prune ⟨.scheduled, .maxLength 1, .except []⟩), ⟨7, .advance 1⟩]
    (Locked.run {} as).conc.calls[1]? = some (.done (.err (.jobNotFound 0))) ∧ (Locked.run {} as).conc.mem.jobs = [] := by
  decide +kernel

/-! ## On Postgres -/

/-- The transaction of a unique enqueue that is not over. -/
private def Session.Busy : Session → Prop
  | .unique .. | .holding .. | .missing .. | .found .. | .inserted .. | .replacing .. => True
  | _ => False

private theorem busy_advance {hash : HashFn} {tie : Int → Nat} {now : Time} {c : PgConc} {s : Session} (h : s.Busy) :
    ((c.advance hash tie now s).2.2.rows = c.pg.rows ∧
      ((c.advance hash tie now s).2.1.Busy ∨ ∃ r, (c.advance hash tie now s).2.1 = .done r)) ∨
    ∃ id, (c.advance hash tie now s).2.1 = .done (.id id) := by
  cases s with
  | handout x => cases h
  | looking x t snap => cases h
  | locked x t id => cases h
  | done r => cases h
  | unique e uc t => left; simp only [PgConc.advance]; split <;> exact ⟨rfl, .inl trivial⟩
  | holding e uc t => left; simp only [PgConc.advance]; split <;> exact ⟨rfl, .inl trivial⟩
  | missing e uc t =>
    left; simp only [PgConc.advance]
    split
    · exact ⟨rfl, .inr ⟨_, rfl⟩⟩
    · exact ⟨rfl, .inl trivial⟩
  | inserted e uc row => exact .inr ⟨_, rfl⟩
  | found e uc id st =>
    left; simp only [PgConc.advance]
    (repeat' split) <;> first | exact ⟨rfl, .inl trivial⟩ | exact ⟨rfl, .inr ⟨_, rfl⟩⟩
  | replacing e uc rep id => exact .inr ⟨_, rfl⟩

/-- One step, seen from one session. -/
private theorem failed_session {hash : HashFn} {tie : Int → Nat} {now : Time} {c : PgConc} {a : PgAct} {i : Nat} {s : Session}
    (hs : c.sessions[i]? = some s) :
    (a = .advance i ∧ (c.step hash tie now a).2.sessions[i]? = some (c.advance hash tie now s).2.1 ∧
      (c.step hash tie now a).2.pg = (c.advance hash tie now s).2.2) ∨
    (a ≠ .advance i ∧ ((c.step hash tie now a).2.sessions[i]? = some s ∨
      ((∀ r, s ≠ .done r) ∧ (c.step hash tie now a).2.sessions[i]? = some (.done (.err .io))))) := by
  have hlt : i < c.sessions.length := by
    rcases Nat.lt_or_ge i c.sessions.length with h' | h'
    · exact h'
    · rw [List.getElem?_eq_none h'] at hs; cases hs
  cases a with
  | handout x => exact .inr ⟨fun e => (by cases e), .inl (by simp only [PgConc.step]; rw [List.getElem?_append_left hlt]; exact hs)⟩
  | unique e uc => exact .inr ⟨fun e => (by cases e), .inl (by simp only [PgConc.step]; rw [List.getElem?_append_left hlt]; exact hs)⟩
  | plain e => refine .inr ⟨fun e => (by cases e), .inl ?_⟩; simp only [PgConc.step]; split <;> exact hs
  | stmt o =>
    refine .inr ⟨fun e => (by cases e), .inl ?_⟩
    cases o <;> simp only [PgConc.step] <;> (try split) <;> exact hs
  | abort j =>
    refine .inr ⟨fun e => (by cases e), ?_⟩
    by_cases hij : j = i
    · subst hij
      cases s with
      | done r => left; simp only [PgConc.step, hs]
      | _ => right; refine ⟨fun _ e => (by cases e), ?_⟩; simp only [PgConc.step, hs]; exact List.getElem?_set_self hlt
    · left
      simp only [PgConc.step]
      split
      · exact hs
      · exact hs
      · show (c.sessions.set j _)[i]? = _
        rw [List.getElem?_set_ne hij]; exact hs
  | advance j =>
    by_cases hij : j = i
    · subst hij
      left
      refine ⟨rfl, ?_, ?_⟩
      · simp only [PgConc.step, hs]; exact List.getElem?_set_self hlt
      · simp only [PgConc.step, hs]
    · refine .inr ⟨fun e => hij (by cases e; rfl), .inl ?_⟩
      simp only [PgConc.step]
      split
      · exact hs
      · show (c.sessions.set j _)[i]? = _
        rw [List.getElem?_set_ne hij]; exact hs

private theorem done_stays {hash : HashFn} {c : PgConc} {as : List TPgAct} {i : Nat} {r : Res} (hs : c.sessions[i]? = some (.done r)) :
    (c.run hash as).sessions[i]? = some (.done r) ∧
    ∀ n a, as[n]? = some a → a.act = .advance i → (c.run hash (as.take (n + 1))).pg.rows = (c.run hash (as.take n)).pg.rows := by
  induction as generalizing c with
  | nil => exact ⟨hs, fun n a h => by simp at h⟩
  | cons b as ih =>
    have hs' : (c.step hash b.tie b.now b.act).2.sessions[i]? = some (.done r) ∧
        (b.act = .advance i → (c.step hash b.tie b.now b.act).2.pg.rows = c.pg.rows) := by
      rcases failed_session (hash := hash) (tie := b.tie) (now := b.now) (a := b.act) hs with ⟨-, h2, h3⟩ | ⟨h1, h2 | ⟨h2, -⟩⟩
      · exact ⟨h2, fun _ => by rw [h3]; rfl⟩
      · exact ⟨h2, fun e => absurd e h1⟩
      · exact absurd rfl (h2 r)
    refine ⟨(ih hs'.1).1, fun n a hn ha => ?_⟩
    cases n with
    | succ n => exact (ih hs'.1).2 n a (by simpa using hn) ha
    | zero =>
      simp only [List.getElem?_cons_zero, Option.some.injEq] at hn
      subst hn
      exact hs'.2 ha

private theorem busy_run {hash : HashFn} {c : PgConc} {as : List TPgAct} {i : Nat} {s : Session} (hs : c.sessions[i]? = some s)
    (hb : s.Busy) {err : BackendError} (herr : (c.run hash as).sessions[i]? = some (.done (.err err))) (n : Nat) (a : TPgAct)
    (hn : as[n]? = some a) (ha : a.act = .advance i) :
    (c.run hash (as.take (n + 1))).pg.rows = (c.run hash (as.take n)).pg.rows := by
  induction as generalizing c n s with
  | nil => simp at hn
  | cons b as ih =>
    simp only [PgConc.run] at herr
    have key : ((b.act = .advance i → (c.step hash b.tie b.now b.act).2.pg.rows = c.pg.rows) ∧
        ∃ s', (c.step hash b.tie b.now b.act).2.sessions[i]? = some s' ∧ (s'.Busy ∨ ∃ r, s' = .done r)) := by
      rcases failed_session (hash := hash) (tie := b.tie) (now := b.now) (a := b.act) hs with ⟨-, h2, h3⟩ | ⟨h1, h2 | ⟨-, h2⟩⟩
      · rcases busy_advance (hash := hash) (tie := b.tie) (now := b.now) (c := c) hb with ⟨g1, g2⟩ | ⟨id, g⟩
        · exact ⟨fun _ => by rw [h3]; exact g1, _, h2, g2⟩
        · exfalso
          rw [g] at h2
          have := (done_stays (hash := hash) (as := as) h2).1
          rw [herr] at this
          cases this
      · exact ⟨fun e => absurd e h1, s, h2, .inl hb⟩
      · exact ⟨fun e => absurd e h1, _, h2, .inr ⟨_, rfl⟩⟩
    obtain ⟨k1, s', k2, k3⟩ := key
    cases n with
    | zero =>
      simp only [List.getElem?_cons_zero, Option.some.injEq] at hn
      subst hn
      exact k1 ha
    | succ n =>
      rcases k3 with k3 | ⟨r, rfl⟩
      · exact ih k2 k3 herr n (by simpa using hn)
      · exact (done_stays (hash := hash) (as := as) k2).2 n a (by simpa using hn) ha

/-- **C147, on Postgres.** From any state in which a unique enqueue has just begun, through any
interleaving: if it has failed in the end, by an error of the database or because its
connection failed before the commit, then none of its steps has changed the table. -/
theorem C147_on_postgres (hash : HashFn) (c : PgConc) (as : List TPgAct) (i : Nat) (e : EnqueuableJob) (uc : Criteria) (t : Time)
    (hbegan : c.sessions[i]? = some (.unique e uc t)) (err : BackendError)
    (herr : (c.run hash as).sessions[i]? = some (.done (.err err))) (n : Nat) (a : TPgAct) (hn : as[n]? = some a)
    (ha : a.act = .advance i) :
    (c.run hash (as.take (n + 1))).pg.rows = (c.run hash (as.take n)).pg.rows :=
  busy_run hbegan trivial herr n a hn ha

/-- A unique enqueue loses its connection after the insert and before the commit. -/
example :
    let uc : Criteria := { executor := true, statuses := [.scheduled] }
    let as := [pgAct 0 (.advance 0), pgAct 0 (.advance 0), pgAct 0 (.advance 0), pgAct 1 (.abort 0), pgAct 1 (.advance 0)]
    let c := PgConc.run sampleHash {} [pgAct 0 (.unique sampleEnq uc)]
    c.sessions[0]? = some (.unique sampleEnq uc 0) ∧
    (c.run sampleHash (as.take 3)).sessions[0]? ≠ (c.run sampleHash (as.take 2)).sessions[0]? ∧
    (c.run sampleHash as).sessions[0]? = some (.done (.err .io)) ∧ (c.run sampleHash as).pg.rows = [] := by
  decide

end Rexecutor
