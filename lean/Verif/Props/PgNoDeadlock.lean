import Verif.Model.PgConc
import Verif.Model.Criteria
import Verif.Spec.Pg
import Verif.Spec.Samples

/-!
# C113: calls on Postgres do not wait for one another for ever

The theorems of this file hold from every state of the database, reachable or not.
-/

namespace Rexecutor

/-- The action begins a call that takes several steps. -/
def PgAct.opens : PgAct → Bool
  | .handout _ => true
  | .unique _ _ => true
  | _ => false

/-- The call of this session is over. -/
def Session.isOver : Session → Bool
  | .done _ => true
  | _ => false

/-! ## Steps left -/

private def Session.todo : Session → Nat
  | .handout _ => 3
  | .looking _ _ _ => 2
  | .locked _ _ _ => 1
  | .unique _ _ _ => 4
  | .holding _ _ _ => 3
  | .missing _ _ _ => 2
  | .found _ _ _ _ => 2
  | .inserted _ _ _ => 1
  | .replacing _ _ _ _ => 1
  | .done _ => 0

private def todoAll (ss : List Session) : Nat := (ss.map Session.todo).sum

private theorem todoAll_set {ss : List Session} {i : Nat} {s s' : Session} (h : ss[i]? = some s) :
    todoAll (ss.set i s') + s.todo = todoAll ss + s'.todo := by
  induction ss generalizing i with
  | nil => simp at h
  | cons a ss ih =>
    cases i with
    | zero =>
      simp only [List.getElem?_cons_zero, Option.some.injEq] at h
      subst h
      simp only [todoAll, List.set_cons_zero, List.map_cons, List.sum_cons]
      omega
    | succ i =>
      have := ih (i := i) (by simpa using h)
      simp only [todoAll, List.set_cons_succ, List.map_cons, List.sum_cons] at this ⊢
      omega

private theorem todoAll_le (ss : List Session) : todoAll ss ≤ 4 * ss.length := by
  induction ss with
  | nil => simp [todoAll]
  | cons a ss ih =>
    have : a.todo ≤ 4 := by cases a <;> simp [Session.todo]
    simp only [todoAll, List.map_cons, List.sum_cons, List.length_cons] at ih ⊢
    omega

private theorem over_of_todo {s : Session} (h : s.todo = 0) : s.isOver = true := by
  cases s <;> first | rfl | cases h

private theorem todoAll_zero {ss : List Session} (h : todoAll ss = 0) : ∀ s ∈ ss, s.isOver = true := by
  intro s hs
  obtain ⟨i, hi⟩ := List.mem_iff_getElem?.mp hs
  have := todoAll_set (s' := .done (.unit)) hi
  exact over_of_todo (by simp only [Session.todo] at this ⊢; omega)

/-- a session that takes a step, and does not have to wait, has fewer left -/
private theorem advance_todo (hash : HashFn) (tie : Int → Nat) (now : Time) (c : PgConc) (s : Session) :
    (s.isOver = true ∧ (c.advance hash tie now s).2.1 = s) ∨
    ((c.advance hash tie now s).1 = .blocked ∧ (c.advance hash tie now s).2.1 = s) ∨
    ((c.advance hash tie now s).1 ≠ .blocked ∧ (c.advance hash tie now s).2.1.todo < s.todo) := by
  cases s with
  | done r => exact .inl ⟨rfl, rfl⟩
  | handout x => refine .inr (.inr ⟨?_, ?_⟩) <;> simp [PgConc.advance, Session.todo]
  | looking x t snap => refine .inr (.inr ?_); simp only [PgConc.advance]; split <;> simp [Session.todo]
  | locked x t id => refine .inr (.inr ?_); simp only [PgConc.advance]; split <;> simp [Session.todo]
  | unique e uc t =>
    simp only [PgConc.advance]
    split
    · exact .inr (.inl ⟨rfl, rfl⟩)
    · exact .inr (.inr (by simp [Session.todo]))
  | holding e uc t => refine .inr (.inr ?_); simp only [PgConc.advance]; split <;> simp [Session.todo]
  | missing e uc t => refine .inr (.inr ?_); simp only [PgConc.advance]; split <;> simp [Session.todo]
  | inserted e uc row => refine .inr (.inr ?_); simp [PgConc.advance, Session.todo]
  | replacing e uc rep id => refine .inr (.inr ?_); simp [PgConc.advance, Session.todo]
  | found e uc id st =>
    simp only [PgConc.advance]
    split
    · split
      · split
        · exact .inr (.inr (by simp [Session.todo]))
        · split
          · exact .inr (.inl ⟨rfl, rfl⟩)
          · exact .inr (.inr (by simp [Session.todo]))
      · exact .inr (.inr (by simp [Session.todo]))
    · exact .inr (.inr (by simp [Session.todo]))

/-- whether a session has to wait depends on the other sessions only -/
private theorem blocked_sessions {hash : HashFn} {tie tie' : Int → Nat} {now now' : Time} {c c' : PgConc} {s : Session}
    (h : c.sessions = c'.sessions) (hb : (c'.advance hash tie' now' s).1 = .blocked) : (c.advance hash tie now s).1 = .blocked := by
  cases s with
  | done r => simp [PgConc.advance] at hb
  | handout x => simp [PgConc.advance] at hb
  | looking x t snap => simp only [PgConc.advance] at hb; split at hb <;> cases hb
  | locked x t id => simp only [PgConc.advance] at hb; split at hb <;> cases hb
  | unique e uc t =>
    have hl : c.advisoryLocked hash (uc.identifier hash e.executor) = c'.advisoryLocked hash (uc.identifier hash e.executor) := by
      simp only [PgConc.advisoryLocked, h]
    simp only [PgConc.advance] at hb ⊢
    rw [hl]
    split at hb
    · rename_i hl; rw [if_pos hl]
    · cases hb
  | holding e uc t => simp only [PgConc.advance] at hb; split at hb <;> cases hb
  | missing e uc t => simp only [PgConc.advance] at hb; split at hb <;> cases hb
  | inserted e uc row => simp [PgConc.advance] at hb
  | replacing e uc rep id => simp [PgConc.advance] at hb
  | found e uc id st =>
    have hl : c.rowLocked id = c'.rowLocked id := by simp only [PgConc.rowLocked, h]
    simp only [PgConc.advance] at hb ⊢
    rw [hl]
    split at hb
    · rename_i h1
      split at hb
      · rename_i h2
        split at hb
        · cases hb
        · rename_i h3
          split at hb
          · rename_i h4
            simp only [h1, h2, h4, if_true]
            rw [if_neg h3]
          · cases hb
      · cases hb
    · cases hb

/-- **C113, no deadlock.** As long as some call is not over, there is one that can take its
next step without waiting, and that step brings it nearer to its end: it is not over
before. -/
theorem C113_never_stuck (hash : HashFn) (tie : Int → Nat) (now : Time) (c : PgConc)
    (h : ∃ s ∈ c.sessions, s.isOver = false) :
    ∃ (i : Nat) (s : Session), c.sessions[i]? = some s ∧ s.isOver = false ∧ (c.step hash tie now (.advance i)).1 ≠ .blocked := by
  have fin : ∀ s ∈ c.sessions, s.isOver = false → (c.advance hash tie now s).1 ≠ .blocked →
      ∃ (i : Nat) (s : Session), c.sessions[i]? = some s ∧ s.isOver = false ∧ (c.step hash tie now (.advance i)).1 ≠ .blocked := by
    intro s hs ho hb
    obtain ⟨i, hi⟩ := List.mem_iff_getElem?.mp hs
    exact ⟨i, s, hi, ho, by simp only [PgConc.step, hi]; exact hb⟩
  by_cases hrow : ∃ s ∈ c.sessions, s.rowLock ≠ none
  · obtain ⟨s, hs, hl⟩ := hrow
    refine fin s hs ?_ ?_
    · cases s <;> first | rfl | exact (hl rfl).elim
    · cases s with
      | locked x t id => simp only [PgConc.advance]; split <;> simp
      | replacing e uc rep id => simp [PgConc.advance]
      | _ => exact (hl rfl).elim
  · have hfree : ∀ id, c.rowLocked id = false := by
      intro id
      simp only [PgConc.rowLocked, List.any_eq_false, beq_iff_eq]
      intro s hs hl
      exact hrow ⟨s, hs, by rw [hl]; simp⟩
    by_cases hadv : ∃ s ∈ c.sessions, s.holder ≠ none
    · obtain ⟨s, hs, hl⟩ := hadv
      refine fin s hs ?_ ?_
      · cases s <;> first | rfl | exact (hl rfl).elim
      · cases s with
        | holding e uc t => simp only [PgConc.advance]; split <;> simp
        | missing e uc t => simp only [PgConc.advance]; split <;> simp
        | inserted e uc row => simp [PgConc.advance]
        | replacing e uc rep id => simp [PgConc.advance]
        | found e uc id st =>
          simp only [PgConc.advance, hfree]
          split
          · split
            · split <;> simp
            · simp
          · simp
        | _ => exact (hl rfl).elim
    · obtain ⟨s, hs, ho⟩ := h
      refine fin s hs ho ?_
      have hfree' : ∀ a, c.advisoryLocked hash a = false := by
        intro a
        simp only [PgConc.advisoryLocked, List.any_eq_false]
        intro s hs
        cases hh : s.holder with
        | none => simp
        | some p => exact (hadv ⟨s, hs, by rw [hh]; simp⟩).elim
      cases s with
      | handout x => simp [PgConc.advance]
      | looking x t snap => simp only [PgConc.advance]; split <;> simp
      | unique e uc t => simp [PgConc.advance, hfree']
      | locked x t id => exact (hrow ⟨_, hs, by simp [Session.rowLock]⟩).elim
      | done r => cases ho
      | _ => exact (hadv ⟨_, hs, by simp [Session.holder]⟩).elim

/-! ## Rounds -/

private theorem step_todo (hash : HashFn) (tie : Int → Nat) (now : Time) (c : PgConc) {a : PgAct} (ha : a.opens = false) :
    (c.step hash tie now a).2.sessions = c.sessions ∨
      (todoAll (c.step hash tie now a).2.sessions < todoAll c.sessions ∧
        (c.step hash tie now a).2.sessions.length = c.sessions.length) := by
  cases a with
  | handout x => cases ha
  | unique e uc => cases ha
  | plain e => simp only [PgConc.step]; split <;> exact .inl rfl
  | stmt o =>
    refine .inl ?_
    cases o <;> simp only [PgConc.step] <;> split <;> rfl
  | abort i =>
    simp only [PgConc.step]
    split
    · exact .inl rfl
    · exact .inl rfl
    · rename_i s hn hs
      refine .inr ⟨?_, by simp⟩
      have := todoAll_set (s' := .done (.err .io)) hs
      have h0 : s.todo ≠ 0 := by
        intro h
        cases s <;> first | exact hn _ rfl | cases h
      have hd : (Session.done (.err .io)).todo = 0 := rfl
      dsimp only
      omega
  | advance i =>
    simp only [PgConc.step]
    cases hs : c.sessions[i]? with
    | none => exact .inl rfl
    | some s =>
      have hset : ∀ s', s' = s → c.sessions.set i s' = c.sessions := by
        rintro s' rfl
        obtain ⟨hlt, he⟩ := List.getElem?_eq_some_iff.mp hs
        rw [← he, List.set_getElem_self]
      rcases advance_todo hash tie now c s with ⟨-, h⟩ | ⟨-, h⟩ | ⟨-, h⟩
      · exact .inl (hset _ h)
      · exact .inl (hset _ h)
      · refine .inr ⟨?_, by simp⟩
        have := todoAll_set (s' := (c.advance hash tie now s).2.1) hs
        simp only at this ⊢
        omega

private theorem run_todo (hash : HashFn) (as : List TPgAct) (c : PgConc) (ha : ∀ a ∈ as, a.act.opens = false) :
    (c.run hash as).sessions.length = c.sessions.length ∧ todoAll (c.run hash as).sessions ≤ todoAll c.sessions ∧
      (todoAll (c.run hash as).sessions = todoAll c.sessions → ∀ a ∈ as, ∀ i s, a.act = .advance i → c.sessions[i]? = some s →
        s.isOver = true ∨ ∀ tie now, (c.step hash tie now (.advance i)).1 = .blocked) := by
  induction as generalizing c with
  | nil => exact ⟨rfl, Nat.le_refl _, fun _ a h => nomatch h⟩
  | cons a as ih =>
    obtain ⟨h1, h2, h3⟩ := ih (c.step hash a.tie a.now a.act).2 fun b hb => ha b (List.mem_cons_of_mem _ hb)
    simp only [PgConc.run]
    rcases step_todo hash a.tie a.now c (ha a List.mem_cons_self) with h | ⟨h, hl⟩
    · rw [h] at h1 h2 h3
      refine ⟨h1, h2, fun he b hb i s hi hs => ?_⟩
      rcases List.mem_cons.mp hb with rfl | hb
      · rw [hi] at h
        rcases advance_todo hash b.tie b.now c s with ⟨g, -⟩ | ⟨g, -⟩ | ⟨-, g⟩
        · exact .inl g
        · refine .inr fun tie now => ?_
          simp only [PgConc.step, hs]
          exact blocked_sessions rfl g
        · exfalso
          have := todoAll_set (s' := (c.advance hash b.tie b.now s).2.1) hs
          simp only [PgConc.step, hs] at h
          rw [h] at this
          omega
      · rcases h3 he b hb i s hi hs with g | g
        · exact .inl g
        · refine .inr fun tie now => ?_
          have := g tie now
          generalize (c.step hash a.tie a.now a.act).2 = c' at h this
          simp only [PgConc.step, h, hs] at this ⊢
          exact blocked_sessions h.symm this
    · exact ⟨h1.trans hl, by omega, fun he => by omega⟩

/-- **C113, every call ends.** Let the calls under way each be given a turn again and again,
in any order, whatever else happens in between: other calls of one statement, calls that
are given up, further turns. If no further calls of several steps are begun, then after
four rounds for each of them all of them are over, and no call has to wait any more. -/
theorem C113_all_finish (hash : HashFn) (c : PgConc) (rounds : List (List TPgAct))
    (hopen : ∀ round ∈ rounds, ∀ a ∈ round, a.act.opens = false)
    (hturn : ∀ round ∈ rounds, ∀ i < c.sessions.length, ∃ a ∈ round, a.act = .advance i)
    (hmany : 4 * c.sessions.length ≤ rounds.length) :
    (∀ s ∈ (c.run hash rounds.flatten).sessions, s.isOver = true) ∧
      ∀ tie now a, ((c.run hash rounds.flatten).step hash tie now a).1 ≠ .blocked := by
  have key : ∀ (rounds : List (List TPgAct)) (c : PgConc) (n : Nat), c.sessions.length = n →
      (∀ round ∈ rounds, ∀ a ∈ round, a.act.opens = false) →
      (∀ round ∈ rounds, ∀ i < n, ∃ a ∈ round, a.act = .advance i) → todoAll c.sessions ≤ rounds.length →
      ∀ s ∈ (c.run hash rounds.flatten).sessions, s.isOver = true := by
    intro rounds
    induction rounds with
    | nil =>
      intro c n _ _ _ h
      exact todoAll_zero (Nat.le_zero.mp h)
    | cons round rounds ih =>
      intro c n hn ho ht hm
      obtain ⟨h1, h2, h3⟩ := run_todo hash round c (ho round List.mem_cons_self)
      have happ : ∀ (as bs : List TPgAct) (c : PgConc), c.run hash (as ++ bs) = (c.run hash as).run hash bs := by
        intro as
        induction as with
        | nil => intro bs c; rfl
        | cons a as ih => intro bs c; exact ih bs _
      rw [List.flatten_cons, happ]
      refine ih _ n (h1.trans hn) (fun r hr => ho r (List.mem_cons_of_mem _ hr)) (fun r hr => ht r (List.mem_cons_of_mem _ hr)) ?_
      simp only [List.length_cons] at hm
      by_cases hall : ∃ s ∈ c.sessions, s.isOver = false
      · have : todoAll (c.run hash round).sessions ≠ todoAll c.sessions := by
          intro he
          obtain ⟨i, s, hs, hso, hb⟩ := C113_never_stuck hash (fun _ => 0) 0 c hall
          obtain ⟨a, ha, hai⟩ := ht round List.mem_cons_self i (hn ▸ (List.getElem?_eq_some_iff.mp hs).1)
          rcases h3 he a ha i s hai hs with g | g
          · rw [hso] at g; cases g
          · exact hb (g _ _)
        omega
      · have : todoAll c.sessions = 0 := by
          have hz : ∀ ss : List Session, (∀ s ∈ ss, s.isOver = true) → todoAll ss = 0 := by
            intro ss
            induction ss with
            | nil => intro _; rfl
            | cons s ss ih =>
              intro h
              have h0 := h s List.mem_cons_self
              have := ih fun s hs => h s (List.mem_cons_of_mem _ hs)
              cases s <;> first | (simpa [todoAll, Session.todo] using this) | cases h0
          refine hz _ fun s hs => ?_
          cases ho : s.isOver with
          | true => rfl
          | false => exact (hall ⟨s, hs, ho⟩).elim
        omega
  have hover := key rounds c _ rfl hopen hturn (Nat.le_trans (todoAll_le _) hmany)
  refine ⟨hover, fun tie now a => ?_⟩
  generalize c.run hash rounds.flatten = c' at hover
  have hfree : ∀ id, c'.rowLocked id = false := by
    intro id
    simp only [PgConc.rowLocked, List.any_eq_false, beq_iff_eq]
    intro s hs hl
    have := hover s hs
    cases s <;> first | cases hl; done | cases this
  cases a with
  | handout x => simp [PgConc.step]
  | unique e uc => simp [PgConc.step]
  | plain e => simp only [PgConc.step]; split <;> simp
  | abort i => simp only [PgConc.step]; split <;> simp
  | stmt o =>
    have hany : ∀ l : List Int, l.any c'.rowLocked = false := fun l => by simp [hfree]
    cases o <;> simp [PgConc.step, hany]
  | advance i =>
    simp only [PgConc.step]
    split
    · simp
    · rename_i s hs
      have := hover s (List.mem_of_getElem? hs)
      cases s <;> first | (simp [PgConc.advance]; done) | cases this

/-- Two unique enqueues with the same criteria and a hand-out: the first enqueue holds the
advisory lock and wants to replace the row the hand-out has locked. -/
def busyHistory : List TPgAct :=
  let uc := Criteria.byExecutor.onConflictReplace (.only .priority)
  [pgAct 0 (.plain sampleEnq), pgAct 0 (.unique sampleEnq uc), pgAct 0 (.unique sampleEnq uc), pgAct 0 (.handout "mail"),
   pgAct 1 (.advance 0), pgAct 1 (.advance 0), pgAct 1 (.advance 2), pgAct 1 (.advance 2)]

/-- Three calls are under way, two of which have to wait, as has a call to cancel the job. -/
example : (PgConc.run sampleHash {} busyHistory).sessions.length = 3 ∧
    (match ((PgConc.run sampleHash {} busyHistory).step sampleHash Int.toNat 2 (.advance 0)).1 with | .blocked => true | _ => false) = true ∧
    (match ((PgConc.run sampleHash {} busyHistory).step sampleHash Int.toNat 2 (.advance 1)).1 with | .blocked => true | _ => false) = true ∧
    (match ((PgConc.run sampleHash {} busyHistory).step sampleHash Int.toNat 2 (.stmt (.cancelled 1 sampleErr))).1 with
      | .blocked => true | _ => false) = true ∧
    (PgConc.run sampleHash {} busyHistory).sessions.all (fun s => !s.isOver) = true := by decide

/-- Rounds for the three calls, with another call in between; the theorem asks for twelve, and
here six are enough. -/
def busyRounds (n : Nat) : List (List TPgAct) :=
  List.replicate n [pgAct 3 (.advance 0), pgAct 3 (.stmt (.complete 9)), pgAct 4 (.advance 1), pgAct 5 (.advance 2)]

example : (∀ round ∈ busyRounds 12, ∀ a ∈ round, a.act.opens = false) ∧ (busyRounds 12).length = 4 * 3 := by decide

example : ∀ round ∈ busyRounds 12, ∀ i < 3, ∃ a ∈ round, a.act = .advance i := by
  intro round hr i hi
  rw [List.eq_of_mem_replicate hr]
  have : i = 0 ∨ i = 1 ∨ i = 2 := by omega
  rcases this with rfl | rfl | rfl
  · exact ⟨_, List.mem_cons_self, rfl⟩
  · exact ⟨_, List.mem_cons_of_mem _ (List.mem_cons_of_mem _ List.mem_cons_self), rfl⟩
  · exact ⟨_, List.mem_cons_of_mem _ (List.mem_cons_of_mem _ (List.mem_cons_of_mem _ List.mem_cons_self)), rfl⟩

example : ((PgConc.run sampleHash {} busyHistory).run sampleHash (busyRounds 6).flatten).sessions.map Session.isOver = [true, true, true] ∧
    ((PgConc.run sampleHash {} busyHistory).run sampleHash (busyRounds 5).flatten).sessions.map Session.isOver = [true, false, true] := by
  decide

end Rexecutor
