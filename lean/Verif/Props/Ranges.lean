import Verif.Lemmas.PgRow
import Verif.Model.Ranges
import Verif.Props.Builder
import Verif.Spec.Pg
import Verif.Spec.Range

/-!
# C94: times out of range in the caller

The other files compute with unbounded times. Here: the caller panics exactly when a time
is out of range, before anything is stored, and otherwise gets what the other files say.
-/

namespace Rexecutor

private theorem subTime_eq (t : Time) (d : Delta) :
    subTime t d = if Representable (t - d) then some (t - d) else none := by
  unfold subTime
  by_cases h : Representable (t - d)
  · rw [if_pos h, if_pos ((representable_iff _).mp h)]
  · rw [if_neg h, if_neg fun h' => h ((representable_iff _).mpr h')]

/-- **C94, builder.** A chain of builder calls panics exactly if some `schedule_in` goes
beyond the representable times; otherwise it is the chain of C35. -/
theorem C94_builder (b : JobBuilder D M) (calls : List (BuilderCall D M)) :
    (b.applyAllChecked calls = none ↔ ∃ now d, BuilderCall.scheduleIn now d ∈ calls ∧ ¬ Representable (now + d)) ∧
    (∀ b', b.applyAllChecked calls = some b' → b' = b.applyAll calls) := by
  induction calls generalizing b with
  | nil => simp [JobBuilder.applyAllChecked, JobBuilder.applyAll]
  | cons call calls ih =>
    have other : ∀ (hn : ∀ now d, call ≠ .scheduleIn now d), b.applyChecked call = some (b.apply call) := by
      intro hn
      cases call with
      | scheduleIn now d => exact absurd rfl (hn now d)
      | _ => rfl
    have step : (b.applyChecked call = none ∧ ∃ now d, call = .scheduleIn now d ∧ ¬ Representable (now + d)) ∨
        (b.applyChecked call = some (b.apply call) ∧ ∀ now d, call = .scheduleIn now d → Representable (now + d)) := by
      by_cases hs : ∃ now d, call = BuilderCall.scheduleIn now d
      · obtain ⟨now, d, rfl⟩ := hs
        by_cases hr : Representable (now + d)
        · right
          refine ⟨?_, ?_⟩
          · simp only [JobBuilder.applyChecked, addTime_eq, if_pos hr, Option.map_some, JobBuilder.apply]
          · intro n' d' he; cases he; exact hr
        · left
          refine ⟨?_, now, d, rfl, hr⟩
          simp only [JobBuilder.applyChecked, addTime_eq, if_neg hr, Option.map_none]
      · right
        exact ⟨other fun now d he => hs ⟨now, d, he⟩, fun now d he => absurd ⟨now, d, he⟩ hs⟩
    rcases step with ⟨h1, now, d, h2, h3⟩ | ⟨h1, h2⟩
    · simp only [JobBuilder.applyAllChecked, h1, Option.bind_none, true_iff]
      exact ⟨⟨now, d, by simp [h2], h3⟩, by simp⟩
    · simp only [JobBuilder.applyAllChecked, h1, Option.bind_some]
      obtain ⟨i1, i2⟩ := ih (b.apply call)
      refine ⟨?_, fun b' hb => by rw [i2 b' hb]; rfl⟩
      rw [i1]
      constructor
      · rintro ⟨now, d, hm, hr⟩; exact ⟨now, d, List.mem_cons_of_mem _ hm, hr⟩
      · rintro ⟨now, d, hm, hr⟩
        rcases List.mem_cons.mp hm with hm | hm
        · exact absurd (h2 now d hm.symm) hr
        · exact ⟨now, d, hm, hr⟩

/-- **C94, queries.** `scheduled_at_older_than` and `scheduled_at_within_the_last` panic
exactly if the cut-off cannot be represented; otherwise they are the ones of C19. -/
theorem C94_where (now : Time) (d : Delta) :
    ((Where.scheduledAtOlderThanChecked now d : Option (TQuery D M)) =
      if Representable (now - d) then some (Where.scheduledAtOlderThan now d) else none) ∧
    ((Where.scheduledAtWithinTheLastChecked now d : Option (TQuery D M)) =
      if Representable (now - d) then some (Where.scheduledAtWithinTheLast now d) else none) := by
  unfold Where.scheduledAtOlderThanChecked Where.scheduledAtWithinTheLastChecked
  by_cases h : Representable (now - d)
  · have h' : subTime now d = some (now - d) := by rw [subTime_eq, if_pos h]
    simp only [h', if_pos h]; exact ⟨rfl, rfl⟩
  · have h' : subTime now d = none := by rw [subTime_eq, if_neg h]
    simp only [h', if_neg h]; exact ⟨rfl, rfl⟩

private theorem window_none (uc : Criteria) (t : Time) :
    uc.windowChecked t = none ↔ ∃ d, uc.duration = some d ∧ (¬ Representable (t - d) ∨ ¬ Representable (t + d)) := by
  unfold Criteria.windowChecked
  cases hd : uc.duration with
  | none => simp
  | some d =>
    simp only [subTime_eq, addTime_eq, Option.some.injEq, exists_eq_left']
    by_cases h1 : Representable (t - d)
    · by_cases h2 : Representable (t + d)
      · simp [h1, h2]
      · simp only [if_pos h1, if_neg h2, Option.bind_some, Option.map_none, true_iff]; exact Or.inr h2
    · simp only [if_neg h1, Option.bind_none, true_iff]; exact Or.inl h1

/-- **C94, Postgres.** A unique enqueue panics exactly if an end of its window cannot be
represented. It then holds the advisory lock for a moment and leaves nothing behind: the
table is the same, and so are the locks others see. -/
theorem C94_unique (hash : HashFn) (tie : Int → Nat) (now : Time) (e : EnqueuableJob) (uc : Criteria) (c : PgConc) :
    (uc.windowChecked e.scheduledAt = none ↔
      ∃ d, uc.duration = some d ∧ (¬ Representable (e.scheduledAt - d) ∨ ¬ Representable (e.scheduledAt + d))) ∧
    (c.enqueuePanics hash tie now e uc).pg = c.pg ∧
    (∀ id, (c.enqueuePanics hash tie now e uc).rowLocked id = c.rowLocked id) ∧
    (∀ a, (c.enqueuePanics hash tie now e uc).advisoryLocked hash a = c.advisoryLocked hash a) ∧
    (∀ (i : Nat) (s : Session), c.sessions[i]? = some s → (c.enqueuePanics hash tie now e uc).sessions[i]? = some s) := by
  refine ⟨window_none uc _, ?_⟩
  have h : c.enqueuePanics hash tie now e uc = { pg := c.pg, sessions := c.sessions ++ [.done (.err .io)] } := by
    unfold PgConc.enqueuePanics
    by_cases hl : PgConc.advisoryLocked hash { pg := c.pg, sessions := c.sessions ++ [Session.unique e uc now] }
        (uc.identifier hash e.executor) = true
    · simp [PgConc.run, PgConc.step, PgConc.advance, hl]
    · simp [PgConc.run, PgConc.step, PgConc.advance, hl]
  rw [h]
  refine ⟨rfl, ?_, ?_, ?_⟩
  · intro id; simp [PgConc.rowLocked, Session.rowLock]
  · intro a; simp [PgConc.advisoryLocked, Session.holder]
  · intro i s hi
    have : i < c.sessions.length := by
      rw [List.getElem?_eq_some_iff] at hi; exact hi.1
    simp only [List.getElem?_append_left this, hi]

/-- In range: what C35 says. Out of range: a panic. -/
example : ((JobBuilder.init 0 : JobBuilder String Unit).applyAllChecked [.scheduleIn 5 (3 * sec), .addTag "x"]).map
      (fun b => (b.scheduledAt, b.tags)) = some (3 * sec + 5, ["x"]) ∧
    ((JobBuilder.init 0 : JobBuilder String Unit).applyAllChecked [.scheduleIn 5 maxTime, .addTag "x"]).isNone = true := by
  decide

/-- A window of ten thousand million days around a job for now. -/
example : ({ duration := some (10000000000 * 86400 * sec) } : Criteria).windowChecked 0 = none := by decide

end Rexecutor
