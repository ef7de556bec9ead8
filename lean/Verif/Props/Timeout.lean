import Verif.Model.Timeout
import Verif.Props.Outcome

/-! # C96: timeouts -/

namespace Rexecutor

/-- When the body, left alone, comes to its `k`-th `await` (counted from 0), since the
creation of its future: it has waited for its first poll, computed `k + 1` times and waited
`k` times. -/
def Script.comesTo (s : Script) (k : Nat) : Nat :=
  s.queued + ((s.stretches.take (k + 1)).map (·.busy)).sum + ((s.stretches.take k).map (fun x => x.wait.getD 0)).sum

/-- The body, left alone, is waiting at its `k`-th `await` at time `t` or comes to it
later: it does come to it, and what it waits for there is not there by `t`. -/
def Script.WaitsAt (s : Script) (t k : Nat) : Prop :=
  (∀ i < k, ∀ x : Stretch, s.stretches[i]? = some x → x.wait ≠ none) ∧
  ∃ x, s.stretches[k]? = some x ∧ (t ≤ s.comesTo k ∨ ∀ w, x.wait = some w → t < s.comesTo k + w)

private def from_ (q : Nat) (xs : List Stretch) (k : Nat) : Nat :=
  q + ((xs.take (k + 1)).map (·.busy)).sum + ((xs.take k).map (fun x => x.wait.getD 0)).sum

private theorem from_succ (q w : Nat) (x : Stretch) (xs : List Stretch) (k : Nat) (hw : x.wait = some w) :
    from_ q (x :: xs) (k + 1) = from_ (q + x.busy + w) xs k := by
  simp [from_, hw]
  omega

private theorem from_zero (q : Nat) (x : Stretch) (xs : List Stretch) : from_ q (x :: xs) 0 = q + x.busy := by
  simp [from_]

private def At (q : Nat) (xs : List Stretch) (t k : Nat) : Prop :=
  (∀ i < k, ∀ x : Stretch, xs[i]? = some x → x.wait ≠ none) ∧
  ∃ x, xs[k]? = some x ∧ (t ≤ from_ q xs k ∨ ∀ w, x.wait = some w → t < from_ q xs k + w)

private theorem at_succ {q w : Nat} {x : Stretch} {xs : List Stretch} {t k : Nat} (hw : x.wait = some w) :
    At q (x :: xs) t (k + 1) ↔ At (q + x.busy + w) xs t k := by
  unfold At
  rw [from_succ q w x xs k hw]
  constructor
  · rintro ⟨h1, y, h2, h3⟩
    exact ⟨fun i hi y hy => h1 (i + 1) (by omega) y hy, y, h2, h3⟩
  · rintro ⟨h1, y, h2, h3⟩
    refine ⟨fun i hi y hy => ?_, y, h2, h3⟩
    cases i with
    | zero => cases hy; rw [hw]; simp
    | succ i => exact h1 i (by omega) y hy

private theorem joined_ne (s : Script) (limit : Nat) : s.joined ≠ .elapsed limit := by
  unfold Script.joined
  split <;> simp

private theorem timed_elapsed (s : Script) (limit fires : Nat) (xs : List Stretch) (q : Nat) :
    (s.timed limit fires q xs).2 = .elapsed limit ↔ ∃ k, At q xs fires k := by
  induction xs generalizing q with
  | nil =>
    simp only [Script.timed]
    constructor
    · intro h; exact absurd h (joined_ne s limit)
    · rintro ⟨k, -, x, h, -⟩; simp at h
  | cons x xs ih =>
    simp only [Script.timed]
    split
    · rename_i h
      refine ⟨fun _ => ⟨0, by simp, x, rfl, .inl ?_⟩, fun _ => rfl⟩
      rw [from_zero]; exact h
    · rename_i h
      split
      · rename_i hw
        exact ⟨fun _ => ⟨0, by simp, x, rfl, .inr fun w h => by rw [hw] at h; cases h⟩, fun _ => rfl⟩
      · rename_i w hw
        split
        · rename_i hle
          rw [ih]
          constructor
          · rintro ⟨k, hk⟩
            exact ⟨k + 1, (at_succ hw).mpr hk⟩
          · rintro ⟨k, hk⟩
            cases k with
            | zero =>
              obtain ⟨-, y, hy, h2⟩ := hk
              cases hy
              rw [from_zero] at h2
              rcases h2 with h2 | h2
              · omega
              · have := h2 w hw; omega
            | succ k => exact ⟨k, (at_succ hw).mp hk⟩
        · rename_i hle
          refine ⟨fun _ => ⟨0, by simp, x, rfl, .inr fun w' h' => ?_⟩, fun _ => rfl⟩
          rw [hw] at h'
          cases h'
          rw [from_zero]; omega

/-- **C96, exactly.** An execution is ended by its timeout exactly if its body, left alone,
would be at an `await`, or come to one, when the timer has fired. -/
theorem C96_exactly (s : Script) (limit fires : Nat) :
    (∃ e, s.execute (some limit) fires = some (e, .elapsed limit)) ↔ ∃ k, s.WaitsAt fires k := by
  have := timed_elapsed s limit fires s.stretches s.queued
  simp only [Script.execute]
  constructor
  · rintro ⟨e, h⟩
    exact this.mp (by rw [Option.some.inj h])
  · intro h
    exact ⟨_, by rw [← this.mpr h]⟩

private theorem timed_same (s : Script) (limit fires : Nat) (xs : List Stretch) (q : Nat)
    (h : (s.timed limit fires q xs).2 ≠ .elapsed limit) : s.untimed q xs = some (s.timed limit fires q xs) := by
  induction xs generalizing q with
  | nil => rfl
  | cons x xs ih =>
    simp only [Script.timed, Script.untimed] at h ⊢
    split at h
    · simp at h
    · rename_i hp
      rw [if_neg hp]
      split at h
      · simp at h
      · rename_i w hw
        split at h
        · rename_i hle
          simp only [hw, if_pos hle]
          exact ih _ h
        · simp at h

/-- **C96, otherwise.** An execution that its timeout does not end ends at the same time and
in the same way as without timeout. -/
theorem C96_otherwise_same (s : Script) (limit fires : Nat)
    (h : ∀ e, s.execute (some limit) fires ≠ some (e, .elapsed limit)) :
    s.execute (some limit) fires = s.execute none fires := by
  simp only [Script.execute] at h ⊢
  refine (timed_same s limit fires _ _ fun he => h (s.timed limit fires s.queued s.stretches).1 ?_).symm
  rw [← he]

private theorem timed_bounds (s : Script) (limit fires B m : Nat) (hm : fires ≤ m) (hl : s.last ≤ B) (xs : List Stretch)
    (hB : ∀ x ∈ xs, x.busy ≤ B) (q : Nat) (hq : q ≤ m) :
    (s.timed limit fires q xs).1 ≤ m + B ∧
    ((s.timed limit fires q xs).2 = .elapsed limit → fires ≤ (s.timed limit fires q xs).1) := by
  induction xs generalizing q with
  | nil =>
    simp only [Script.timed]
    exact ⟨by omega, fun h => absurd h (joined_ne s limit)⟩
  | cons x xs ih =>
    have hx := hB x List.mem_cons_self
    simp only [Script.timed]
    split
    · rename_i h
      exact ⟨by simp only; omega, fun _ => h⟩
    · split
      · exact ⟨by simp only; omega, fun _ => Nat.le_refl _⟩
      · split
        · rename_i hle
          exact ih (fun y hy => hB y (List.mem_cons_of_mem _ hy)) _ (by omega)
        · exact ⟨by simp only; omega, fun _ => Nat.le_refl _⟩

/-- **C96, what holds.** An execution with a timeout ends, at the latest, when the timer has
fired and the body was polled for the first time and has computed for as long as it does
without an `await` that waits (`B`). Missing: bodies that compute for long without waiting,
see `C96_violated`. -/
theorem C96_ends_partial (s : Script) (limit fires B : Nat) (hB : ∀ x ∈ s.stretches, x.busy ≤ B) (hl : s.last ≤ B) :
    ∃ e j, s.execute (some limit) fires = some (e, j) ∧ e ≤ max fires s.queued + B :=
  ⟨_, _, rfl, (timed_bounds s limit fires B _ (Nat.le_max_left _ _) hl s.stretches hB _ (Nat.le_max_right _ _)).1⟩

private theorem busy_bound (xs : List Stretch) : ∃ B, ∀ x ∈ xs, x.busy ≤ B := by
  induction xs with
  | nil => exact ⟨0, by simp⟩
  | cons x xs ih =>
    obtain ⟨B, hB⟩ := ih
    refine ⟨max x.busy B, fun y hy => ?_⟩
    rcases List.mem_cons.mp hy with rfl | hy
    · exact Nat.le_max_left _ _
    · exact Nat.le_trans (hB y hy) (Nat.le_max_right _ _)

/-- **C96, never early.** The timeout never ends an execution before the timer has fired,
which is not before the timeout has passed. -/
theorem C96_not_before (s : Script) (limit fires e : Nat) (hf : limit ≤ fires)
    (h : s.execute (some limit) fires = some (e, .elapsed limit)) : limit ≤ e := by
  simp only [Script.execute, Option.some.injEq] at h
  obtain ⟨B, hB⟩ := busy_bound s.stretches
  have := (timed_bounds s limit fires (max B s.last) (max fires s.queued) (Nat.le_max_left _ _) (Nat.le_max_right _ _)
    s.stretches (fun x hx => Nat.le_trans (hB x hx) (Nat.le_max_left _ _)) s.queued (Nat.le_max_right _ _)).2 (by rw [h])
  rw [h] at this
  exact Nat.le_trans hf this

/-- **C96 fails.** Whatever the timeout: a body that computes without waiting goes on for as
long as it likes, and when it returns `Done` the job is recorded as complete. This is how
bodies of executors with `BLOCKING = true` are meant to be. -/
theorem C96_violated (r : Runner) (t : Task) (limit fires n : Nat) (now : Time) :
    ∃ s : Script, ∃ e, s.execute (some limit) fires = some (e, .result .done) ∧ n ≤ e ∧ s.queued = 0 ∧
      r.report now t (.result .done) = some (.complete t.id) :=
  ⟨{ last := n, ending := .inl .done }, n, by simp [Script.execute, Script.timed, Script.joined], Nat.le_refl _, rfl, rfl⟩

/-- **C96 fails for executions that have to wait for their first poll.** The timeout counts
from the creation of the future, so a body that needs less than its timeout can be ended by
it: here it is polled for the first time when the timer has fired, and its first `await`,
however short, ends it. -/
theorem C96_queued_violated (limit fires : Nat) (hl : 0 < limit) :
    ∃ s : Script, (∃ e, s.execute none fires = some (s.queued + e, .result .done) ∧ e < limit) ∧
      ∃ e, s.execute (some limit) fires = some (e, .elapsed limit) :=
  ⟨{ queued := fires, stretches := [⟨0, some 0⟩], ending := .inl .done },
    ⟨0, by simp [Script.execute, Script.untimed, Script.joined], hl⟩,
    fires, by simp [Script.execute, Script.timed]⟩

/-- **C96, in the model of runners.** Every way of executing a script is one of the ways of
ending an execution that the other theorems quantify over. -/
theorem C96_covered (t : Task) (s : Script) (fires : Nat) :
    ∃ b : Body, t.join b = (s.execute t.timeout fires).map (·.2) := by
  have hend : ∀ e : ExecResult ⊕ Option String, ∃ b : Body, b.suspended = false ∧ b.joinMessage = s.joinMessage ∧
      b.ending = (match e with | .inl r => Ending.returns r | .inr p => .panics p) := fun e => ⟨⟨_, 0, false, _⟩, rfl, rfl, rfl⟩
  obtain ⟨b, hb1, hb2, hb3⟩ := hend s.ending
  have hj : t.join b = some s.joined := by
    unfold Task.join Script.joined
    cases he : s.ending with
    | inl r => cases t.timeout <;> simp [hb1, hb3, he]
    | inr p => cases t.timeout <;> simp [hb1, hb2, hb3, he]
  have hun : ∀ (xs : List Stretch) (q : Nat) (r : Nat × Joined), s.untimed q xs = some r → r.2 = s.joined := by
    intro xs
    induction xs with
    | nil => intro q r h; simp only [Script.untimed, Option.some.injEq] at h; rw [← h]
    | cons x xs ih =>
      intro q r h
      simp only [Script.untimed] at h
      split at h
      · cases h
      · exact ih _ _ h
  cases ht : t.timeout with
  | none =>
    simp only [Script.execute]
    cases hu : s.untimed s.queued s.stretches with
    | none => exact ⟨{ ending := .never }, by simp [Task.join, ht]⟩
    | some r => exact ⟨b, by rw [hj, Option.map_some, hun _ _ _ hu]⟩
  | some limit =>
    by_cases h : (s.timed limit fires s.queued s.stretches).2 = .elapsed limit
    · exact ⟨{ ending := .never }, by simp [Task.join, ht, Script.execute, h]⟩
    · have := hun _ _ _ (timed_same s limit fires _ _ h)
      exact ⟨b, by rw [hj]; simp [Script.execute, this]⟩

/-- A body that computes for 1, waits for 5, computes for 2, waits for 4 and computes for 1:
with a timer that fires at 7 it goes on until its second `await`, at 8; with one at 10 it is
ended there; with one at 12 it has ended by itself at 13. Without its waits it is never
ended. -/
example :
    let s : Script := { stretches := [⟨1, some 5⟩, ⟨2, some 4⟩], last := 1, ending := .inl .done }
    s.execute (some 7) 7 = some (8, .elapsed 7) ∧ s.WaitsAt 7 1 ∧ s.execute (some 7) 10 = some (10, .elapsed 7) ∧
    s.execute (some 7) 12 = some (13, .result .done) ∧ s.execute none 0 = some (13, .result .done) ∧
    ({ last := 8, ending := .inl .done } : Script).execute (some 7) 7 = some (8, .result .done) := by
  refine ⟨by decide, ⟨?_, ⟨2, some 4⟩, rfl, .inl (by decide)⟩, by decide, by decide, by decide, by decide⟩
  intro i hi x hx
  have : i = 0 := by omega
  subst this
  cases hx
  simp

end Rexecutor
