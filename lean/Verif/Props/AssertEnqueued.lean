import Verif.Model.AssertEnqueued
import Verif.Props.Query

/-! # C42: assert_enqueued! -/

namespace Rexecutor

/-- The job satisfies the condition. -/
def AssertCond.Met (j : Job) : AssertCond → Prop
  | .withData d => j.data = d
  | .withMetadata m => j.metadata = m
  | .taggedWith tags => ∀ t ∈ tags, t ∈ j.tags
  | .scheduledAt t => j.scheduledAt = t
  | .scheduledAfter t => t < j.scheduledAt
  | .scheduledBefore t => j.scheduledAt < t
  | .forExecutor name => j.executor = name

instance (j : Job) (c : AssertCond) : Decidable (c.Met j) := by
  cases c <;> unfold AssertCond.Met <;> infer_instance

/-- The stored jobs that satisfy every condition. -/
def Mem.enqueuedWith (m : Mem) (conds : List AssertCond) : List Job :=
  (m.jobs.map (·.job)).filter fun j => ∀ c ∈ conds, c.Met j

private theorem query_conds (m : Mem) (conds : List AssertCond) :
    m.query (.and (conds.map (·.query))) = m.enqueuedWith conds := by
  have := C18_query_exact 0 m (.and (conds.map (·.query)))
  simp only [Mem.step, Prod.mk.injEq, Res.jobs.injEq, and_true] at this
  rw [this, Mem.enqueuedWith]
  apply List.filter_congr
  intro j _
  rw [decide_eq_decide]
  rw [Query.Holds]
  constructor
  · intro h c hc
    have := h c.query (List.mem_map_of_mem hc)
    cases c <;> simpa [AssertCond.query, Query.Holds, AssertCond.Met] using this
  · intro h q hq
    obtain ⟨c, hc, rfl⟩ := List.mem_map.mp hq
    have := h c hc
    cases c <;> simpa [AssertCond.query, Query.Holds, AssertCond.Met] using this

/-- **C42, `n jobs`.** For every store, every list of conditions and every `n`:
`assert_enqueued!(n jobs, ...)` passes iff exactly `n` stored jobs satisfy all conditions,
with or without `to:`; without `to:`, `1 job` and no number both mean one. Missing:
`1 job, to: backend` and `to: backend` without a number, see `C42_violated` and `C42_at_least_one`. -/
theorem C42_counts_partial (m : Mem) (conds : List AssertCond) (n : Nat) :
    (assertEnqueued m (.jobsTo n) conds = true ↔ (m.enqueuedWith conds).length = n) ∧
    (assertEnqueued m (.jobs n) conds = true ↔ (m.enqueuedWith conds).length = n) ∧
    (assertEnqueued m .oneJob conds = true ↔ (m.enqueuedWith conds).length = 1) ∧
    (assertEnqueued m .plain conds = true ↔ (m.enqueuedWith conds).length = 1) := by
  simp [assertEnqueued, AssertForm.exactly, query_conds]

/-- **C42, the remaining forms.** `1 job, to: backend` and `to: backend` pass iff at least one
stored job satisfies all conditions. -/
theorem C42_at_least_one (m : Mem) (conds : List AssertCond) :
    (assertEnqueued m .oneJobTo conds = true ↔ 0 < (m.enqueuedWith conds).length) ∧
    (assertEnqueued m .to conds = true ↔ 0 < (m.enqueuedWith conds).length) := by
  simp only [assertEnqueued, AssertForm.exactly, query_conds]
  cases m.enqueuedWith conds <;> simp

/-- **C42 fails for `1 job, to:`.** It passes although two stored jobs match. -/
theorem C42_violated :
    ∃ (m : Mem) (conds : List AssertCond), (m.enqueuedWith conds).length = 2 ∧
      assertEnqueued m .oneJobTo conds = true :=
  ⟨storeOf [sampleJob 1, sampleJob 2], [.forExecutor "mail"], by decide, by decide⟩

example : assertEnqueued (storeOf [sampleJob 1, sampleJob 2, { sampleJob 3 with tags := [] }]) (.jobsTo 2)
    [.forExecutor "mail", .taggedWith ["a"], .scheduledBefore 5] = true := by decide

end Rexecutor
