import Verif.Model.Runner

/-! # The moments a `DateTime<Utc>` can hold -/

namespace Rexecutor

/-- A moment chrono can represent: from the first moment of the year -262143 to the last nanosecond of the
year 262142, counted in nanoseconds from the beginning of 1970. -/
def Representable (t : Time) : Prop := -8334601228800000000000 ≤ t ∧ t ≤ 8210266876799999999999

instance (t : Time) : Decidable (Representable t) := by unfold Representable; infer_instance

theorem representable_iff (t : Time) : Representable t ↔ minTime ≤ t ∧ t ≤ maxTime := by
  simp only [Representable, minTime, maxTime, sec, Time]
  omega

theorem addTime_eq (now : Time) (d : Delta) :
    addTime now d = if Representable (now + d) then some (now + d) else none := by
  unfold addTime
  by_cases h : Representable (now + d)
  · rw [if_pos h, if_pos ((representable_iff _).mp h)]
  · rw [if_neg h, if_neg fun h' => h ((representable_iff _).mpr h')]

end Rexecutor
