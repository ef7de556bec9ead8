import Verif.Props.Store
import Verif.Props.PgPrune

/-! # C110: pruning again changes nothing -/

namespace Rexecutor

/-! ## In memory -/

/-- **C110, in memory, by age** (missing: by length, see `C110_violated`). For every store: pruning by
age again at the same time changes nothing. -/
theorem C110_max_age_partial (now : Time) (spec : PruneSpec) (age : Delta) (m : Mem) (hs : spec.pruneBy = .maxAge age) :
    ((m.step now (.prune spec)).2.step now (.prune spec)).2.jobs = (m.step now (.prune spec)).2.jobs := by
  rw [C16_exactly now spec age _ hs, C16_exactly now spec age m hs, List.filter_filter]
  simp

/-- The store after a prune at each of the times. -/
def Mem.prunes (spec : PruneSpec) (m : Mem) (ts : List Time) : Mem :=
  ts.foldl (fun m t => (m.step t (.prune spec)).2) m

/-- **C110, in memory, by length: what happens.** For every store: every prune with limit `n` removes
another `n` selected jobs, and nothing else. -/
theorem C110_exactly (spec : PruneSpec) (n : Nat) (m : Mem) (hs : spec.pruneBy = .maxLength n) (ts : List Time) :
    (m.prunes spec ts).jobs.filter (fun k => spec.Selects k.job) =
      (m.jobs.filter fun k => spec.Selects k.job).drop (ts.length * n) ∧
    (m.prunes spec ts).jobs.filter (fun k => ¬ spec.Selects k.job) = m.jobs.filter fun k => ¬ spec.Selects k.job := by
  induction ts generalizing m with
  | nil => simp [Mem.prunes]
  | cons t ts ih =>
    obtain ⟨h1, h2⟩ := ih (m.step t (.prune spec)).2
    refine ⟨?_, ?_⟩
    · simp only [Mem.prunes, List.foldl_cons] at h1 ⊢
      rw [h1, C17_max_length_partial t spec n m hs, List.drop_drop, List.length_cons, Nat.add_mul, Nat.one_mul, Nat.add_comm]
    · simp only [Mem.prunes, List.foldl_cons] at h2 ⊢
      rw [h2]
      exact (C15_prune_frame t spec m).2.2.1

/-- **C110 fails in memory, by length.** A pruner told to keep `n ≥ 1` jobs removes all of them if it
runs often enough, whatever is stored: after at least as many runs as there were jobs, none is left. -/
theorem C110_violated (spec : PruneSpec) (n : Nat) (m : Mem) (hs : spec.pruneBy = .maxLength n) (hn : 1 ≤ n)
    (ts : List Time) (ht : m.jobs.length ≤ ts.length) :
    (m.prunes spec ts).jobs.filter (fun k => spec.Selects k.job) = [] := by
  rw [(C110_exactly spec n m hs ts).1, List.drop_eq_nil_iff]
  have h1 := List.length_filter_le (fun k => decide (spec.Selects k.job)) m.jobs
  have h2 : ts.length * 1 ≤ ts.length * n := Nat.mul_le_mul_left _ hn
  omega

/-- Three complete jobs, limit 2: two runs remove them all. -/
example :
    let m : Mem := { jobs := [0, 1, 2].map fun i => ⟨{ sampleJob i with status := .complete }, none⟩ }
    let spec : PruneSpec := { status := .complete, executors := .except [], pruneBy := .maxLength 2 }
    (m.prunes spec [5]).jobs.length = 1 ∧ (m.prunes spec [5, 6]).jobs.length = 0 := by decide

/-! ## On Postgres -/

private theorem nodup_prune {tie : Int → Nat} {now : Time} {spec : PruneSpec} {p : Pg} (hn : (p.rows.map (·.id)).Nodup) :
    ((p.step tie now (.prune spec)).2.rows.map (·.id)).Nodup :=
  hn.sublist ((C47_frame tie now spec p hn).1.map _)

private theorem filter_all {p : Row → Bool} {l : List Row} (h : ∀ r ∈ l, p r = true) : l.filter p = l :=
  List.filter_eq_self.mpr h

/-- Sublists that keep all rows keep the table. -/
private theorem again_eq {tie : Int → Nat} {now : Time} {spec : PruneSpec} {p : Pg} (hn : (p.rows.map (·.id)).Nodup)
    (h : ∀ r ∈ p.rows, spec.SelectsRow r → r ∈ (p.step tie now (.prune spec)).2.rows) : (p.step tie now (.prune spec)).2 = p := by
  obtain ⟨h1, h2, h3, -⟩ := C47_frame tie now spec p hn
  have hall : ∀ r ∈ p.rows, r ∈ (p.step tie now (.prune spec)).2.rows := fun r hr => by
    by_cases hs : spec.SelectsRow r
    · exact h r hr hs
    · exact h2 r hr hs
  simp only [Pg.step, Pg.prune] at hall ⊢
  have : p.rows.filter (fun r => !(spec.doomed now tie p.rows).contains r.id) = p.rows :=
    List.filter_eq_self.mpr fun r hr => (List.mem_filter.mp (hall r hr)).2
  rw [this]

/-- **C110, on Postgres, by age.** For every table: pruning by age again at the same time changes
nothing, whatever the order in which the database looks at rows. -/
theorem C110_postgres_max_age (tie tie' : Int → Nat) (now : Time) (spec : PruneSpec) (d : Delta) (p : Pg)
    (hn : (p.rows.map (·.id)).Nodup) (hs : spec.pruneBy = .maxAge d) :
    ((p.step tie now (.prune spec)).2.step tie' now (.prune spec)).2 = (p.step tie now (.prune spec)).2 := by
  refine again_eq (nodup_prune hn) fun r hr _ => ?_
  rw [C47_max_age tie' now spec d _ (nodup_prune hn) hs r]
  exact ⟨hr, ((C47_max_age tie now spec d p hn hs r).mp hr).2⟩

/-- **C110, on Postgres, by length.** For every table: pruning by length again, at any time and with any
choice among rows scheduled at the same time, changes nothing. -/
theorem C110_postgres_max_length (tie tie' : Int → Nat) (now now' : Time) (spec : PruneSpec) (n : Nat) (p : Pg)
    (hn : (p.rows.map (·.id)).Nodup) (hs : spec.pruneBy = .maxLength n) :
    ((p.step tie now (.prune spec)).2.step tie' now' (.prune spec)).2 = (p.step tie now (.prune spec)).2 := by
  have hl := (C47_max_length tie now spec n p hn hs).1
  have hl' := (C47_max_length tie' now' spec n _ (nodup_prune (tie := tie) (now := now) (spec := spec) hn) hs).1
  refine again_eq (nodup_prune hn) fun r hr hsel => ?_
  have hsub := (C47_frame tie' now' spec _ (nodup_prune (tie := tie) (now := now) (spec := spec) hn)).1
  have he := (hsub.filter fun r => decide (spec.SelectsRow r)).eq_of_length (by rw [hl', hl]; omega)
  have : r ∈ ((p.step tie now (.prune spec)).2.rows.filter fun r => decide (spec.SelectsRow r)) :=
    List.mem_filter.mpr ⟨hr, by simpa using hsel⟩
  rw [← he] at this
  exact (List.mem_filter.mp this).1

/-- The hypotheses are met: three rows due at the same time, of which two are kept, whichever. -/
example :
    let p := Pg.runApi sampleHash (fun _ _ => 0) {} [⟨0, .enqueue sampleEnq⟩, ⟨0, .enqueue sampleEnq⟩, ⟨0, .enqueue sampleEnq⟩]
    let spec : PruneSpec := { status := .scheduled, executors := .except [], pruneBy := .maxLength 2 }
    let q := (p.step (fun i => i.toNat) 5 (.prune spec)).2
    (p.rows.map (·.id)).Nodup ∧ q.rows.map (·.id) = [1, 2] ∧
    ((q.step (fun i => 10 - i.toNat) 9 (.prune spec)).2.rows.map (·.id)) = [1, 2] := by decide

end Rexecutor
