import Verif.Lemmas.ListLemmas
import Verif.Model.Clocks
import Verif.Spec.Samples
import Verif.Spec.Store

/-!
# C93: several clock readings within one call

The in-memory backend reads the clock once per job it looks at. These theorems bound what
that can change, and justify the single reading used everywhere else.
-/

namespace Rexecutor

private theorem ready_eligible' {now : Time} {x : String} {j : Job} :
    readyFor now x j = true ↔ Eligible now x j := by
  rw [readyFor_iff]
  constructor
  · rintro ⟨a, b, c⟩; exact ⟨a, c, by simp only [ms, Time] at *; omega⟩
  · rintro ⟨a, b, c⟩; exact ⟨a, by simp only [ms, Time] at *; omega, b⟩

private theorem ready_mono {s t : Time} (h : s ≤ t) {x : String} {j : Job} (hr : readyFor s x j = true) :
    readyFor t x j = true := by
  rw [readyFor_iff] at *
  refine ⟨hr.1, ?_, hr.2.2⟩
  have := hr.2.1
  simp only [Time, Delta, ms] at *; omega

/-- **C93, hand-out.** Let all readings made during one hand-out lie between `lo` and `hi`.
The job handed out was eligible at `hi`, only its record changes, and it is first in line
among the jobs eligible at `lo`; nothing is handed out only if no job was eligible at `lo`. -/
theorem C93_handout (clock : Nat → Time) (taken lo hi : Time) (x : String) (m : Mem)
    (hc : ∀ i, lo ≤ clock i ∧ clock i ≤ hi) :
    (∀ j, (m.loadClocks clock taken x).1 = some j →
      ∃ (i : Nat) (k : KeyedJob), m.jobs[i]? = some k ∧ Eligible hi x k.job ∧ j = handedOut taken k.job ∧
        (m.loadClocks clock taken x).2 = { m with jobs := m.jobs.set i { k with job := j } } ∧
        ∀ (i' : Nat) (k' : KeyedJob), m.jobs[i']? = some k' → Eligible lo x k'.job → FirstInLine k.job i k'.job i') ∧
    ((m.loadClocks clock taken x).1 = none →
      (m.loadClocks clock taken x).2 = m ∧ ∀ k ∈ m.jobs, ¬ Eligible lo x k.job) := by
  unfold Mem.loadClocks
  simp only
  split
  · rename_i h
    refine ⟨by simp, fun _ => ⟨rfl, ?_⟩⟩
    rw [sortBy_eq_nil, List.filter_eq_nil_iff] at h
    intro k hk hel
    obtain ⟨i, hi⟩ := List.mem_iff_getElem?.mp hk
    exact h (k, i) (List.mem_zipIdx_iff_getElem?.mpr hi) (ready_mono (hc i).1 (ready_eligible'.mpr hel))
  · rename_i k i t h
    refine ⟨?_, by simp⟩
    intro j hj
    simp only [Option.some.injEq] at hj
    subst hj
    obtain ⟨pre, post, h1, h2, h3⟩ := sortBy_head
      (fun a b => dueBefore_total a.1.job b.1.job)
      (fun a b c => dueBefore_trans a.1.job b.1.job c.1.job) h
    have hmem : (k, i) ∈ m.jobs.zipIdx.filter fun (k, i) => readyFor (clock i) x k.job := by rw [h1]; simp
    rw [List.mem_filter] at hmem
    have hki := List.mem_zipIdx_iff_getElem?.mp hmem.1
    refine ⟨i, k, hki, ready_eligible'.mp (ready_mono (hc i).2 hmem.2), rfl, rfl, ?_⟩
    intro i' k' hk' hel
    have hm' : (k', i') ∈ m.jobs.zipIdx.filter fun (k, i) => readyFor (clock i) x k.job :=
      List.mem_filter.mpr ⟨List.mem_zipIdx_iff_getElem?.mpr hk', ready_mono (hc i').1 (ready_eligible'.mpr hel)⟩
    -- positions in the filtered list increase
    have hsorted : (pre ++ (k, i) :: post).Pairwise fun a b => a.2 < b.2 := by
      rw [← h1]
      refine List.Pairwise.filter _ ?_
      rw [List.pairwise_iff_getElem]
      intro a b ha hb hab
      simp only [List.getElem_zipIdx]
      omega
    rw [List.pairwise_append, List.pairwise_cons] at hsorted
    rw [h1] at hm'
    unfold FirstInLine
    rcases List.mem_append.mp hm' with hp | hp
    · have hlt := hsorted.2.2 _ hp (k, i) (by simp)
      have hd : ¬ dueBefore k'.job k.job = true := by rw [h2 _ hp]; simp
      rw [dueBefore_iff] at hd
      simp only [Time] at *; omega
    · rcases List.mem_cons.mp hp with hp | hp
      · cases hp; right; exact ⟨rfl, Or.inr ⟨rfl, Nat.le_refl _⟩⟩
      · have hlt := hsorted.2.1.1 _ hp
        have hd := h3 _ hp
        rw [dueBefore_iff] at hd
        simp only [Time] at *; omega

/-- **C93.** With a clock that does not move during the calls, they are the ones of the
model used everywhere else. -/
theorem C93_constant (now : Time) (x : String) (e : EnqueuableJob) (err : ExecError) (j : Job) (m : Mem)
    (he : e.criteria ≠ none) :
    m.loadClocks (fun _ => now) now x = m.load now x ∧
    m.insertUniqueClocks (fun _ => now) now e = m.enqueue now e ∧
    j.markDiscardedClocks now now err = j.markDiscarded now err ∧
    j.markCancelledClocks now now err = j.markCancelled now err := by
  refine ⟨rfl, ?_, rfl, rfl⟩
  have hm : e.matchingClocks (fun _ => now) m = m.jobs.filter fun k => e.matches now k := by
    unfold EnqueuableJob.matchingClocks
    have : (m.jobs.zipIdx.filter fun (k, _) => e.matches now k).map Prod.fst =
        (m.jobs.zipIdx.map Prod.fst).filter fun k => e.matches now k := by
      rw [List.filter_map]; rfl
    rw [this, List.zipIdx_map_fst]
  unfold Mem.insertUniqueClocks Mem.enqueue Mem.insertUnique
  rw [hm]
  cases hc : e.criteria with
  | none => exact absurd hc he
  | some uc => rfl

/-- **C93, unique enqueue.** A new job is inserted only if no stored job matches at every
moment between the first and the last reading; the job found as a conflict does match at
some moment between them, and no job before it matches throughout. -/
theorem C93_unique (clock : Nat → Time) (lo hi : Time) (e : EnqueuableJob) (m : Mem)
    (hc : ∀ i, lo ≤ clock i ∧ clock i ≤ hi) :
    (e.matchingClocks clock m = [] → ∀ k ∈ m.jobs, ∃ t, lo ≤ t ∧ t ≤ hi ∧ e.matches t k = false) ∧
    (∀ k ks, e.matchingClocks clock m = k :: ks → ∃ (i : Nat) (t : Time), m.jobs[i]? = some k ∧ lo ≤ t ∧ t ≤ hi ∧ e.matches t k = true ∧
      ∀ (i' : Nat) (k' : KeyedJob), i' < i → m.jobs[i']? = some k' → ∃ t, lo ≤ t ∧ t ≤ hi ∧ e.matches t k' = false) := by
  unfold EnqueuableJob.matchingClocks
  constructor
  · intro h k hk
    obtain ⟨i, hi'⟩ := List.mem_iff_getElem?.mp hk
    rw [List.map_eq_nil_iff, List.filter_eq_nil_iff] at h
    have := h (k, i) (List.mem_zipIdx_iff_getElem?.mpr hi')
    exact ⟨clock i, (hc i).1, (hc i).2, by simpa using this⟩
  · intro k ks h
    rw [List.map_eq_cons_iff] at h
    obtain ⟨⟨k₁, i⟩, t, h1, rfl, h2⟩ := h
    obtain ⟨u, v, f1, f2, f3, f4⟩ := List.filter_eq_cons_iff.mp h1
    have hk₁ : (k₁, i) ∈ m.jobs.zipIdx := by rw [f1]; simp
    have hki : m.jobs[i]? = some k₁ := List.mem_zipIdx_iff_getElem?.mp hk₁
    refine ⟨i, clock i, hki, (hc i).1, (hc i).2, f3, ?_⟩
    intro i' k' hlt hk'
    have hm : (k', i') ∈ m.jobs.zipIdx := List.mem_zipIdx_iff_getElem?.mpr hk'
    have hsorted : (u ++ (k₁, i) :: v).Pairwise fun a b => a.2 < b.2 := by
      rw [← f1, List.pairwise_iff_getElem]
      intro a b ha hb hab
      simp only [List.getElem_zipIdx]
      omega
    rw [List.pairwise_append, List.pairwise_cons] at hsorted
    rw [f1] at hm
    have hu : (k', i') ∈ u := by
      rcases List.mem_append.mp hm with hp | hp
      · exact hp
      · rcases List.mem_cons.mp hp with hp | hp
        · cases hp; omega
        · have := hsorted.2.1.1 _ hp
          simp only at this; omega
    have := f2 _ hu
    exact ⟨clock i', (hc i').1, (hc i').2, by simpa using this⟩

/-- Two jobs that become due between the readings: the one looked at first is not yet due,
the other is, and goes first although it is behind in line at every single moment. -/
theorem C93_overtakes : ∃ (clock : Nat → Time) (m : Mem), (∀ i, 0 ≤ clock i ∧ clock i ≤ 1) ∧
    ((m.loadClocks clock 1 "mail").1.map (·.id)) = some 1 ∧
    (m.load 0 "mail").1 = none ∧ ((m.load 1 "mail").1.map (·.id)) = some 0 :=
  ⟨fun i => min (i : Int) 1, storeOf [{ sampleJob 0 with scheduledAt := 100000000 }, { sampleJob 1 with scheduledAt := 100000000 }],
    by intro i; simp only [Time] at *; omega, by decide, by decide, by decide⟩

/-- Three jobs and readings one nanosecond apart. -/
example : ((storeOf [{ sampleJob 0 with scheduledAt := 7 }, { sampleJob 1 with status := .executing }, sampleJob 2]).loadClocks
    (fun i => i) 9 "mail").1 = some { sampleJob 2 with status := .executing, attempt := 1, attemptedAt := some 9 } := by decide

end Rexecutor
