import Verif.Model.Api
import Verif.Lemmas.Life
import Verif.Spec.Unique

namespace Rexecutor

/-- `Mem.enqueue` is the composition of the atomic steps of one enqueue call. -/
theorem enqueue_is_steps (now : Time) (c : Conc) (e : EnqueuableJob) (i : Nat)
    (hi : i = c.calls.length) :
    (c.run [⟨now, .start e⟩, ⟨now, .advance i⟩, ⟨now, .advance i⟩, ⟨now, .advance i⟩, ⟨now, .advance i⟩])
      = { mem := (c.mem.enqueue now e).2, calls := c.calls ++ [.done (c.mem.enqueue now e).1] } := by
  subst hi
  cases hc : e.criteria with
  | none =>
    simp [Conc.run, Conc.step, Mem.advance, Mem.enqueue, hc, Mem.insertNew]
  | some uc =>
    cases hf : c.mem.jobs.filter fun k => e.matches now k with
    | nil =>
      simp [Conc.run, Conc.step, Mem.advance, Mem.enqueue, Mem.insertUnique, hc, hf, Mem.insertNew]
    | cons k ks =>
      simp only [Conc.run, Conc.step, Mem.advance, Mem.enqueue, Mem.insertUnique, hc, hf]
      simp only [List.getElem?_append_right (Nat.le_refl _), Nat.sub_self, List.getElem?_cons_zero,
        List.set_append_right _ _ (Nat.le_refl _), List.set_cons_zero, Mem.advance, hc, hf]
      rcases hu : c.mem.update (k.job.replace e) with ⟨r, m'⟩
      cases r <;> simp [Mem.advance]

theorem abs_lt_window (a t d : Int) : ((a - t).natAbs : Int) < d ↔ t - d < a ∧ a < t + d := by omega

theorem matches_iff {now : Time} {e : EnqueuableJob} {k : KeyedJob} :
    e.matches now k = true ↔ ∃ uc, e.criteria = some uc ∧ Duplicate now e uc k := by
  unfold EnqueuableJob.matches
  cases hc : e.criteria with
  | none => simp
  | some uc =>
    have hkey : ∀ a b : Option Int, (a == b) = true ↔ b = a := by
      intro a b; rw [beq_iff_eq]; exact eq_comm
    simp only [Option.some.injEq, exists_eq_left']
    cases hd : uc.duration with
    | none =>
      simp only [Bool.and_eq_true, hkey, Bool.or_eq_true, Bool.not_eq_true', List.contains_iff_mem, beq_iff_eq]
      constructor
      · rintro ⟨⟨a, b⟩, c⟩
        refine ⟨a, ?_, c, ?_⟩
        · intro he; rcases b with b | b
          · rw [he] at b; simp at b
          · exact b.symm
        · intro d hd'; rw [hd] at hd'; simp at hd'
      · rintro ⟨a, b, c, -⟩
        refine ⟨⟨a, ?_⟩, c⟩
        cases he : uc.executor with
        | false => left; rfl
        | true => right; exact (b he).symm
    | some d =>
      simp only [Bool.and_eq_true, hkey, Bool.or_eq_true, Bool.not_eq_true', List.contains_iff_mem,
        beq_iff_eq, decide_eq_true_eq]
      constructor
      · rintro ⟨⟨⟨a, b⟩, c⟩, w⟩
        refine ⟨a, ?_, c, ?_⟩
        · intro he; rcases b with b | b
          · rw [he] at b; simp at b
          · exact b.symm
        · intro d' hd'; rw [hd] at hd'; simp only [Option.some.injEq] at hd'; subst hd'
          exact (abs_lt_window _ _ _).mp w
      · rintro ⟨a, b, c, w⟩
        refine ⟨⟨⟨a, ?_⟩, c⟩, (abs_lt_window _ _ _).mpr (w d hd)⟩
        cases he : uc.executor with
        | false => left; rfl
        | true => right; exact (b he).symm

/-- What a sequential unique enqueue does. -/
theorem enqueue_cases (now : Time) (e : EnqueuableJob) (m : Mem) (uc : Criteria) (hc : e.criteria = some uc) :
    ((∀ k ∈ m.jobs, ¬ Duplicate now e uc k) ∧
      (m.enqueue now e).1 = .id (wrapI32 m.allocated) ∧
      (m.enqueue now e).2.jobs = m.jobs ++ [e.intoJob now (wrapI32 m.allocated)] ∧
      (m.enqueue now e).2.allocated = m.allocated + 1) ∨
    ∃ l k r, m.jobs = l ++ k :: r ∧ (∀ x ∈ l, ¬ Duplicate now e uc x) ∧ Duplicate now e uc k ∧
      (m.enqueue now e).1 = .id k.job.id ∧
      (m.enqueue now e).2 = (m.update (k.job.replace e)).2 := by
  have hm : ∀ k, e.matches now k = true ↔ Duplicate now e uc k := by
    intro k; rw [matches_iff]; simp [hc]
  unfold Mem.enqueue
  rw [hc]
  simp only [Mem.insertUnique]
  cases hf : m.jobs.filter fun k => e.matches now k with
  | nil =>
    left
    rw [List.filter_eq_nil_iff] at hf
    refine ⟨fun k hk hd => hf k hk ((hm k).mpr hd), ?_, ?_, ?_⟩ <;> simp [Mem.insertNew]
  | cons k ks =>
    right
    obtain ⟨l, r, h1, h2, h3, h4⟩ := List.filter_eq_cons_iff.mp hf
    refine ⟨l, k, r, h1, fun x hx hd => h2 x hx ((hm x).mpr hd), (hm k).mp h3, ?_⟩
    have hex : ∃ x ∈ m.jobs, x.job.id = (k.job.replace e).id := ⟨k, by rw [h1]; simp, by simp⟩
    rcases hu : m.update (k.job.replace e) with ⟨r, m'⟩
    have hr : r = .unit := by
      rcases onJob_cases (k.job.replace e).id (fun _ => k.job.replace e) true m with ⟨hne, -⟩ | ⟨_, _, _, _, _, _, h4, _⟩
      · obtain ⟨x, hx, hi⟩ := hex; exact absurd hi (hne x hx)
      · have : (m.update (k.job.replace e)).1 = .unit := h4
        rw [hu] at this; exact this
    subst hr
    simp only [hu, replace_id, and_self]

theorem replace_cases (e : EnqueuableJob) (j : Job) :
    (∃ uc r, e.criteria = some uc ∧ uc.onConflict = .replace r ∧ j.status ∈ r.forStatuses ∧
      ReplacedBy r e j (j.replace e)) ∨
    ((∀ uc r, e.criteria = some uc → uc.onConflict = .replace r → j.status ∉ r.forStatuses) ∧
      j.replace e = j) := by
  unfold Job.replace
  split
  · rename_i x r hx
    split
    · rename_i hs
      left
      refine ⟨_, r, hx, rfl, by simpa using hs, ?_⟩
      simp [ReplacedBy]
    · rename_i hs
      right
      refine ⟨?_, rfl⟩
      rintro uc r' huc hr
      rw [hx] at huc
      simp only [Option.some.injEq] at huc
      subst huc
      simp only [Resolution.replace.injEq] at hr
      subst hr
      simpa using hs
  · rename_i hne
    right
    refine ⟨?_, rfl⟩
    rintro ⟨k, ex, du, st, oc⟩ r huc hr
    simp only at hr
    subst hr
    exact absurd huc (hne _ _ _ _ _)

/-- Replacing changes neither status, executor nor id. -/
theorem replace_same (e : EnqueuableJob) (j : Job) :
    (j.replace e).status = j.status ∧ (j.replace e).executor = j.executor ∧ (j.replace e).id = j.id := by
  rcases replace_cases e j with ⟨_, _, _, _, _, h⟩ | ⟨_, h⟩
  · exact ⟨h.2.2.2.2.2.2.1, h.2.2.2.2.2.2.2.1, h.2.2.2.2.2.1⟩
  · rw [h]; exact ⟨rfl, rfl, rfl⟩

theorem split_unique {l l' r r' : List KeyedJob} {k : KeyedJob} (hl : ∀ x ∈ l, x.job.id ≠ k.job.id)
    (hl' : ∀ x ∈ l', x.job.id ≠ k.job.id) (h : l ++ k :: r = l' ++ k :: r') : l = l' ∧ r = r' := by
  induction l generalizing l' with
  | nil =>
    cases l' with
    | nil => simpa using h
    | cons x l' =>
      simp only [List.nil_append, List.cons_append, List.cons.injEq] at h
      exact absurd (by rw [h.1]) (hl' x (by simp))
  | cons x l ih =>
    cases l' with
    | nil =>
      simp only [List.nil_append, List.cons_append, List.cons.injEq] at h
      exact absurd (by rw [h.1]) (hl x (by simp))
    | cons y l' =>
      simp only [List.cons_append, List.cons.injEq] at h
      obtain ⟨rfl, h⟩ := h
      have := ih (fun z hz => hl z (by simp [hz])) (fun z hz => hl' z (by simp [hz])) h
      exact ⟨by rw [this.1], this.2⟩

/-- The write-back of a conflict on a store with distinct ids. -/
theorem update_replace {m : Mem} {l r : List KeyedJob} {k : KeyedJob} {e : EnqueuableJob}
    (hn : (m.jobs.map fun k => k.job.id).Nodup) (h : m.jobs = l ++ k :: r) :
    (m.update (k.job.replace e)).2.jobs = l ++ { k with job := k.job.replace e } :: r ∧
    (m.update (k.job.replace e)).2.allocated = m.allocated := by
  rcases onJob_cases (k.job.replace e).id (fun _ => k.job.replace e) true m with ⟨hne, -⟩ | ⟨l', k', r', h1, h2, h3, h4, h5, h6⟩
  · exact absurd (by simp) (hne k (by rw [h]; simp))
  · refine ⟨?_, h6⟩
    have hk : k' = k := eq_of_id hn (by rw [h]; simp) (by rw [h1]; simp) (by rw [h3]; simp)
    subst hk
    have hl : l' = l ∧ r' = r := by
      have hh : l' ++ k' :: r' = l ++ k' :: r := by rw [← h1, h]
      refine split_unique ?_ ?_ hh
      · intro x hx; simpa using h2 x hx
      · intro x hx hid
        rw [h, List.map_append, List.nodup_append] at hn
        exact hn.2.2 _ (List.mem_map_of_mem (f := fun k => k.job.id) hx) _ (by simp) hid
    obtain ⟨rfl, rfl⟩ := hl
    exact h5

theorem enqueue_allocated_le (now : Time) (e : EnqueuableJob) (m : Mem) :
    (m.enqueue now e).2.allocated ≤ m.allocated + 1 := by
  cases hc : e.criteria with
  | none => simp [Mem.enqueue, hc, Mem.insertNew]
  | some uc =>
    rcases enqueue_cases now e m uc hc with ⟨_, _, _, h⟩ | ⟨l, k, r, _, _, _, _, h⟩
    · omega
    · rw [h, Mem.update, onJob_allocated]; omega

theorem runApi_allocated_le (m : Mem) (cs : List TApi) : (m.runApi cs).allocated ≤ m.allocated + cs.length := by
  induction cs generalizing m with
  | nil => simp [Mem.runApi]
  | cons c cs ih =>
    simp only [Mem.runApi, List.length_cons]
    refine Nat.le_trans (ih _) ?_
    have : (m.api c.now c.call).2.allocated ≤ m.allocated + 1 := by
      cases c.call with
      | enqueue e => exact enqueue_allocated_le _ _ _
      | op o => simp only [Mem.api]; rw [(step_ids c.now m o).2]; omega
    omega

theorem runApi_append (m : Mem) (a b : List TApi) : m.runApi (a ++ b) = (m.runApi a).runApi b := by
  induction a generalizing m with
  | nil => rfl
  | cons c cs ih => simp [Mem.runApi, ih]

/-- A sequential history is a special case of a concurrent one. -/
theorem runApi_is_run (c : Conc) (cs : List TApi) : ∃ as, (c.run as).mem = c.mem.runApi cs := by
  induction cs generalizing c with
  | nil => exact ⟨[], rfl⟩
  | cons x cs ih =>
    obtain ⟨now, call⟩ := x
    cases call with
    | enqueue e =>
      have h := enqueue_is_steps now c e _ rfl
      obtain ⟨as, has⟩ := ih { mem := (c.mem.enqueue now e).2, calls := c.calls ++ [.done (c.mem.enqueue now e).1] }
      refine ⟨[⟨now, .start e⟩, ⟨now, .advance c.calls.length⟩, ⟨now, .advance c.calls.length⟩,
        ⟨now, .advance c.calls.length⟩, ⟨now, .advance c.calls.length⟩] ++ as, ?_⟩
      rw [Conc.run_append, h, has]
      rfl
    | op o =>
      obtain ⟨as, has⟩ := ih (c.step now (.op o)).2
      refine ⟨⟨now, .op o⟩ :: as, ?_⟩
      simp only [Conc.run]
      rw [has]; rfl

/-- Ids stay distinct in sequential histories of at most 2^32 calls. -/
theorem runApi_nodup (p : Bool) (cs : List TApi) (h : cs.length ≤ 4294967296) :
    (((Mem.init p).runApi cs).jobs.map fun k => k.job.id).Nodup := by
  obtain ⟨as, has⟩ := runApi_is_run (fresh p) cs
  have hle := runApi_allocated_le (Mem.init p) cs
  have hm : (fresh p).mem = Mem.init p := rfl
  have h0 : (Mem.init p).allocated = 0 := rfl
  have ht := trace_taken (fresh p) as
  rw [has, hm, h0, Nat.zero_add] at ht
  have H := histOk_run p as (by rw [ht]; omega)
  have := H.ids_nodup
  unfold Mem.ids at this
  rw [has] at this
  exact this

end Rexecutor
