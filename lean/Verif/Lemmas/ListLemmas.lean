import Verif.Model.Concurrent

/-! Helper lemmas about the list functions of the model. -/

namespace Rexecutor

/-! ## `updateById` -/

theorem updateById_none {id : Int} {f : Job → Job} {ks : List KeyedJob} :
    updateById id f ks = none ↔ ∀ k ∈ ks, k.job.id ≠ id := by
  induction ks with
  | nil => simp [updateById]
  | cons k ks ih =>
    simp only [updateById]
    split
    · simp_all
    · simp_all

theorem updateById_some {id : Int} {f : Job → Job} {ks ks' : List KeyedJob} {j : Job}
    (h : updateById id f ks = some (ks', j)) :
    ∃ l k r, ks = l ++ k :: r ∧ (∀ x ∈ l, x.job.id ≠ id) ∧ k.job.id = id ∧
      ks' = l ++ { k with job := f k.job } :: r ∧ j = f k.job := by
  induction ks generalizing ks' j with
  | nil => simp [updateById] at h
  | cons k ks ih =>
    simp only [updateById] at h
    split at h
    · rename_i hk
      simp only [Option.some.injEq, Prod.mk.injEq] at h
      exact ⟨[], k, ks, by simp, by simp, hk, by simp [← h.1], h.2.symm⟩
    · rename_i hk
      cases hu : updateById id f ks with
      | none => simp [hu] at h
      | some p =>
        obtain ⟨a, b⟩ := p
        simp only [hu, Option.map_some, Option.some.injEq, Prod.mk.injEq] at h
        obtain ⟨l, x, r, h1, h2, h3, h4, h5⟩ := ih hu
        refine ⟨k :: l, x, r, by simp [h1], ?_, h3, ?_, ?_⟩
        · intro y hy
          rcases List.mem_cons.mp hy with rfl | hy
          · exact hk
          · exact h2 y hy
        · rw [← h.1, h4]; rfl
        · rw [← h.2, h5]

theorem updateById_isSome {id : Int} {f : Job → Job} {ks : List KeyedJob}
    (h : ∃ k ∈ ks, k.job.id = id) : ∃ p, updateById id f ks = some p := by
  cases hu : updateById id f ks with
  | none => obtain ⟨k, hk, he⟩ := h; exact absurd he (updateById_none.mp hu k hk)
  | some p => exact ⟨p, rfl⟩

/-! ## Insertion sort -/

theorem insertBy_perm (le : α → α → Bool) (a : α) (l : List α) : (insertBy le a l).Perm (a :: l) := by
  induction l with
  | nil => simp [insertBy]
  | cons b bs ih =>
    simp only [insertBy]
    split
    · exact List.Perm.refl _
    · exact (List.Perm.cons b ih).trans (List.Perm.swap a b bs)

theorem sortBy_perm (le : α → α → Bool) (l : List α) : (sortBy le l).Perm l := by
  induction l with
  | nil => simp [sortBy]
  | cons a as ih => exact (insertBy_perm le a _).trans (List.Perm.cons a ih)

/-- The head of the sorted list: everything that comes before it in the original
list is strictly larger, everything after it is not smaller. -/
theorem sortBy_head {le : α → α → Bool} (total : ∀ a b, le a b = true ∨ le b a = true)
    (trans : ∀ a b c, le a b = true → le b c = true → le a c = true)
    {l : List α} {a : α} {t : List α} (h : sortBy le l = a :: t) :
    ∃ pre post, l = pre ++ a :: post ∧ (∀ b ∈ pre, le b a = false) ∧ (∀ b ∈ post, le a b = true) := by
  induction l generalizing a t with
  | nil => simp [sortBy] at h
  | cons x xs ih =>
    simp only [sortBy] at h
    cases hs : sortBy le xs with
    | nil =>
      have hx : xs = [] := by
        have := sortBy_perm le xs
        rw [hs] at this
        exact List.nil_perm.mp this
      rw [hs] at h
      simp only [insertBy, List.cons.injEq] at h
      exact ⟨[], [], by simp [hx, h.1], by simp, by simp⟩
    | cons b bs =>
      obtain ⟨pre, post, h1, h2, h3⟩ := ih hs
      rw [hs] at h
      simp only [insertBy] at h
      split at h
      · rename_i hle
        simp only [List.cons.injEq] at h
        obtain ⟨rfl, -⟩ := h
        refine ⟨[], xs, by simp, by simp, ?_⟩
        intro y hy
        rw [h1] at hy
        rcases List.mem_append.mp hy with hy | hy
        · have hyb := h2 y hy
          rcases total y b with hc | hc
          · rw [hc] at hyb; cases hyb
          · exact trans _ _ _ hle hc
        · rcases List.mem_cons.mp hy with rfl | hy
          · exact hle
          · exact trans _ _ _ hle (h3 y hy)
      · rename_i hle
        simp only [List.cons.injEq] at h
        obtain ⟨rfl, -⟩ := h
        refine ⟨x :: pre, post, by simp [h1], ?_, h3⟩
        intro y hy
        rcases List.mem_cons.mp hy with rfl | hy
        · simpa using hle
        · exact h2 y hy

theorem insertBy_sorted {le : α → α → Bool} (total : ∀ a b, le a b = true ∨ le b a = true)
    (trans : ∀ a b c, le a b = true → le b c = true → le a c = true) (a : α) (l : List α)
    (h : l.Pairwise fun x y => le x y = true) : (insertBy le a l).Pairwise fun x y => le x y = true := by
  induction l with
  | nil => simp [insertBy]
  | cons b bs ih =>
    rw [List.pairwise_cons] at h
    unfold insertBy
    split
    · rename_i hab
      rw [List.pairwise_cons]
      refine ⟨?_, List.pairwise_cons.mpr h⟩
      intro x m
      rcases List.mem_cons.mp m with rfl | m
      · exact hab
      · exact trans _ _ _ hab (h.1 x m)
    · rename_i hab
      rw [List.pairwise_cons]
      refine ⟨?_, ih h.2⟩
      intro x m
      have hm := (insertBy_perm le a bs).mem_iff.mp m
      rcases List.mem_cons.mp hm with rfl | hm
      · exact (total b x).resolve_right hab
      · exact h.1 x hm

/-- Sorting gives a sorted list. -/
theorem sortBy_sorted {le : α → α → Bool} (total : ∀ a b, le a b = true ∨ le b a = true)
    (trans : ∀ a b c, le a b = true → le b c = true → le a c = true) (l : List α) :
    (sortBy le l).Pairwise fun x y => le x y = true := by
  induction l with
  | nil => simp [sortBy]
  | cons a as ih => exact insertBy_sorted total trans a _ ih

theorem sortBy_eq_nil {le : α → α → Bool} {l : List α} : sortBy le l = [] ↔ l = [] := by
  constructor
  · intro h
    have := sortBy_perm le l
    rw [h] at this
    exact List.nil_perm.mp this
  · rintro rfl; rfl

/-! ## `dueBefore` -/

theorem dueBefore_iff {a b : Job} : dueBefore a b = true ↔
    a.scheduledAt < b.scheduledAt ∨ (a.scheduledAt = b.scheduledAt ∧ a.priority ≤ b.priority) := by
  simp [dueBefore]

theorem dueBefore_total (a b : Job) : dueBefore a b = true ∨ dueBefore b a = true := by
  simp only [dueBefore_iff, Time] at *; omega

theorem dueBefore_trans (a b c : Job) (h1 : dueBefore a b = true) (h2 : dueBefore b c = true) :
    dueBefore a c = true := by
  simp only [dueBefore_iff, Time] at *; omega

theorem readyFor_iff {now : Time} {x : String} {j : Job} : readyFor now x j = true ↔
    j.executor = x ∧ j.scheduledAt - now < 100 * ms ∧ (j.status = .scheduled ∨ j.status = .retryable) := by
  simp only [readyFor, Bool.and_eq_true, beq_iff_eq, decide_eq_true_eq, Bool.or_eq_true]
  constructor
  · rintro ⟨⟨a, b⟩, c | c⟩ <;> simp_all
  · rintro ⟨a, b, c | c⟩ <;> simp_all

/-- What `load` does, in terms of a split of the store. -/
theorem load_cases (now : Time) (x : String) (m : Mem) :
    (∀ k ∈ m.jobs, readyFor now x k.job = false) ∧ m.load now x = (none, m) ∨
    ∃ l k r, m.jobs = l ++ k :: r ∧ readyFor now x k.job = true ∧
      (∀ y ∈ l, readyFor now x y.job = true → dueBefore y.job k.job = false) ∧
      (∀ y ∈ r, readyFor now x y.job = true → dueBefore k.job y.job = true) ∧
      m.load now x = (some (k.job.markExecuting now),
        { m with jobs := l ++ { k with job := k.job.markExecuting now } :: r }) := by
  unfold Mem.load
  simp only
  split
  · rename_i h
    left
    refine ⟨?_, rfl⟩
    rw [sortBy_eq_nil, List.filter_eq_nil_iff] at h
    intro k hk
    obtain ⟨i, hi⟩ := List.mem_iff_getElem?.mp hk
    have := h (k, i) (List.mem_zipIdx_iff_getElem?.mpr hi)
    simpa using this
  · rename_i k i t h
    right
    obtain ⟨pre, post, h1, h2, h3⟩ := sortBy_head
      (fun a b => dueBefore_total a.1.job b.1.job)
      (fun a b c => dueBefore_trans a.1.job b.1.job c.1.job) h
    obtain ⟨p', q', e1, e2, e3⟩ := List.filter_eq_append_iff.mp h1
    obtain ⟨u, v, f1, f2, f3, f4⟩ := List.filter_eq_cons_iff.mp e3
    have hz : m.jobs.zipIdx = (p' ++ u) ++ (k, i) :: v := by rw [e1, f1]; simp
    have hjobs : m.jobs = ((p' ++ u).map Prod.fst) ++ k :: v.map Prod.fst := by
      have : m.jobs.zipIdx.map Prod.fst = m.jobs := List.zipIdx_map_fst 0 m.jobs
      rw [← this, hz]; simp
    have hi : i = (p' ++ u).length := by
      have h5 : m.jobs.zipIdx[(p' ++ u).length]? = some (k, i) := by rw [hz]; simp
      rw [List.getElem?_zipIdx] at h5
      cases hq : m.jobs[(p' ++ u).length]? with
      | none => rw [hq] at h5; simp at h5
      | some z => rw [hq] at h5; simp at h5; simp; omega
    refine ⟨(p' ++ u).map Prod.fst, k, v.map Prod.fst, hjobs, ?_, ?_, ?_, ?_⟩
    · simpa using f3
    · intro y hy hr
      obtain ⟨⟨y', n⟩, hm, rfl⟩ := List.mem_map.mp hy
      rcases List.mem_append.mp hm with hm | hm
      · have : (y', n) ∈ pre := by rw [← e2]; exact List.mem_filter.mpr ⟨hm, hr⟩
        exact h2 _ this
      · exact absurd hr (f2 _ hm)
    · intro y hy hr
      obtain ⟨⟨y', n⟩, hm, rfl⟩ := List.mem_map.mp hy
      have : (y', n) ∈ post := by rw [← f4]; exact List.mem_filter.mpr ⟨hm, hr⟩
      exact h3 _ this
    · congr 1
      congr 1
      rw [hjobs, hi]
      have : (p' ++ u).length = ((p' ++ u).map Prod.fst).length := by simp
      rw [this, List.set_append_right _ _ (Nat.le_refl _)]
      simp

/-! ## Pruning -/

theorem retainLength_sublist (spec : PruneSpec) (n c : Nat) (ks : List KeyedJob) :
    (Mem.retainLength spec n c ks).Sublist ks := by
  induction ks generalizing c with
  | nil => simp [Mem.retainLength]
  | cons k ks ih =>
    simp only [Mem.retainLength]
    split
    · split
      · exact (ih _).cons_cons k
      · exact (ih _).cons k
    · exact (ih _).cons_cons k

theorem prune_sublist (now : Time) (spec : PruneSpec) (m : Mem) :
    (m.prune now spec).jobs.Sublist m.jobs := by
  unfold Mem.prune
  split
  · exact List.filter_sublist
  · exact retainLength_sublist _ _ _ _

@[simp] theorem prune_allocated (now : Time) (spec : PruneSpec) (m : Mem) :
    (m.prune now spec).allocated = m.allocated := by
  unfold Mem.prune; split <;> rfl

@[simp] theorem prune_subs (now : Time) (spec : PruneSpec) (m : Mem) :
    (m.prune now spec).subs = m.subs := by
  unfold Mem.prune; split <;> rfl

@[simp] theorem prune_paused (now : Time) (spec : PruneSpec) (m : Mem) :
    (m.prune now spec).paused = m.paused := by
  unfold Mem.prune; split <;> rfl

/-! ## Notifications touch only the channels -/

@[simp] theorem notify_jobs (x : String) (t : Time) (m : Mem) : (m.notify x t).jobs = m.jobs := by
  unfold Mem.notify; split <;> rfl

@[simp] theorem notify_allocated (x : String) (t : Time) (m : Mem) :
    (m.notify x t).allocated = m.allocated := by
  unfold Mem.notify; split <;> rfl

@[simp] theorem notify_paused (x : String) (t : Time) (m : Mem) :
    (m.notify x t).paused = m.paused := by
  unfold Mem.notify; split <;> rfl

@[simp] theorem notifyAll_jobs (t : Time) (m : Mem) : (m.notifyAll t).jobs = m.jobs := rfl
@[simp] theorem notifyAll_allocated (t : Time) (m : Mem) : (m.notifyAll t).allocated = m.allocated := rfl
@[simp] theorem subscribe_jobs (x : String) (m : Mem) : (m.subscribe x).jobs = m.jobs := rfl
@[simp] theorem subscribe_allocated (x : String) (m : Mem) : (m.subscribe x).allocated = m.allocated := rfl

theorem onJob_cases (id : Int) (f : Job → Job) (w : Bool) (m : Mem) :
    ((∀ k ∈ m.jobs, k.job.id ≠ id) ∧ m.onJob id f w = (.err (.jobNotFound id), m)) ∨
    ∃ l k r, m.jobs = l ++ k :: r ∧ (∀ x ∈ l, x.job.id ≠ id) ∧ k.job.id = id ∧
      (m.onJob id f w).1 = .unit ∧
      (m.onJob id f w).2.jobs = l ++ { k with job := f k.job } :: r ∧
      (m.onJob id f w).2.allocated = m.allocated := by
  unfold Mem.onJob
  cases h : updateById id f m.jobs with
  | none => left; exact ⟨updateById_none.mp h, rfl⟩
  | some p =>
    right
    obtain ⟨ks', j⟩ := p
    obtain ⟨l, k, r, h1, h2, h3, h4, h5⟩ := updateById_some h
    refine ⟨l, k, r, h1, h2, h3, rfl, ?_, ?_⟩
    · cases w <;> simp [h4]
    · cases w <;> simp

@[simp] theorem replace_id (e : EnqueuableJob) (j : Job) : (j.replace e).id = j.id := by
  unfold Job.replace; split <;> try rfl
  split <;> rfl

@[simp] theorem intoJob_id (now : Time) (e : EnqueuableJob) (id : Int) :
    (e.intoJob now id).job.id = id := rfl

end Rexecutor
