import Verif.Spec.History
import Verif.Spec.Samples
import Verif.Spec.Prune
import Verif.Lemmas.Life

/-! C105: what other executors do makes no difference to an executor's jobs. -/

namespace Rexecutor

/-! ## Vocabulary -/

/-- The stored jobs of executor `x`, in order. -/
def ownJobs (x : String) (m : Mem) : List KeyedJob := m.jobs.filter fun k => k.job.executor == x

/-- The channels of the streams of executor `x`. -/
def ownSubs (x : String) (m : Mem) : List Sub := m.subs.filter fun s => s.executor == x

/-- A job whose uniqueness criteria, if any, are restricted to its own executor. -/
def EnqueuableJob.Scoped (e : EnqueuableJob) : Prop :=
  ∀ uc, e.criteria = some uc → uc.executor = true

/-- An `enqueue` call under way that is about a job of executor `x`. -/
def Pending.isOf (x : String) : Pending → Bool
  | .start e => e.executor == x
  | .noMatch e => e.executor == x
  | .allocated _ e => e.executor == x
  | .pushed _ e => e.executor == x
  | .matched job => job.executor == x
  | .done _ => false

/-- An action that is not the business of executor `x`: it enqueues for another
executor, names a job that is not stored as one of `x`, polls or subscribes for
another executor, or prunes only jobs of other executors. -/
def Act.Elsewhere (x : String) (c : Conc) : Act → Prop
  | .start e => e.executor ≠ x ∧ e.Scoped
  | .advance i => ∀ p, c.calls[i]? = some p → p.isOf x = false
  | .op (.complete id) => ∀ k ∈ c.mem.jobs, k.job.id = id → k.job.executor ≠ x
  | .op (.retryable id _ _) => ∀ k ∈ c.mem.jobs, k.job.id = id → k.job.executor ≠ x
  | .op (.discarded id _) => ∀ k ∈ c.mem.jobs, k.job.id = id → k.job.executor ≠ x
  | .op (.cancelled id _) => ∀ k ∈ c.mem.jobs, k.job.id = id → k.job.executor ≠ x
  | .op (.snoozed id _) => ∀ k ∈ c.mem.jobs, k.job.id = id → k.job.executor ≠ x
  | .op (.rerun id) => ∀ k ∈ c.mem.jobs, k.job.id = id → k.job.executor ≠ x
  | .op (.update job) =>
    job.executor ≠ x ∧ ∀ k ∈ c.mem.jobs, k.job.id = job.id → k.job.executor ≠ x
  | .op (.prune spec) => ¬ spec.IsAbout x
  | .op (.load y) => y ≠ x
  | .op (.subscribe y) => y ≠ x
  | .op (.query _) => False
  | .op .notifyAll => False

/-- An action that may happen in both runs: an enqueue with criteria within its
executor, an update that leaves the executor of the job alone, a prune by age, a
prune by length of jobs of `x` only or of no job of `x`, or any other call. -/
def Act.Separate (x : String) (c : Conc) : Act → Prop
  | .start e => e.Scoped
  | .op (.update job) => ∀ k ∈ c.mem.jobs, k.job.id = job.id → k.job.executor = job.executor
  | .op (.prune spec) => (∃ d, spec.pruneBy = .maxAge d) ∨
      (∀ y, spec.IsAbout y → y = x) ∨ ¬ spec.IsAbout x
  | _ => True

/-- The action is the beginning of an `enqueue` call. -/
def Act.begins : Act → Bool
  | .start _ => true
  | _ => false

/-- At the same moment the two runs do the same thing, or each does something
that is not the business of executor `x`. Calls of `enqueue` are numbered, so the
runs begin them at the same moments. -/
def SideBySide (x : String) (c d : Conc) (a b : TAct) : Prop :=
  a.now = b.now ∧
  ((a.act = b.act ∧ a.act.Separate x c ∧ b.act.Separate x d) ∨
   (a.act.begins = b.act.begins ∧ a.act.Elsewhere x c ∧ b.act.Elsewhere x d))

/-- What executor `x` gets to see of an event: the jobs it is handed, its new
jobs, the outcome of its unique enqueues that found a job, and its own jobs in the
answer to a query. -/
def Ev.seenBy (x : String) : Ev → Option Ev
  | .op (.load y) r => if y = x then some (.op (.load y) r) else none
  | .inserted id e => if e.executor = x then some (.inserted id e) else none
  | .wrote job r => if job.executor = x then some (.wrote job r) else none
  | .op (.query q) (.jobs js) =>
    some (.op (.query q) (.jobs (js.filter fun j => j.executor == x)))
  | _ => none

/-! ## One step of one store -/

theorem ownSubs_notify (x y : String) (t : Time) (m : Mem) :
    ownSubs x (m.notify y t) =
      if m.paused = false ∧ y = x
      then (ownSubs x m).map fun s => { s with queue := s.queue ++ [t] } else ownSubs x m := by
  unfold Mem.notify ownSubs
  cases m.paused with
  | true => simp
  | false =>
    simp only [Bool.false_eq_true, if_false, true_and]
    induction m.subs with
    | nil => split <;> rfl
    | cons s ss ih =>
      simp only [List.map_cons, List.filter_cons]
      by_cases h1 : s.executor = y <;> by_cases h2 : s.executor = x <;> by_cases h3 : y = x <;>
        simp_all

theorem ownJobs_notify (x y : String) (t : Time) (m : Mem) :
    ownJobs x (m.notify y t) = ownJobs x m := by
  unfold ownJobs; rw [notify_jobs]

/-- How a by-id call looks from executor `x`. -/
theorem own_onJob {x : String} {id : Int} {f : Job → Job} {w : Bool} {m : Mem}
    (hnd : m.ids.Nodup)
    (hf : ∀ k ∈ m.jobs, k.job.id = id → (f k.job).executor = k.job.executor) :
    (ownJobs x (m.onJob id f w).2 =
        match updateById id f (ownJobs x m) with
        | some (ks, _) => ks
        | none => ownJobs x m) ∧
    (ownSubs x (m.onJob id f w).2 =
        match updateById id f (ownJobs x m) with
        | some (_, j) =>
          if w = true ∧ m.paused = false
          then (ownSubs x m).map fun s => { s with queue := s.queue ++ [j.scheduledAt] }
          else ownSubs x m
        | none => ownSubs x m) ∧
    ((updateById id f (ownJobs x m)).isSome = true → (m.onJob id f w).1 = .unit) ∧
    (m.onJob id f w).2.paused = m.paused := by
  unfold Mem.onJob
  cases h : updateById id f m.jobs with
  | none =>
    have hn : updateById id f (ownJobs x m) = none := by
      rw [updateById_none] at h ⊢
      exact fun k hk => h k (List.mem_filter.mp hk).1
    simp [hn]
  | some p =>
    obtain ⟨ks', j⟩ := p
    obtain ⟨l, k, r, h1, h2, h3, h4, h5⟩ := updateById_some h
    have hk := hf k (by rw [h1]; simp) h3
    have hr : ∀ y ∈ r, y.job.id ≠ id := by
      unfold Mem.ids at hnd
      rw [h1] at hnd
      simp only [List.map_append, List.map_cons, List.nodup_append, List.nodup_cons] at hnd
      intro y hy he
      apply hnd.2.1.1
      rw [h3, ← he]
      exact List.mem_map_of_mem (f := fun k : KeyedJob => k.job.id) hy
    by_cases hx : k.job.executor = x
    · have hs : updateById id f (ownJobs x m) = some (ks'.filter fun k => k.job.executor == x, j) := by
        have hne : ∃ p, updateById id f (ownJobs x m) = some p :=
          updateById_isSome ⟨k, List.mem_filter.mpr ⟨by rw [h1]; simp, by simpa using hx⟩, h3⟩
        obtain ⟨⟨q, j'⟩, hq⟩ := hne
        rw [hq]
        obtain ⟨l', k', r', e1, e2, e3, e4, e5⟩ := updateById_some hq
        have hown : ownJobs x m = (l.filter fun k => k.job.executor == x) ++ k ::
            r.filter fun k => k.job.executor == x := by
          unfold ownJobs; rw [h1]; simp [hx]
        rw [hown] at e1
        have hl : ∀ y ∈ l.filter fun k => k.job.executor == x, y.job.id ≠ id :=
          fun y hy => h2 y (List.mem_filter.mp hy).1
        have hr' : ∀ y ∈ r.filter fun k => k.job.executor == x, y.job.id ≠ id :=
          fun y hy => hr y (List.mem_filter.mp hy).1
        have : l' = (l.filter fun k => k.job.executor == x) ∧ k' = k ∧
            r' = r.filter fun k => k.job.executor == x := by
          rcases List.append_eq_append_iff.mp e1 with ⟨s, ea, eb⟩ | ⟨s, ea, eb⟩
          · cases s with
            | nil => simp at ea eb; exact ⟨ea, eb.1.symm, eb.2.symm⟩
            | cons z s =>
              simp only [List.cons_append, List.cons.injEq] at eb
              exact absurd h3 (e2 k (by rw [ea]; simp [eb.1]))
          · cases s with
            | nil => simp at ea eb; exact ⟨ea.symm, eb.1, eb.2⟩
            | cons z s =>
              simp only [List.cons_append, List.cons.injEq] at eb
              exact absurd e3 (hl k' (by rw [ea]; simp [eb.1]))
        obtain ⟨rfl, rfl, rfl⟩ := this
        rw [e4, e5, h4, h5]
        simp [hk, hx]
      refine ⟨?_, ?_, ?_, ?_⟩
      · rw [hs]
        cases w
        · simp [ownJobs]
        · simp only [if_true]; rw [ownJobs_notify]; rfl
      · rw [hs]
        have hjx : j.executor = x := by rw [h5, hk, hx]
        cases w
        · simp [ownSubs]
        · simp only [if_true]; rw [ownSubs_notify]; simp only [hjx, and_true, true_and]; rfl
      · intro _; cases w <;> simp
      · cases w <;> simp
    · have hn : updateById id f (ownJobs x m) = none := by
        rw [updateById_none]
        intro y hy he
        obtain ⟨hy1, hy2⟩ := List.mem_filter.mp hy
        rw [h1] at hy1
        rcases List.mem_append.mp hy1 with hy1 | hy1
        · exact h2 y hy1 he
        · rcases List.mem_cons.mp hy1 with rfl | hy1
          · exact hx (by simpa using hy2)
          · exact hr y hy1 he
      have hjx : j.executor ≠ x := by rw [h5, hk]; exact hx
      refine ⟨?_, ?_, ?_, ?_⟩
      · rw [hn]
        have : ks'.filter (fun k => k.job.executor == x) = ownJobs x m := by
          unfold ownJobs; rw [h1, h4]; simp [hk, hx]
        cases w
        · simpa [ownJobs] using this
        · simp only [if_true]; rw [ownJobs_notify]; exact this
      · rw [hn]
        cases w
        · simp [ownSubs]
        · simp only [if_true]; rw [ownSubs_notify]; simp only [hjx, and_false, if_false]; rfl
      · rw [hn]; simp
      · cases w <;> simp

/-- The same by-id call on two stores with the same jobs of `x`. -/
theorem own_onJob_two {x : String} {id : Int} {f : Job → Job} {w : Bool} {m n : Mem}
    (hm : m.ids.Nodup) (hn : n.ids.Nodup)
    (hfm : ∀ k ∈ m.jobs, k.job.id = id → (f k.job).executor = k.job.executor)
    (hfn : ∀ k ∈ n.jobs, k.job.id = id → (f k.job).executor = k.job.executor)
    (hj : ownJobs x m = ownJobs x n) (hs : ownSubs x m = ownSubs x n) (hp : m.paused = n.paused) :
    ownJobs x (m.onJob id f w).2 = ownJobs x (n.onJob id f w).2 ∧
    ownSubs x (m.onJob id f w).2 = ownSubs x (n.onJob id f w).2 ∧
    (m.onJob id f w).2.paused = (n.onJob id f w).2.paused := by
  obtain ⟨a1, a2, -, a4⟩ := own_onJob (x := x) (w := w) hm hfm
  obtain ⟨b1, b2, -, b4⟩ := own_onJob (x := x) (w := w) hn hfn
  rw [a1, a2, a4, b1, b2, b4, hj, hs, hp]
  exact ⟨rfl, rfl, rfl⟩

/-- A by-id call about somebody else's job. -/
theorem own_onJob_elsewhere {x : String} {id : Int} {f : Job → Job} {w : Bool} {m : Mem}
    (hf : ∀ k ∈ m.jobs, k.job.id = id → (f k.job).executor ≠ x)
    (he : ∀ k ∈ m.jobs, k.job.id = id → k.job.executor ≠ x) :
    ownJobs x (m.onJob id f w).2 = ownJobs x m ∧
    ownSubs x (m.onJob id f w).2 = ownSubs x m ∧
    (m.onJob id f w).2.paused = m.paused := by
  unfold Mem.onJob
  cases h : updateById id f m.jobs with
  | none => exact ⟨rfl, rfl, rfl⟩
  | some p =>
    obtain ⟨ks', j⟩ := p
    obtain ⟨l, k, r, h1, h2, h3, h4, h5⟩ := updateById_some h
    have hk := hf k (by rw [h1]; simp) h3
    have hx := he k (by rw [h1]; simp) h3
    have hjx : j.executor ≠ x := by rw [h5]; exact hk
    have hks : ks'.filter (fun k => k.job.executor == x) = ownJobs x m := by
      unfold ownJobs; rw [h1, h4]; simp [hk, hx]
    cases w
    · exact ⟨by simpa [ownJobs] using hks, by simp [ownSubs], by simp⟩
    · simp only [if_true]
      rw [ownJobs_notify, ownSubs_notify]
      simp only [hjx, and_false, if_false]
      exact ⟨hks, rfl, by simp⟩

theorem own_load_subs (now : Time) (y : String) (m : Mem) :
    (m.load now y).2.subs = m.subs ∧ (m.load now y).2.paused = m.paused := by
  rcases load_cases now y m with ⟨-, he⟩ | ⟨l, k, r, -, -, -, -, h5⟩
  · rw [he]; exact ⟨rfl, rfl⟩
  · rw [h5]; exact ⟨rfl, rfl⟩

theorem own_load_elsewhere {x y : String} (now : Time) (m : Mem) (h : y ≠ x) :
    ownJobs x (m.load now y).2 = ownJobs x m := by
  rcases load_cases now y m with ⟨-, he⟩ | ⟨l, k, r, h1, h2, -, -, h5⟩
  · rw [he]
  · have hk : k.job.executor = y := (readyFor_iff.mp h2).1
    have hkx : k.job.executor ≠ x := by rw [hk]; exact h
    rw [h5]
    unfold ownJobs
    rw [h1]
    simp [Job.markExecuting, hkx]

/-- The first due job of a list is determined by the list. -/
theorem first_due_unique {α : Type _} {good : α → Bool} {le : α → α → Bool} {l₁ r₁ l₂ r₂ : List α} {a b : α}
    (h : l₁ ++ a :: r₁ = l₂ ++ b :: r₂) (ga : good a = true) (gb : good b = true)
    (hl₁ : ∀ y ∈ l₁, good y = true → le y a = false) (hr₁ : ∀ y ∈ r₁, good y = true → le a y = true)
    (hl₂ : ∀ y ∈ l₂, good y = true → le y b = false) (hr₂ : ∀ y ∈ r₂, good y = true → le b y = true) :
    l₁ = l₂ ∧ a = b ∧ r₁ = r₂ := by
  rcases List.append_eq_append_iff.mp h with ⟨s, ea, eb⟩ | ⟨s, ea, eb⟩
  · cases s with
    | nil => simp at ea eb; exact ⟨ea.symm, eb.1, eb.2⟩
    | cons z s =>
      simp only [List.cons_append, List.cons.injEq] at eb
      have h1 := hl₂ a (by rw [ea, eb.1]; simp) ga
      have h2 := hr₁ b (by rw [eb.2]; simp) gb
      rw [h1] at h2; cases h2
  · cases s with
    | nil => simp at ea eb; exact ⟨ea, eb.1.symm, eb.2.symm⟩
    | cons z s =>
      simp only [List.cons_append, List.cons.injEq] at eb
      have h1 := hl₁ b (by rw [ea, eb.1]; simp) gb
      have h2 := hr₂ a (by rw [eb.2]; simp) ga
      rw [h1] at h2; cases h2

theorem own_load_two {x : String} (now : Time) {m n : Mem} (hj : ownJobs x m = ownJobs x n) :
    (m.load now x).1 = (n.load now x).1 ∧
    ownJobs x (m.load now x).2 = ownJobs x (n.load now x).2 := by
  have own : ∀ (m : Mem) (k : KeyedJob), k ∈ m.jobs → readyFor now x k.job = true → k ∈ ownJobs x m :=
    fun m k hk hr => List.mem_filter.mpr ⟨hk, by simpa using (readyFor_iff.mp hr).1⟩
  rcases load_cases now x m with ⟨hno, he⟩ | ⟨l, k, r, h1, h2, h3, h4, h5⟩ <;>
    rcases load_cases now x n with ⟨hno', he'⟩ | ⟨l', k', r', h1', h2', h3', h4', h5'⟩
  · rw [he, he']; exact ⟨rfl, hj⟩
  · have := own n k' (by rw [h1']; simp) h2'
    rw [← hj] at this
    have := hno k' (List.mem_filter.mp this).1
    rw [h2'] at this; cases this
  · have := own m k (by rw [h1]; simp) h2
    rw [hj] at this
    have := hno' k (List.mem_filter.mp this).1
    rw [h2] at this; cases this
  · have hx := (readyFor_iff.mp h2).1
    have hx' := (readyFor_iff.mp h2').1
    have e1 : ownJobs x m = (l.filter fun k => k.job.executor == x) ++ k ::
        r.filter fun k => k.job.executor == x := by unfold ownJobs; rw [h1]; simp [hx]
    have e2 : ownJobs x n = (l'.filter fun k => k.job.executor == x) ++ k' ::
        r'.filter fun k => k.job.executor == x := by unfold ownJobs; rw [h1']; simp [hx']
    rw [e1, e2] at hj
    obtain ⟨a1, rfl, a3⟩ := first_due_unique (good := fun k : KeyedJob => readyFor now x k.job)
      (le := fun a b => dueBefore a.job b.job) hj h2 h2'
      (fun y hy => h3 y (List.mem_filter.mp hy).1) (fun y hy => h4 y (List.mem_filter.mp hy).1)
      (fun y hy => h3' y (List.mem_filter.mp hy).1) (fun y hy => h4' y (List.mem_filter.mp hy).1)
    rw [h5, h5']
    refine ⟨rfl, ?_⟩
    unfold ownJobs
    simp [Job.markExecuting, hx, a1, a3]

theorem own_retain_only {x : String} {spec : PruneSpec}
    (h : ∀ j : Job, spec.matches j = true → j.executor = x) (n c : Nat) (ks : List KeyedJob) :
    (Mem.retainLength spec n c ks).filter (fun k => k.job.executor == x) =
      Mem.retainLength spec n c (ks.filter fun k => k.job.executor == x) := by
  induction ks generalizing c with
  | nil => rfl
  | cons k ks ih =>
    by_cases hm : spec.matches k.job = true
    · have hx := h _ hm
      simp only [Mem.retainLength, hm, if_true, List.filter_cons, hx, beq_self_eq_true]
      split <;> simp [List.filter_cons, hx, ih]
    · simp only [Mem.retainLength, hm, List.filter_cons]
      by_cases hx : k.job.executor = x <;> simp [hx, Mem.retainLength, hm, ih]

theorem own_retain_none {x : String} {spec : PruneSpec}
    (h : ∀ j : Job, j.executor = x → spec.matches j = false) (n c : Nat) (ks : List KeyedJob) :
    (Mem.retainLength spec n c ks).filter (fun k => k.job.executor == x) =
      ks.filter fun k => k.job.executor == x := by
  induction ks generalizing c with
  | nil => rfl
  | cons k ks ih =>
    by_cases hx : k.job.executor = x
    · simp [Mem.retainLength, h _ hx, hx, ih]
    · by_cases hm : spec.matches k.job = true
      · simp only [Mem.retainLength, hm, if_true]
        split <;> simp [hx, ih]
      · simp [Mem.retainLength, hm, hx, ih]

theorem matches_isAbout {spec : PruneSpec} {j : Job} (h : spec.matches j = true) :
    spec.IsAbout j.executor := by
  unfold PruneSpec.matches ExecSpec.matches at h
  unfold PruneSpec.IsAbout
  cases he : spec.executors <;> simp_all
  intro hm
  exact h.2 _ hm rfl

theorem not_about_matches {x : String} {spec : PruneSpec} (h : ¬ spec.IsAbout x) (j : Job)
    (hx : j.executor = x) : spec.matches j = false := by
  cases hm : spec.matches j with
  | false => rfl
  | true => exact absurd (hx ▸ matches_isAbout hm) h

theorem own_prune_elsewhere {x : String} (now : Time) {spec : PruneSpec} (m : Mem)
    (h : ∀ j : Job, j.executor = x → spec.matches j = false) :
    ownJobs x (m.prune now spec) = ownJobs x m := by
  unfold Mem.prune ownJobs
  split
  · simp only [List.filter_filter]
    apply List.filter_congr
    intro k _
    by_cases hx : k.job.executor = x
    · simp [hx, h _ hx]
    · simp [hx]
  · exact own_retain_none h _ _ _

theorem own_prune_two {x : String} (now : Time) {spec : PruneSpec} {m n : Mem}
    (h : (∃ d, spec.pruneBy = .maxAge d) ∨
      (∀ y, spec.IsAbout y → y = x) ∨ ¬ spec.IsAbout x)
    (hj : ownJobs x m = ownJobs x n) :
    ownJobs x (m.prune now spec) = ownJobs x (n.prune now spec) := by
  rcases h with ⟨d, hd⟩ | h | h
  · unfold Mem.prune ownJobs at *
    simp only [hd]
    rw [List.filter_filter, List.filter_filter]
    simp only [Bool.and_comm (_ == x)]
    rw [← List.filter_filter, ← List.filter_filter, hj]
  · unfold Mem.prune
    split
    · unfold ownJobs at *
      simp only
      rw [List.filter_filter, List.filter_filter]
      simp only [Bool.and_comm (_ == x)]
      rw [← List.filter_filter, ← List.filter_filter, hj]
    · unfold ownJobs at *
      simp only
      rw [own_retain_only fun j hj => h _ (matches_isAbout hj), own_retain_only fun j hj => h _ (matches_isAbout hj), hj]
  · rw [own_prune_elsewhere now m (not_about_matches h), own_prune_elsewhere now n (not_about_matches h), hj]

/-! ## One step of one call under way -/

/-- The criteria of an `enqueue` call that has not looked yet are within its executor. -/
def Pending.scoped : Pending → Prop
  | .start e => e.Scoped
  | _ => True

/-- A write-back that is about to happen concerns a job of `x` exactly if the job
stored under its id is one of `x`. -/
def WriteOk (x : String) (h : List TEv) (c : Conc) : Prop :=
  ∀ job, Pending.matched job ∈ c.calls → job.id ∈ insertedIds h ∧
    ∀ k ∈ c.mem.jobs, k.job.id = job.id → (k.job.executor = x ↔ job.executor = x)

theorem matches_executor {now : Time} {e : EnqueuableJob} {k : KeyedJob} (hs : e.Scoped)
    (h : e.matches now k = true) : k.job.executor = e.executor := by
  unfold EnqueuableJob.matches at h
  cases hc : e.criteria with
  | none => simp [hc] at h
  | some uc =>
    have := hs uc hc
    rw [hc] at h
    simp only at h
    split at h <;> simp [this] at h
    · exact h.1.2.symm
    · exact h.1.1.2.symm

@[simp] theorem replace_executor (e : EnqueuableJob) (j : Job) : (j.replace e).executor = j.executor := by
  unfold Job.replace; split <;> try rfl
  split <;> rfl

theorem filter_own {now : Time} {x : String} {e : EnqueuableJob} (hs : e.Scoped) (hx : e.executor = x)
    (m : Mem) : m.jobs.filter (fun k => e.matches now k) = (ownJobs x m).filter fun k => e.matches now k := by
  unfold ownJobs
  rw [List.filter_filter]
  apply List.filter_congr
  intro k _
  cases h : e.matches now k with
  | false => simp
  | true => simp [matches_executor hs h, hx]

theorem update_res {job : Job} {m : Mem} :
    (m.update job).1 = .unit ∨ (m.update job).1 = .err (.jobNotFound job.id) := by
  unfold Mem.update
  rcases onJob_cases job.id (fun _ => job) true m with ⟨-, he⟩ | ⟨l, k, r, h1, h2, h3, h4, -⟩
  · rw [he]; exact Or.inr rfl
  · exact Or.inl h4

theorem advance_elsewhere {x : String} (now : Time) {p : Pending} {m : Mem}
    (hp : p.isOf x = false) (hs : p.scoped)
    (hw : ∀ job, p = .matched job → ∀ k ∈ m.jobs, k.job.id = job.id → k.job.executor ≠ x) :
    ownJobs x (m.advance now p).2.2 = ownJobs x m ∧ ownSubs x (m.advance now p).2.2 = ownSubs x m ∧
    (m.advance now p).2.2.paused = m.paused ∧
    (m.advance now p).2.1.isOf x = false ∧ (m.advance now p).2.1.scoped ∧
    (m.advance now p).1.seenBy x = none := by
  cases p with
  | start e =>
    simp only [Pending.isOf, beq_eq_false_iff_ne] at hp
    simp only [Mem.advance]
    cases hc : e.criteria with
    | none => simp [Pending.isOf, Pending.scoped, Ev.seenBy, hp, ownJobs, ownSubs]
    | some uc =>
      simp only
      cases hm : m.jobs.filter fun k => e.matches now k with
      | nil => simp [Pending.isOf, Pending.scoped, Ev.seenBy, hp]
      | cons k ks =>
        have hk : k ∈ m.jobs.filter fun k => e.matches now k := by rw [hm]; simp
        have := matches_executor hs (List.mem_filter.mp hk).2
        simp [Pending.isOf, Pending.scoped, Ev.seenBy, hp, this]
  | noMatch e =>
    simp only [Pending.isOf, beq_eq_false_iff_ne] at hp
    simp [Mem.advance, Pending.isOf, Pending.scoped, Ev.seenBy, hp, ownJobs, ownSubs]
  | allocated id e =>
    simp only [Pending.isOf, beq_eq_false_iff_ne] at hp
    simp [Mem.advance, Pending.isOf, Pending.scoped, Ev.seenBy, hp, ownJobs, ownSubs,
      EnqueuableJob.intoJob]
  | pushed id e =>
    simp only [Pending.isOf, beq_eq_false_iff_ne] at hp
    simp [Mem.advance, Pending.isOf, Pending.scoped, Ev.seenBy, hp, ownJobs_notify, ownSubs_notify]
  | matched job =>
    simp only [Pending.isOf, beq_eq_false_iff_ne] at hp
    have h := own_onJob_elsewhere (x := x) (id := job.id) (f := fun _ => job) (w := true) (m := m)
      (fun _ _ _ => hp) (hw job rfl)
    simp only [Mem.advance]
    rcases hu : m.update job with ⟨r, m'⟩
    have hm' : m' = (m.onJob job.id (fun _ => job) true).2 := by
      have : (m.update job).2 = m' := by rw [hu]
      rw [← this]; rfl
    rw [hm']
    cases r <;> simp [Pending.isOf, Pending.scoped, Ev.seenBy, hp, h]
  | done r => simp [Mem.advance, Pending.isOf, Pending.scoped, Ev.seenBy]

theorem advance_two {x : String} (now : Time) {p : Pending} {m n : Mem}
    (hp : p.isOf x = true) (hs : p.scoped)
    (hm : m.ids.Nodup) (hn : n.ids.Nodup)
    (hwm : ∀ job, p = .matched job → ∀ k ∈ m.jobs, k.job.id = job.id → k.job.executor = x)
    (hwn : ∀ job, p = .matched job → ∀ k ∈ n.jobs, k.job.id = job.id → k.job.executor = x)
    (hj : ownJobs x m = ownJobs x n) (hsub : ownSubs x m = ownSubs x n) (hpa : m.paused = n.paused)
    (ha : m.allocated = n.allocated) :
    ownJobs x (m.advance now p).2.2 = ownJobs x (n.advance now p).2.2 ∧
    ownSubs x (m.advance now p).2.2 = ownSubs x (n.advance now p).2.2 ∧
    (m.advance now p).2.2.paused = (n.advance now p).2.2.paused ∧
    (m.advance now p).2.1 = (n.advance now p).2.1 ∧ (m.advance now p).2.1.scoped ∧
    (m.advance now p).1 = (n.advance now p).1 := by
  cases p with
  | start e =>
    simp only [Pending.isOf, beq_iff_eq] at hp
    simp only [Mem.advance]
    cases hc : e.criteria with
    | none =>
      simp only [ha]
      exact ⟨by simpa [ownJobs] using hj, by simpa [ownSubs] using hsub, hpa, trivial, trivial, trivial⟩
    | some uc =>
      simp only
      rw [filter_own hs hp m, filter_own hs hp n, hj]
      split <;> simp [hj, hsub, hpa, Pending.scoped]
  | noMatch e =>
    simp only [Mem.advance, ha]
    exact ⟨by simpa [ownJobs] using hj, by simpa [ownSubs] using hsub, hpa, trivial, trivial, trivial⟩
  | allocated id e =>
    simp only [Pending.isOf, beq_iff_eq] at hp
    simp only [Mem.advance]
    refine ⟨?_, by simpa [ownSubs] using hsub, hpa, trivial, trivial, trivial⟩
    unfold ownJobs at *
    simp [hj]
  | pushed id e =>
    simp only [Mem.advance]
    rw [ownJobs_notify, ownJobs_notify, ownSubs_notify, ownSubs_notify]
    simp [hj, hsub, hpa, Pending.scoped]
  | matched job =>
    simp only [Pending.isOf, beq_iff_eq] at hp
    have fm : ∀ k ∈ m.jobs, k.job.id = job.id → job.executor = k.job.executor :=
      fun k hk he => by rw [hp, hwm job rfl k hk he]
    have fn : ∀ k ∈ n.jobs, k.job.id = job.id → job.executor = k.job.executor :=
      fun k hk he => by rw [hp, hwn job rfl k hk he]
    have h := own_onJob_two (x := x) (id := job.id) (f := fun _ => job) (w := true) hm hn fm fn hj hsub hpa
    have hr : (m.update job).1 = (n.update job).1 := by
      unfold Mem.update
      rcases onJob_cases job.id (fun _ => job) true m with ⟨a, a'⟩ | ⟨l, k, r, h1, h2, h3, h4, -⟩ <;>
        rcases onJob_cases job.id (fun _ => job) true n with ⟨b, b'⟩ | ⟨l', k', r', h1', h2', h3', h4', -⟩
      · rw [a', b']
      · have hk : k' ∈ n.jobs := by rw [h1']; simp
        have : k' ∈ ownJobs x n := List.mem_filter.mpr ⟨hk, by simpa using hwn job rfl k' hk h3'⟩
        rw [← hj] at this
        exact absurd h3' (a k' (List.mem_filter.mp this).1)
      · have hk : k ∈ m.jobs := by rw [h1]; simp
        have : k ∈ ownJobs x m := List.mem_filter.mpr ⟨hk, by simpa using hwm job rfl k hk h3⟩
        rw [hj] at this
        exact absurd h3 (b k (List.mem_filter.mp this).1)
      · rw [h4, h4']
    have em : (m.update job).2 = (m.onJob job.id (fun _ => job) true).2 := rfl
    have en : (n.update job).2 = (n.onJob job.id (fun _ => job) true).2 := rfl
    rw [← em, ← en] at h
    simp only [Mem.advance]
    rcases hu : m.update job with ⟨r, m'⟩
    rcases hv : n.update job with ⟨r', n'⟩
    rw [hu, hv] at h hr
    simp only at h hr
    subst hr
    cases r <;> simp [Pending.scoped, h]
  | done r => simp [Pending.isOf] at hp

/-! ## The two runs -/

/-- Two states that look the same to executor `x`. -/
structure Alike (x : String) (c d : Conc) : Prop where
  jobs : ownJobs x c.mem = ownJobs x d.mem
  subs : ownSubs x c.mem = ownSubs x d.mem
  paused : c.mem.paused = d.mem.paused
  length : c.calls.length = d.calls.length
  calls : ∀ (i : Nat) (p q : Pending), c.calls[i]? = some p → d.calls[i]? = some q →
    p.scoped ∧ q.scoped ∧ ((p = q ∧ p.isOf x = true) ∨ (p.isOf x = false ∧ q.isOf x = false))

theorem applyEv_executor (now : Time) (ev : Ev) (j : Job) :
    (applyEv now ev j).executor = j.executor ∨
    ∃ job r, (ev = .op (.update job) r ∨ ev = .wrote job r) ∧ job.id = j.id ∧ applyEv now ev j = job := by
  unfold applyEv
  split <;> (try split) <;> simp_all [Job.markComplete, Job.markRetryable, Job.markDiscarded,
    Job.markCancelled, Job.markSnoozed, Job.markRerunable, Job.markExecuting]

theorem step_update_ev {now : Time} {c : Conc} {a : Act} {job : Job} {r : Res}
    (h : (c.step now a).1 = .op (.update job) r) : a = .op (.update job) := by
  cases a with
  | start e => simp [Conc.step] at h
  | advance i =>
    simp only [Conc.step] at h
    split at h
    · cases h
    · rename_i p hp
      cases p <;> simp only [Mem.advance] at h <;> (try split at h) <;> (try split at h) <;>
        simp at h
  | op o => simp [Conc.step] at h; rw [h.1]

theorem step_wrote_ev {now : Time} {c : Conc} {a : Act} {job : Job} {r : Res}
    (h : (c.step now a).1 = .wrote job r) : Pending.matched job ∈ c.calls := by
  cases a with
  | start e => simp [Conc.step] at h
  | op o => simp [Conc.step] at h
  | advance i =>
    simp only [Conc.step] at h
    split at h
    · cases h
    · rename_i p hp
      cases p with
      | matched job' =>
        simp only [Mem.advance] at h
        have : job' = job := by split at h <;> simp_all
        rw [← this]
        exact List.mem_of_getElem? hp
      | _ => simp only [Mem.advance] at h <;> (try split at h) <;> (try split at h) <;> simp at h

/-- New write-backs are copies of stored jobs. -/
theorem step_matched {now : Time} {c : Conc} {a : Act} {job : Job}
    (h : Pending.matched job ∈ (c.step now a).2.calls) :
    Pending.matched job ∈ c.calls ∨
    ((c.step now a).2.mem = c.mem ∧ ∃ k ∈ c.mem.jobs, k.job.id = job.id ∧ k.job.executor = job.executor) := by
  cases a with
  | start e => simp [Conc.step] at h; exact Or.inl h
  | op o => simp [Conc.step] at h; exact Or.inl h
  | advance i =>
    simp only [Conc.step] at h ⊢
    split at h
    · exact Or.inl h
    · rename_i p hp
      simp only at h
      rcases List.mem_or_eq_of_mem_set h with h | h
      · exact Or.inl h
      · right
        simp only
        cases p with
        | start e =>
          simp only [Mem.advance] at h ⊢
          cases hc : e.criteria with
          | none => simp [hc] at h
          | some uc =>
            simp only [hc] at h ⊢
            cases hm : c.mem.jobs.filter fun k => e.matches now k with
            | nil => simp [hm] at h
            | cons k ks =>
              have hk : k ∈ c.mem.jobs.filter fun k => e.matches now k := by rw [hm]; simp
              simp only [hm, Pending.matched.injEq] at h ⊢
              exact ⟨trivial, k, (List.mem_filter.mp hk).1, by simp [h], by simp [h]⟩
        | matched job' =>
          simp only [Mem.advance] at h
          split at h <;> simp at h
        | _ => simp [Mem.advance] at h

theorem WriteOk.step {x : String} {h : List TEv} {c : Conc} {now : Time} {a : Act} (H : HistOk h c)
    (W : WriteOk x h c) (ha : a.Separate x c ∨ a.Elsewhere x c) :
    WriteOk x (h ++ [{ now := now, ev := (c.step now a).1 }]) (c.step now a).2 := by
  intro job hjob
  rcases step_matched hjob with hold | ⟨hmem, k, hk, hid, hex⟩
  · obtain ⟨hin, hrel⟩ := W job hold
    refine ⟨by rw [insertedIds_append]; exact List.mem_append_left _ hin, ?_⟩
    intro k hk hkid
    cases step_job H.ids_nodup hk with
    | new e hev hke =>
      rw [hkid] at hev
      exact absurd (inserted_waiting hev) (H.not_waiting hin)
    | old k₀ hk₀ _ hj =>
      have hid0 : k₀.job.id = job.id := by
        have := applyEv_id now (c.step now a).1 k₀.job
        rw [← hj] at this; rw [← this]; exact hkid
      rw [← hrel k₀ hk₀ hid0]
      rcases applyEv_executor now (c.step now a).1 k₀.job with he | ⟨job', r, hev, hjid, heq⟩
      · rw [hj, he]
      · rw [hj, heq]
        rcases hev with hev | hev
        · have := step_update_ev hev
          subst this
          rcases ha with ha | ha
          · rw [ha k₀ hk₀ hjid.symm]
          · exact ⟨fun h => absurd h ha.1, fun h => absurd h (ha.2 k₀ hk₀ hjid.symm)⟩
        · have := W job' (step_wrote_ev hev)
          exact (this.2 k₀ hk₀ hjid.symm).symm
  · refine ⟨?_, ?_⟩
    · rw [insertedIds_append, ← hid]
      exact List.mem_append_left _ (H.stored.subset (List.mem_map_of_mem (f := fun k : KeyedJob => k.job.id) hk))
    · intro k' hk' hk'id
      rw [hmem] at hk'
      have : k' = k := eq_of_id H.ids_nodup hk hk' (by rw [hk'id, hid])
      rw [this, hex]

/-- Two stores that look the same to `x`, and stay so. -/
private theorem alike_mem {x : String} {c d : Conc} {m n : Mem} (A : Alike x c d)
    (h1 : ownJobs x m = ownJobs x n) (h2 : ownSubs x m = ownSubs x n) (h3 : m.paused = n.paused) :
    Alike x { c with mem := m } { d with mem := n } :=
  ⟨h1, h2, h3, A.length, A.calls⟩

/-- An action elsewhere leaves everything of `x` alone. -/
theorem elsewhere_op {x : String} {c : Conc} {o : Op} (now : Time) (h : Act.Elsewhere x c (.op o)) :
    ownJobs x (c.mem.step now o).2 = ownJobs x c.mem ∧
    ownSubs x (c.mem.step now o).2 = ownSubs x c.mem ∧
    (c.mem.step now o).2.paused = c.mem.paused ∧
    (Ev.op o (c.mem.step now o).1).seenBy x = none := by
  have byId : ∀ (id : Int) (f : Job → Job) (w : Bool), (∀ j, (f j).executor = j.executor) →
      (∀ k ∈ c.mem.jobs, k.job.id = id → k.job.executor ≠ x) →
      ownJobs x (c.mem.onJob id f w).2 = ownJobs x c.mem ∧
      ownSubs x (c.mem.onJob id f w).2 = ownSubs x c.mem ∧
      (c.mem.onJob id f w).2.paused = c.mem.paused := fun id f w hf he =>
    own_onJob_elsewhere (fun k hk hid => by rw [hf]; exact he k hk hid) he
  cases o with
  | complete id =>
    obtain ⟨a, b, e⟩ := byId id (Job.markComplete now) false (fun _ => rfl) h; exact ⟨a, b, e, rfl⟩
  | retryable id t err =>
    obtain ⟨a, b, e⟩ := byId id (Job.markRetryable now t err) true (fun _ => rfl) h; exact ⟨a, b, e, rfl⟩
  | discarded id err =>
    obtain ⟨a, b, e⟩ := byId id (Job.markDiscarded now err) false (fun _ => rfl) h; exact ⟨a, b, e, rfl⟩
  | cancelled id err =>
    obtain ⟨a, b, e⟩ := byId id (Job.markCancelled now err) false (fun _ => rfl) h; exact ⟨a, b, e, rfl⟩
  | snoozed id t =>
    obtain ⟨a, b, e⟩ := byId id (Job.markSnoozed t) true (fun _ => rfl) h; exact ⟨a, b, e, rfl⟩
  | rerun id =>
    obtain ⟨a, b, e⟩ := byId id (Job.markRerunable now) true (fun _ => rfl) h; exact ⟨a, b, e, rfl⟩
  | update job =>
    obtain ⟨a, b, e⟩ := own_onJob_elsewhere (x := x) (id := job.id) (f := fun _ => job) (w := true)
      (m := c.mem) (fun _ _ _ => h.1) h.2
    exact ⟨a, b, e, rfl⟩
  | prune spec =>
    exact ⟨own_prune_elsewhere now c.mem (not_about_matches h), by simp [Mem.step, ownSubs], by simp [Mem.step], rfl⟩
  | query q => exact absurd h id
  | notifyAll => exact absurd h id
  | load y =>
    have hl := own_load_subs now y c.mem
    refine ⟨own_load_elsewhere now c.mem h, ?_, hl.2, ?_⟩
    · show ownSubs x (c.mem.load now y).2 = _
      unfold ownSubs; rw [hl.1]
    · have : y ≠ x := h
      simp [Ev.seenBy, this]
  | subscribe y =>
    have : y ≠ x := h
    exact ⟨rfl, by simp [Mem.step, Mem.subscribe, ownSubs, this], rfl, rfl⟩

/-- The same call on two stores that look the same to `x`. -/
theorem separate_op {x : String} {c d : Conc} {o : Op} (now : Time)
    (hc : Act.Separate x c (.op o)) (hd : Act.Separate x d (.op o))
    (hm : c.mem.ids.Nodup) (hn : d.mem.ids.Nodup)
    (A : Alike x c d) :
    ownJobs x (c.mem.step now o).2 = ownJobs x (d.mem.step now o).2 ∧
    ownSubs x (c.mem.step now o).2 = ownSubs x (d.mem.step now o).2 ∧
    (c.mem.step now o).2.paused = (d.mem.step now o).2.paused ∧
    (Ev.op o (c.mem.step now o).1).seenBy x = (Ev.op o (d.mem.step now o).1).seenBy x := by
  have byId : ∀ (id : Int) (f : Job → Job) (w : Bool), (∀ j, (f j).executor = j.executor) →
      ownJobs x (c.mem.onJob id f w).2 = ownJobs x (d.mem.onJob id f w).2 ∧
      ownSubs x (c.mem.onJob id f w).2 = ownSubs x (d.mem.onJob id f w).2 ∧
      (c.mem.onJob id f w).2.paused = (d.mem.onJob id f w).2.paused := fun id f w hf =>
    own_onJob_two hm hn (fun k _ _ => hf _) (fun k _ _ => hf _) A.jobs A.subs A.paused
  cases o with
  | complete id =>
    obtain ⟨a, b, e⟩ := byId id (Job.markComplete now) false (fun _ => rfl); exact ⟨a, b, e, rfl⟩
  | retryable id t err =>
    obtain ⟨a, b, e⟩ := byId id (Job.markRetryable now t err) true (fun _ => rfl); exact ⟨a, b, e, rfl⟩
  | discarded id err =>
    obtain ⟨a, b, e⟩ := byId id (Job.markDiscarded now err) false (fun _ => rfl); exact ⟨a, b, e, rfl⟩
  | cancelled id err =>
    obtain ⟨a, b, e⟩ := byId id (Job.markCancelled now err) false (fun _ => rfl); exact ⟨a, b, e, rfl⟩
  | snoozed id t =>
    obtain ⟨a, b, e⟩ := byId id (Job.markSnoozed t) true (fun _ => rfl); exact ⟨a, b, e, rfl⟩
  | rerun id =>
    obtain ⟨a, b, e⟩ := byId id (Job.markRerunable now) true (fun _ => rfl); exact ⟨a, b, e, rfl⟩
  | update job =>
    obtain ⟨a, b, e⟩ := own_onJob_two (x := x) (id := job.id) (f := fun _ => job) (w := true) hm hn
      (fun k hk he => (hc k hk he).symm) (fun k hk he => (hd k hk he).symm) A.jobs A.subs A.paused
    exact ⟨a, b, e, rfl⟩
  | prune spec =>
    exact ⟨own_prune_two now hc A.jobs, by simpa [Mem.step, ownSubs] using A.subs,
      by simpa [Mem.step] using A.paused, rfl⟩
  | query q =>
    refine ⟨A.jobs, A.subs, A.paused, ?_⟩
    simp only [Mem.step, Ev.seenBy, Option.some.injEq, Ev.op.injEq, true_and, Res.jobs.injEq]
    have : ∀ m : Mem, (m.query q).filter (fun j => j.executor == x) =
        ((ownJobs x m).filter fun k => q.matches k.job).map (·.job) := by
      intro m
      unfold Mem.query ownJobs
      rw [List.filter_map, List.filter_filter, List.filter_filter]
      congr 1
      apply List.filter_congr
      intro k _
      simp [Bool.and_comm]
    rw [this, this, A.jobs]
  | notifyAll =>
    refine ⟨A.jobs, ?_, A.paused, rfl⟩
    have : ∀ m : Mem, ownSubs x (m.notifyAll now) =
        (ownSubs x m).map fun s => { s with queue := s.queue ++ [now] } := by
      intro m
      unfold Mem.notifyAll ownSubs
      simp only [List.filter_map]
      rfl
    simp only [Mem.step]
    rw [this, this, A.subs]
  | load y =>
    have hl := own_load_subs now y c.mem
    have hl' := own_load_subs now y d.mem
    have hsub : ownSubs x (c.mem.load now y).2 = ownSubs x (d.mem.load now y).2 := by
      have := A.subs
      unfold ownSubs at *
      rw [hl.1, hl'.1, this]
    have hp : (c.mem.load now y).2.paused = (d.mem.load now y).2.paused := by
      rw [hl.2, hl'.2, A.paused]
    by_cases hy : y = x
    · subst hy
      obtain ⟨h1, h2⟩ := own_load_two now A.jobs
      exact ⟨h2, hsub, hp, by simp [Mem.step, h1]⟩
    · refine ⟨?_, hsub, hp, by simp [Ev.seenBy, hy]⟩
      show ownJobs x (c.mem.load now y).2 = ownJobs x (d.mem.load now y).2
      rw [own_load_elsewhere now _ hy, own_load_elsewhere now _ hy, A.jobs]
  | subscribe y =>
    refine ⟨A.jobs, ?_, A.paused, rfl⟩
    have := A.subs
    simp only [Mem.step, Mem.subscribe, ownSubs, List.filter_append] at *
    rw [this]

theorem Alike.symm {x : String} {c d : Conc} (A : Alike x c d) : Alike x d c where
  jobs := A.jobs.symm
  subs := A.subs.symm
  paused := A.paused.symm
  length := A.length.symm
  calls := by
    intro i p q hp hq
    obtain ⟨h1, h2, ⟨rfl, h4⟩ | ⟨h3, h4⟩⟩ := A.calls i q p hq hp
    · exact ⟨h2, h1, Or.inl ⟨rfl, h4⟩⟩
    · exact ⟨h2, h1, Or.inr ⟨h4, h3⟩⟩

theorem advance_elsewhere_ok {x : String} (now : Time) {h : List TEv} {c : Conc} {i : Nat} {p : Pending}
    (W : WriteOk x h c) (hi : c.calls[i]? = some p) (hp : p.isOf x = false) (hsc : p.scoped) :
    ownJobs x (c.mem.advance now p).2.2 = ownJobs x c.mem ∧
    ownSubs x (c.mem.advance now p).2.2 = ownSubs x c.mem ∧
    (c.mem.advance now p).2.2.paused = c.mem.paused ∧
    (c.mem.advance now p).2.1.isOf x = false ∧ (c.mem.advance now p).2.1.scoped ∧
    (c.mem.advance now p).1.seenBy x = none := by
  refine advance_elsewhere now hp hsc ?_
  rintro job rfl k hk hid hkx
  have := ((W job (List.mem_of_getElem? hi)).2 k hk hid).mp hkx
  simp [Pending.isOf, this] at hp

/-- A step elsewhere, in one of the two runs. -/
theorem Alike.elsewhere {x : String} {h : List TEv} {c d : Conc} {a : Act} (now : Time)
    (A : Alike x c d) (W : WriteOk x h c) (ha : a.Elsewhere x c) (hb : a.begins = false) :
    Alike x (c.step now a).2 d ∧ (c.step now a).1.seenBy x = none := by
  cases a with
  | start e => simp [Act.begins] at hb
  | op o =>
    obtain ⟨h1, h2, h3, h4⟩ := elsewhere_op now ha
    exact ⟨⟨h1.trans A.jobs, h2.trans A.subs, h3.trans A.paused, A.length, A.calls⟩, h4⟩
  | advance i =>
    simp only [Conc.step]
    cases hp : c.calls[i]? with
    | none => exact ⟨A, rfl⟩
    | some p =>
      have hlt : i < d.calls.length := by
        rw [← A.length]; exact (List.getElem?_eq_some_iff.mp hp).1
      obtain ⟨hps, hqs, hrel⟩ := A.calls i p _ hp (List.getElem?_eq_getElem hlt)
      have hpx := ha p hp
      obtain ⟨a1, a2, a3, a4, a5, a6⟩ := advance_elsewhere_ok now W hp hpx hps
      refine ⟨⟨a1.trans A.jobs, a2.trans A.subs, a3.trans A.paused, by simpa using A.length, ?_⟩, a6⟩
      intro k p' q hp' hq
      by_cases hk : i = k
      · subst hk
        simp only at hp'
        rw [List.getElem?_set] at hp'
        rw [List.getElem?_eq_getElem hlt] at hq
        simp only [if_true] at hp'
        split at hp'
        · cases hp'
          cases hq
          refine ⟨a5, hqs, Or.inr ⟨a4, ?_⟩⟩
          rcases hrel with ⟨rfl, h⟩ | ⟨-, h⟩
          · rw [hpx] at h; cases h
          · exact h
        · cases hp'
      · simp only at hp'
        rw [List.getElem?_set_ne hk] at hp'
        exact A.calls k p' q hp' hq

theorem Alike.push {x : String} {c d : Conc} (A : Alike x c d) {e f : EnqueuableJob}
    (he : e.Scoped) (hf : f.Scoped) (h : e = f ∨ (e.executor ≠ x ∧ f.executor ≠ x)) :
    Alike x { c with calls := c.calls ++ [.start e] } { d with calls := d.calls ++ [.start f] } := by
  refine ⟨A.jobs, A.subs, A.paused, by simp [A.length], ?_⟩
  intro i p q hp hq
  simp only at hp hq
  rcases Nat.lt_trichotomy i c.calls.length with hi | hi | hi
  · rw [List.getElem?_append_left hi] at hp
    rw [List.getElem?_append_left (by rw [← A.length]; exact hi)] at hq
    exact A.calls i p q hp hq
  · subst hi
    rw [List.getElem?_append_right (Nat.le_refl _)] at hp
    rw [A.length, List.getElem?_append_right (Nat.le_refl _)] at hq
    simp only [Nat.sub_self, List.getElem?_cons_zero, Option.some.injEq] at hp hq
    subst hp; subst hq
    refine ⟨he, hf, ?_⟩
    rcases h with rfl | ⟨h1, h2⟩
    · cases hx : (Pending.start e).isOf x with
      | true => exact Or.inl ⟨rfl, rfl⟩
      | false => exact Or.inr ⟨rfl, rfl⟩
    · exact Or.inr ⟨by simpa [Pending.isOf] using h1, by simpa [Pending.isOf] using h2⟩
  · rw [List.getElem?_eq_none (by simp; omega)] at hp; cases hp

theorem Alike.step {x : String} {h₁ h₂ : List TEv} {c d : Conc} {a b : TAct}
    (A : Alike x c d) (H₁ : HistOk h₁ c) (H₂ : HistOk h₂ d) (W₁ : WriteOk x h₁ c) (W₂ : WriteOk x h₂ d)
    (ha : c.mem.allocated = d.mem.allocated) (hs : SideBySide x c d a b) :
    Alike x (c.step a.now a.act).2 (d.step b.now b.act).2 ∧
    (c.step a.now a.act).1.seenBy x = (d.step b.now b.act).1.seenBy x := by
  obtain ⟨now, a⟩ := a
  obtain ⟨now', b⟩ := b
  obtain ⟨hnow, hs⟩ := hs
  simp only at hnow hs ⊢
  subst hnow
  -- the calls after an advance of the same call in both
  have set_calls : ∀ (i : Nat) (p' q' : Pending), p'.scoped → q'.scoped →
      ((p' = q' ∧ p'.isOf x = true) ∨ (p'.isOf x = false ∧ q'.isOf x = false)) →
      ∀ (k : Nat) (p q : Pending), (c.calls.set i p')[k]? = some p → (d.calls.set i q')[k]? = some q →
        p.scoped ∧ q.scoped ∧ ((p = q ∧ p.isOf x = true) ∨ (p.isOf x = false ∧ q.isOf x = false)) := by
    intro i p' q' h1 h2 h3 k p q hp hq
    by_cases hk : i = k
    · subst hk
      rw [List.getElem?_set] at hp hq
      simp only [if_true] at hp hq
      split at hp <;> split at hq <;> simp_all
    · rw [List.getElem?_set_ne hk] at hp hq
      exact A.calls k p q hp hq
  rcases hs with ⟨rfl, hc, hd⟩ | ⟨hb, hc, hd⟩
  · cases a with
    | start e =>
      exact ⟨A.push hc hc (Or.inl rfl), rfl⟩
    | op o =>
      obtain ⟨h1, h2, h3, h4⟩ := separate_op now hc hd H₁.ids_nodup H₂.ids_nodup A
      exact ⟨alike_mem A h1 h2 h3, h4⟩
    | advance i =>
      simp only [Conc.step]
      cases hp : c.calls[i]? with
      | none =>
        have hq : d.calls[i]? = none := by
          rw [List.getElem?_eq_none_iff] at hp ⊢; rw [← A.length]; exact hp
        rw [hq]; exact ⟨A, rfl⟩
      | some p =>
        cases hq : d.calls[i]? with
        | none =>
          rw [List.getElem?_eq_none_iff, ← A.length, ← List.getElem?_eq_none_iff] at hq
          rw [hp] at hq; cases hq
        | some q =>
          simp only
          obtain ⟨hps, hqs, ⟨rfl, hx⟩ | ⟨hpx, hqx⟩⟩ := A.calls i p q hp hq
          · have wm : ∀ (h : List TEv) (c : Conc), WriteOk x h c → c.calls[i]? = some p →
                ∀ job, p = .matched job → ∀ k ∈ c.mem.jobs, k.job.id = job.id → k.job.executor = x := by
              rintro h c W hi job rfl k hk hid
              refine ((W job (List.mem_of_getElem? hi)).2 k hk hid).mpr ?_
              simpa [Pending.isOf] using hx
            obtain ⟨h1, h2, h3, h4, h5, h6⟩ := advance_two now hx hps H₁.ids_nodup H₂.ids_nodup
              (wm h₁ c W₁ hp) (wm h₂ d W₂ hq) A.jobs A.subs A.paused ha
            refine ⟨⟨h1, h2, h3, by simp [A.length], ?_⟩, by rw [h6]⟩
            refine set_calls i _ _ h5 (h4 ▸ h5) ?_
            cases he : (c.mem.advance now p).2.1.isOf x with
            | true => exact Or.inl ⟨h4, rfl⟩
            | false => exact Or.inr ⟨rfl, by rw [← h4]; exact he⟩
          · obtain ⟨a1, a2, a3, a4, a5, a6⟩ := advance_elsewhere_ok now W₁ hp hpx hps
            obtain ⟨b1, b2, b3, b4, b5, b6⟩ := advance_elsewhere_ok now W₂ hq hqx hqs
            exact ⟨⟨by rw [a1, b1, A.jobs], by rw [a2, b2, A.subs], by rw [a3, b3, A.paused],
              by simp [A.length], set_calls i _ _ a5 b5 (Or.inr ⟨a4, b4⟩)⟩, by rw [a6, b6]⟩
  · cases hba : a.begins with
    | true =>
      rw [hba] at hb
      cases a with
      | start e =>
        cases b with
        | start f => exact ⟨A.push hc.2 hd.2 (Or.inr ⟨hc.1, hd.1⟩), rfl⟩
        | _ => simp [Act.begins] at hb
      | _ => simp [Act.begins] at hba
    | false =>
      rw [hba] at hb
      obtain ⟨A', ha'⟩ := A.elsewhere now W₁ hc hba
      obtain ⟨A'', hb'⟩ := A'.symm.elsewhere now W₂ hd hb.symm
      exact ⟨A''.symm, by rw [ha', hb']⟩

/-- What executor `x` sees of a history, with the times. -/
def sees (x : String) (h : List TEv) : List (Time × Option Ev) :=
  h.map fun e => (e.now, e.ev.seenBy x)

/-- C105: take two histories of one backend that at every moment either do the
same thing or each do something that is not the business of executor `x`. Then the
jobs of `x`, and what its streams have been told, are the same in both at the end,
and so is everything `x` saw on the way: the jobs it was handed, in order, its new
jobs, and its jobs in answers to queries. So other executors' jobs, failures,
cancellations, polling and pruning make no difference to `x`. -/
theorem C105_in_memory (x : String) (paused : Bool) (ps : List (TAct × TAct))
    (hside : ∀ n p, ps[n]? = some p →
      SideBySide x ((fresh paused).run ((ps.take n).map (·.1)))
        ((fresh paused).run ((ps.take n).map (·.2))) p.1 p.2)
    (hids : ∀ n, idsTaken ((fresh paused).trace ((ps.take n).map (·.1))) =
      idsTaken ((fresh paused).trace ((ps.take n).map (·.2))))
    (hb : idsTaken ((fresh paused).trace (ps.map (·.1))) ≤ 4294967296) :
    ownJobs x ((fresh paused).run (ps.map (·.1))).mem = ownJobs x ((fresh paused).run (ps.map (·.2))).mem ∧
    ownSubs x ((fresh paused).run (ps.map (·.1))).mem = ownSubs x ((fresh paused).run (ps.map (·.2))).mem ∧
    sees x ((fresh paused).trace (ps.map (·.1))) = sees x ((fresh paused).trace (ps.map (·.2))) := by
  have main : ∀ ps : List (TAct × TAct),
      (∀ n p, ps[n]? = some p →
        SideBySide x ((fresh paused).run ((ps.take n).map (·.1)))
          ((fresh paused).run ((ps.take n).map (·.2))) p.1 p.2) →
      (∀ n, idsTaken ((fresh paused).trace ((ps.take n).map (·.1))) =
        idsTaken ((fresh paused).trace ((ps.take n).map (·.2)))) →
      idsTaken ((fresh paused).trace (ps.map (·.1))) ≤ 4294967296 →
      Alike x ((fresh paused).run (ps.map (·.1))) ((fresh paused).run (ps.map (·.2))) ∧
      WriteOk x ((fresh paused).trace (ps.map (·.1))) ((fresh paused).run (ps.map (·.1))) ∧
      WriteOk x ((fresh paused).trace (ps.map (·.2))) ((fresh paused).run (ps.map (·.2))) ∧
      sees x ((fresh paused).trace (ps.map (·.1))) = sees x ((fresh paused).trace (ps.map (·.2))) := by
    intro ps
    induction ps using snocInduction with
    | nil =>
      intro _ _ _
      refine ⟨⟨rfl, rfl, rfl, rfl, ?_⟩, ?_, ?_, rfl⟩
      · intro i p q hp; simp [fresh, Conc.run] at hp
      · intro job hj; simp [fresh, Conc.run] at hj
      · intro job hj; simp [fresh, Conc.run] at hj
    | snoc ps p ih =>
      intro hside hids hb
      have htake : ∀ n, n ≤ ps.length → (ps ++ [p]).take n = ps.take n := by
        intro n hn; rw [List.take_append_of_le_length hn]
      have hb0 : idsTaken ((fresh paused).trace (ps.map (·.1))) ≤ 4294967296 := by
        rw [List.map_append, Conc.trace_append] at hb
        exact idsTaken_append_le hb
      have hids0 : ∀ n, idsTaken ((fresh paused).trace ((ps.take n).map (·.1))) =
          idsTaken ((fresh paused).trace ((ps.take n).map (·.2))) := by
        intro n
        by_cases hn : n ≤ ps.length
        · rw [← htake n hn]; exact hids n
        · rw [List.take_of_length_le (by omega)]
          have := hids ps.length
          rw [htake _ (Nat.le_refl _), List.take_length] at this
          exact this
      obtain ⟨A, W₁, W₂, S⟩ := ih
        (fun n q hq => by
          have hn : n < ps.length := (List.getElem?_eq_some_iff.mp hq).1
          have := hside n q (by rw [List.getElem?_append_left hn]; exact hq)
          rw [htake n (by omega)] at this
          exact this)
        hids0 hb0
      have hlast := hside ps.length p (by simp)
      rw [htake _ (Nat.le_refl _), List.take_length] at hlast
      have hi := hids ps.length
      rw [htake _ (Nat.le_refl _), List.take_length] at hi
      have H₁ := histOk_run paused (ps.map (·.1)) hb0
      have H₂ := histOk_run paused (ps.map (·.2)) (by rw [← hi]; exact hb0)
      have hal : ((fresh paused).run (ps.map (·.1))).mem.allocated =
          ((fresh paused).run (ps.map (·.2))).mem.allocated := by
        rw [← H₁.taken, ← H₂.taken, hi]
      obtain ⟨A', S'⟩ := A.step H₁ H₂ W₁ W₂ hal hlast
      simp only [List.map_append, List.map_cons, List.map_nil, Conc.run_append, Conc.trace_append]
      simp only [Conc.run, Conc.trace]
      refine ⟨A', W₁.step H₁ ?_, W₂.step H₂ ?_, ?_⟩
      · rcases hlast.2 with ⟨-, h, -⟩ | ⟨-, h, -⟩
        · exact Or.inl h
        · exact Or.inr h
      · rcases hlast.2 with ⟨-, -, h⟩ | ⟨-, -, h⟩
        · exact Or.inl h
        · exact Or.inr h
      · unfold sees at *
        rw [List.map_append, List.map_append, S]
        simp only [List.map_cons, List.map_nil]
        rw [S', hlast.1]
  obtain ⟨A, -, -, S⟩ := main ps hside hids hb
  exact ⟨A.jobs, A.subs, S⟩

/-- Two histories of a backend with a job of `mail` and one of `sms`: in the first
the other executor's job is handed out and completed, in the second it carries
different data, is cancelled and pruned. -/
def twoDays : List (TAct × TAct) :=
  [(⟨0, .start sampleEnq⟩, ⟨0, .start sampleEnq⟩),
   (⟨0, .advance 0⟩, ⟨0, .advance 0⟩),
   (⟨0, .advance 0⟩, ⟨0, .advance 0⟩),
   (⟨1, .start { sampleEnq with executor := "sms" }⟩,
     ⟨1, .start { sampleEnq with executor := "sms", data := .str "other" }⟩),
   (⟨1, .advance 1⟩, ⟨1, .advance 1⟩),
   (⟨1, .advance 1⟩, ⟨1, .advance 1⟩),
   (call 2 (.load "sms"), call 2 (.cancelled 1 sampleErr)),
   (call 3 (.complete 1),
     call 3 (.prune { status := .cancelled, pruneBy := .maxLength 5, executors := .only ["sms"] })),
   (call 4 (.load "mail"), call 4 (.load "mail")),
   (call 5 (.query (.and [])), call 5 (.query (.and [])))]

private theorem twoDays_side : ∀ n p, twoDays[n]? = some p →
    SideBySide "mail" (fresh.run ((twoDays.take n).map (·.1))) (fresh.run ((twoDays.take n).map (·.2)))
      p.1 p.2 := by
  intro n p h
  have inside : ∀ y d, EnqueuableJob.Scoped { sampleEnq with executor := y, data := d } := by
    intro y d uc h; cases h
  rcases n with _ | _ | _ | _ | _ | _ | _ | _ | _ | _ | n <;> simp [twoDays] at h <;> subst h
  · exact ⟨rfl, Or.inl ⟨rfl, inside _ _, inside _ _⟩⟩
  · exact ⟨rfl, Or.inl ⟨rfl, trivial, trivial⟩⟩
  · exact ⟨rfl, Or.inl ⟨rfl, trivial, trivial⟩⟩
  · exact ⟨rfl, Or.inr ⟨rfl, ⟨by decide, inside _ _⟩, by decide, inside _ _⟩⟩
  · exact ⟨rfl, Or.inl ⟨rfl, trivial, trivial⟩⟩
  · exact ⟨rfl, Or.inl ⟨rfl, trivial, trivial⟩⟩
  · refine ⟨rfl, Or.inr ⟨rfl, ?_, ?_⟩⟩
    · show "sms" ≠ "mail"; decide
    · show ∀ k ∈ _, _ → _; decide
  · refine ⟨rfl, Or.inr ⟨rfl, ?_, ?_⟩⟩
    · show ∀ k ∈ _, _ → _; decide
    · show ¬ PruneSpec.IsAbout _ _; simp [PruneSpec.IsAbout]
  · exact ⟨rfl, Or.inl ⟨rfl, trivial, trivial⟩⟩
  · exact ⟨rfl, Or.inl ⟨rfl, trivial, trivial⟩⟩

private theorem twoDays_ids : ∀ n, idsTaken (fresh.trace ((twoDays.take n).map (·.1))) =
    idsTaken (fresh.trace ((twoDays.take n).map (·.2))) := by
  intro n
  rcases n with _ | _ | _ | _ | _ | _ | _ | _ | _ | _ | n
  all_goals first | rfl | skip
  rw [List.take_of_length_le (by simp [twoDays])]
  rfl

/-- The two histories differ, yet `mail` is handed the same job and sees the same. -/
example : (fresh.run (twoDays.map (·.1))).mem.jobs ≠ (fresh.run (twoDays.map (·.2))).mem.jobs ∧
    (ownJobs "mail" (fresh.run (twoDays.map (·.1))).mem).map (·.job.status) = [.executing] ∧
    ownJobs "mail" (fresh.run (twoDays.map (·.1))).mem =
      ownJobs "mail" (fresh.run (twoDays.map (·.2))).mem ∧
    sees "mail" (fresh.trace (twoDays.map (·.1))) = sees "mail" (fresh.trace (twoDays.map (·.2))) := by
  have h := C105_in_memory "mail" false twoDays twoDays_side twoDays_ids (by decide)
  exact ⟨by decide, by decide, h.1, h.2.2⟩

/-- Criteria that are not restricted to the executor do interfere: whether another
executor's job is there decides whether the job of `mail` is inserted at all. -/
theorem C105_open_criteria_interfere :
    let wide : EnqueuableJob := { sampleUnique with
      criteria := sampleUnique.criteria.map fun uc => { uc with executor := false } }
    let after : List TAct := [⟨1, .start wide⟩, ⟨1, .advance 1⟩, ⟨1, .advance 1⟩, ⟨1, .advance 1⟩]
    (ownJobs "mail" (fresh.run (enqSteps 0 0 { sampleEnq with executor := "sms" } ++ after)).mem).length = 0 ∧
    (ownJobs "mail" (fresh.run (⟨0, .start { sampleEnq with executor := "sms" }⟩ :: after)).mem).length = 1 := by
  decide

/-- A prune by length over several executors does interfere: whether another
executor's job is there decides whether the job of `mail` goes. -/
theorem C105_shared_prune_interferes :
    let prune : Op := .prune { status := .scheduled, pruneBy := .maxLength 1, executors := .except [] }
    let mail : List TAct := [⟨1, .start sampleEnq⟩, ⟨1, .advance 1⟩, ⟨1, .advance 1⟩, call 2 prune]
    (ownJobs "mail" (fresh.run (enqSteps 0 0 { sampleEnq with executor := "sms" } ++ mail)).mem).length = 1 ∧
    (ownJobs "mail" (fresh.run (⟨0, .start { sampleEnq with executor := "sms" }⟩ :: mail)).mem).length = 0 := by
  decide

end Rexecutor
