import Verif.Lemmas.Api
import Verif.Spec.Samples
import Verif.Model.Criteria
import Verif.Props.PgUniqueConc

/-! # C123: unique within a period means at most one job in the period

The documentation (rexecutor/src/lib.rs:62-84): "to ensure that only one unique job is
ran every five minutes it is possible to use the following uniqueness criteria",
`by_executor().and_within(TimeDelta::seconds(300))`. -/

namespace Rexecutor

/-! ## In memory -/

/-- The calls allowed in the histories of `C123_spaced_in_memory_partial`: enqueues for
executor `x`, made at most `η` after the time they are scheduled for, are unique by
executor within `d`, looking at jobs of every status, and do not replace the time; other
enqueues with criteria are by executor; nobody retries, snoozes, reruns or updates. -/
def SpacedCall (x : String) (key : Option Int) (d η : Delta) (now : Time) : Api → Prop
  | .enqueue e =>
    (e.executor = x → now - η ≤ e.scheduledAt ∧ e.scheduledAt ≤ now ∧
      ∃ uc, e.criteria = some uc ∧ uc.executor = true ∧ uc.key = key ∧ uc.duration = some d ∧
        (∀ st, st ∈ uc.statuses) ∧ ∀ rep, uc.onConflict = .replace rep → rep.scheduledAt = false) ∧
    (e.executor ≠ x → ∀ uc, e.criteria = some uc → uc.executor = true)
  | .op (.retryable _ _ _) => False
  | .op (.snoozed _ _) => False
  | .op (.rerun _) => False
  | .op (.update _) => False
  | .op _ => True

/-- The jobs of `x` were scheduled for at most `T`, and any two of them for times at
least `g` apart. -/
private structure MemSpaced (x : String) (key : Option Int) (g : Delta) (T : Time) (m : Mem) : Prop where
  past : ∀ k ∈ m.jobs, k.job.executor = x → k.key = key ∧ k.job.scheduledAt ≤ T
  apart : ∀ a ∈ m.jobs, ∀ b ∈ m.jobs, a.job.executor = x → b.job.executor = x → a.job.id ≠ b.job.id →
    g ≤ a.job.scheduledAt - b.job.scheduledAt ∨ g ≤ b.job.scheduledAt - a.job.scheduledAt

/-- Every job of `x` after the step was there before, with the same id, key and time. -/
private theorem MemSpaced.of_old {x : String} {key : Option Int} {g : Delta} {T T' : Time} {m m' : Mem}
    (I : MemSpaced x key g T m) (hT : T ≤ T')
    (h : ∀ k' ∈ m'.jobs, k'.job.executor = x → ∃ k ∈ m.jobs, k.job.executor = x ∧ k.job.id = k'.job.id ∧
      k.key = k'.key ∧ k.job.scheduledAt = k'.job.scheduledAt) : MemSpaced x key g T' m' := by
  refine ⟨?_, ?_⟩
  · intro k' hk' hx
    obtain ⟨k, hk, hkx, -, h2, h3⟩ := h k' hk' hx
    have := I.past k hk hkx
    rw [← h2, ← h3]
    exact ⟨this.1, Int.le_trans this.2 hT⟩
  · intro a ha b hb hax hbx hne
    obtain ⟨a', ha', hax', a1, -, a3⟩ := h a ha hax
    obtain ⟨b', hb', hbx', b1, -, b3⟩ := h b hb hbx
    have := I.apart a' ha' b' hb' hax' hbx' (by rw [a1, b1]; exact hne)
    rw [a3, b3] at this
    exact this

/-- What a call that is not an insert for `x` leaves. -/
private def OldOnly (x : String) (m m' : Mem) : Prop :=
  ∀ k' ∈ m'.jobs, k'.job.executor = x → ∃ k ∈ m.jobs, k.job.executor = x ∧ k.job.id = k'.job.id ∧
    k.key = k'.key ∧ k.job.scheduledAt = k'.job.scheduledAt

private theorem oldOnly_same {x : String} {m m' : Mem} (h : m'.jobs = m.jobs) : OldOnly x m m' := by
  intro k hk hx; exact ⟨k, by rw [← h]; exact hk, hx, rfl, rfl, rfl⟩

private theorem oldOnly_one {x : String} {m m' : Mem} {l r : List KeyedJob} {k : KeyedJob} {j : Job}
    (h : m.jobs = l ++ k :: r) (h' : m'.jobs = l ++ { k with job := j } :: r)
    (hj : j.executor = k.job.executor ∧ j.id = k.job.id ∧ (k.job.executor = x → j.scheduledAt = k.job.scheduledAt)) :
    OldOnly x m m' := by
  intro k' hk' hx
  rw [h'] at hk'
  rcases List.mem_append.mp hk' with hk' | hk'
  · exact ⟨k', by rw [h]; simp [hk'], hx, rfl, rfl, rfl⟩
  · rcases List.mem_cons.mp hk' with hk' | hk'
    · subst hk'
      have hkx : k.job.executor = x := by rw [← hj.1]; exact hx
      exact ⟨k, by rw [h]; simp, hkx, hj.2.1.symm, rfl, (hj.2.2 hkx).symm⟩
    · exact ⟨k', by rw [h]; simp [hk'], hx, rfl, rfl, rfl⟩

private theorem oldOnly_onJob {x : String} {id : Int} {f : Job → Job} {w : Bool} {m : Mem}
    (hf : ∀ j, (f j).executor = j.executor ∧ (f j).id = j.id ∧ (f j).scheduledAt = j.scheduledAt) :
    OldOnly x m (m.onJob id f w).2 := by
  rcases onJob_cases id f w m with ⟨-, he⟩ | ⟨l, k, r, h1, -, -, -, h5, -⟩
  · rw [he]; exact oldOnly_same rfl
  · exact oldOnly_one h1 h5 ⟨(hf _).1, (hf _).2.1, fun _ => (hf _).2.2⟩

private theorem oldOnly_op {x : String} {key : Option Int} {d η : Delta} (now : Time) (m : Mem) (o : Op)
    (h : SpacedCall x key d η now (.op o)) : OldOnly x m (m.step now o).2 := by
  cases o with
  | complete id => exact oldOnly_onJob (by intro j; simp [Job.markComplete])
  | retryable id t e => exact h.elim
  | discarded id e => exact oldOnly_onJob (by intro j; simp [Job.markDiscarded])
  | cancelled id e => exact oldOnly_onJob (by intro j; simp [Job.markCancelled])
  | snoozed id t => exact h.elim
  | rerun id => exact h.elim
  | update job => exact h.elim
  | prune spec =>
    intro k hk hx
    exact ⟨k, (prune_sublist now spec m).subset hk, hx, rfl, rfl, rfl⟩
  | query q => exact oldOnly_same rfl
  | subscribe y => exact oldOnly_same rfl
  | notifyAll => exact oldOnly_same rfl
  | load y =>
    rcases load_cases now y m with ⟨-, he⟩ | ⟨l, k, r, h1, -, -, -, h5⟩
    · simp only [Mem.step]; rw [he]; exact oldOnly_same rfl
    · simp only [Mem.step]
      rw [h5]
      exact oldOnly_one h1 rfl ⟨rfl, rfl, fun _ => rfl⟩

private theorem replace_time {e : EnqueuableJob} {j : Job}
    (h : ∀ uc rep, e.criteria = some uc → uc.onConflict = .replace rep → rep.scheduledAt = false) :
    (j.replace e).scheduledAt = j.scheduledAt := by
  rcases replace_cases e j with ⟨uc, rep, h1, h2, -, h3⟩ | ⟨-, h3⟩
  · have := h3.1; rw [h uc rep h1 h2] at this; simpa using this
  · rw [h3]

private theorem memSpaced_step {x : String} {key : Option Int} {d η : Delta} {T now : Time} {m : Mem} {call : Api}
    (hn : (m.jobs.map fun k => k.job.id).Nodup) (I : MemSpaced x key (d - η) T m) (hT : T ≤ now)
    (h : SpacedCall x key d η now call) : MemSpaced x key (d - η) now (m.api now call).2 := by
  cases call with
  | op o => exact I.of_old hT (oldOnly_op now m o h)
  | enqueue e =>
    simp only [Mem.api, SpacedCall] at h ⊢
    obtain ⟨hx, hy⟩ := h
    cases hcr : e.criteria with
    | none =>
      have hne : e.executor ≠ x := by
        intro hx'; obtain ⟨-, -, uc, h, -⟩ := hx hx'; rw [hcr] at h; simp at h
      refine I.of_old hT ?_
      intro k' hk' hkx
      simp only [Mem.enqueue, hcr, Mem.insertNew, notify_jobs] at hk'
      rcases List.mem_append.mp hk' with hk' | hk'
      · exact ⟨k', hk', hkx, rfl, rfl, rfl⟩
      · rw [List.mem_singleton] at hk'; subst hk'
        exact (hne hkx).elim
    | some uc =>
      rcases enqueue_cases now e m uc hcr with ⟨h1, -, h3, -⟩ | ⟨l, k, r, h1, h2, h3, h4, h5⟩
      · by_cases hex : e.executor = x
        · obtain ⟨t1, t2, uc', g1, g2, g3, g4, g5, g6⟩ := hx hex
          rw [hcr, Option.some.injEq] at g1
          subst g1
          have new : ∀ k ∈ m.jobs, k.job.executor = x → d - η ≤ e.scheduledAt - k.job.scheduledAt ∨
              d - η ≤ k.job.scheduledAt - e.scheduledAt := by
            intro k hk hkx
            have hp := I.past k hk hkx
            by_cases hw : now - d < k.job.scheduledAt ∧ k.job.scheduledAt < now + d
            · refine (h1 k hk ⟨by rw [hp.1, g3], fun _ => by rw [hkx, hex], g5 _, ?_⟩).elim
              intro d' hd'
              rw [g4, Option.some.injEq] at hd'
              subst hd'
              exact hw
            · have := hp.2
              simp only [Time, Delta] at *
              omega
          have hk2 : (e.intoJob now (wrapI32 m.allocated)).job.scheduledAt = e.scheduledAt := by
            simp [EnqueuableJob.intoJob]
          refine ⟨?_, ?_⟩
          · intro k hk hkx
            rw [h3] at hk
            rcases List.mem_append.mp hk with hk | hk
            · exact ⟨(I.past k hk hkx).1, Int.le_trans (I.past k hk hkx).2 hT⟩
            · rw [List.mem_singleton] at hk; subst hk
              refine ⟨?_, by rw [hk2]; exact t2⟩
              simp [EnqueuableJob.intoJob, hcr, g3]
          · intro a ha b hb hax hbx hne
            rw [h3] at ha hb
            rcases List.mem_append.mp ha with ha | ha <;> rcases List.mem_append.mp hb with hb | hb
            · exact I.apart a ha b hb hax hbx hne
            · rw [List.mem_singleton] at hb; subst hb
              rw [hk2]
              exact (new a ha hax).symm
            · rw [List.mem_singleton] at ha; subst ha
              rw [hk2]
              exact new b hb hbx
            · rw [List.mem_singleton] at ha hb
              exact (hne (by rw [ha, hb])).elim
        · refine I.of_old hT ?_
          intro k' hk' hkx
          rw [h3] at hk'
          rcases List.mem_append.mp hk' with hk' | hk'
          · exact ⟨k', hk', hkx, rfl, rfl, rfl⟩
          · rw [List.mem_singleton] at hk'; subst hk'
            exact (hex hkx).elim
      · refine I.of_old hT ?_
        have hs := replace_same e k.job
        rw [h5]
        refine oldOnly_one h1 (update_replace (e := e) hn h1).1 ⟨hs.2.1, hs.2.2, ?_⟩
        intro hkx
        have hex : e.executor = x := by
          by_cases hex : e.executor = x
          · exact hex
          · rw [← h3.executor (hy hex uc hcr)]; exact hkx
        obtain ⟨-, -, uc', g1, -, -, -, -, g6⟩ := hx hex
        refine replace_time ?_
        intro uc'' rep hu hr
        rw [g1, Option.some.injEq] at hu
        subst hu
        exact g6 rep hr

private theorem memSpaced_run {x : String} {key : Option Int} {d η : Delta} {paused : Bool} (cs : List TApi)
    (hl : cs.length ≤ 2 ^ 32) (hm : cs.Pairwise fun a b => a.now ≤ b.now)
    (hcs : ∀ c ∈ cs, SpacedCall x key d η c.now c.call) :
    ∃ T, (∀ now, (∀ c ∈ cs, c.now ≤ now) → (cs = [] ∨ T ≤ now)) ∧
      ((∃ c ∈ cs, T = c.now) ∨ cs = []) ∧ MemSpaced x key (d - η) T ((Mem.init paused).runApi cs) := by
  revert hl hm hcs
  refine snocInduction (P := fun cs => cs.length ≤ 2 ^ 32 → (cs.Pairwise fun a b => a.now ≤ b.now) →
    (∀ c ∈ cs, SpacedCall x key d η c.now c.call) →
    ∃ T, (∀ now, (∀ c ∈ cs, c.now ≤ now) → (cs = [] ∨ T ≤ now)) ∧
      ((∃ c ∈ cs, T = c.now) ∨ cs = []) ∧ MemSpaced x key (d - η) T ((Mem.init paused).runApi cs)) ?_ ?_ cs
  · intro _ _ _
    refine ⟨0, fun _ _ => .inl rfl, .inr rfl, ?_, ?_⟩ <;> simp [Mem.runApi, Mem.init]
  · intro cs c ih hl hm hcs
    simp only [List.length_append, List.length_singleton] at hl
    have hm' := List.pairwise_append.mp hm
    obtain ⟨T, h1, h2, I⟩ := ih (by omega) hm'.1 (fun c hc => hcs c (by simp [hc]))
    have hn := runApi_nodup paused cs (by omega)
    have hc := hcs c (by simp)
    refine ⟨c.now, ?_, .inl ⟨c, by simp, rfl⟩, ?_⟩
    · intro now h; exact .inr (h c (by simp))
    · rw [runApi_append]
      simp only [Mem.runApi]
      rcases h1 c.now (fun a ha => hm'.2.2 a ha c (by simp)) with h | h
      · subst h
        have I' : MemSpaced x key (d - η) c.now ((Mem.init paused).runApi []) := by
          refine ⟨?_, ?_⟩ <;> simp [Mem.runApi, Mem.init]
        exact memSpaced_step hn I' (Int.le_refl _) hc
      · exact memSpaced_step hn I h hc

/-- **C123, the store in memory.** In every sequential history of at most 2^32 calls with
clocks that do not go back, in which every enqueue for `x` is unique by executor within
`d` over all statuses: any two stored jobs of `x` are scheduled at least `d - η` apart,
where `η` bounds how long before the call the jobs were scheduled for. Missing: criteria
that look at Scheduled jobs only (the default) and overlapping calls, for which it is
false. -/
theorem C123_spaced_in_memory_partial (paused : Bool) (x : String) (key : Option Int) (d η : Delta) (cs : List TApi)
    (hl : cs.length ≤ 2 ^ 32) (hm : cs.Pairwise fun a b => a.now ≤ b.now)
    (hcs : ∀ c ∈ cs, SpacedCall x key d η c.now c.call) :
    ∀ a ∈ ((Mem.init paused).runApi cs).jobs, ∀ b ∈ ((Mem.init paused).runApi cs).jobs,
      a.job.executor = x → b.job.executor = x → a.job.id ≠ b.job.id →
      d - η ≤ a.job.scheduledAt - b.job.scheduledAt ∨ d - η ≤ b.job.scheduledAt - a.job.scheduledAt := by
  obtain ⟨T, -, -, I⟩ := memSpaced_run (paused := paused) cs hl hm hcs
  exact I.apart

/-! ### When the jobs begin -/

private def Keeps (x : String) (m m' : Mem) : Prop :=
  ∀ k ∈ m.jobs, k.job.executor = x → ∃ k' ∈ m'.jobs, k'.job.executor = x ∧ k'.job.id = k.job.id ∧
    k'.job.scheduledAt = k.job.scheduledAt

private theorem keeps_same {x : String} {m m' : Mem} (h : m'.jobs = m.jobs) : Keeps x m m' := by
  intro k hk hx; exact ⟨k, by rw [h]; exact hk, hx, rfl, rfl⟩

private theorem keeps_one {x : String} {m m' : Mem} {l r : List KeyedJob} {k : KeyedJob} {j : Job}
    (h : m.jobs = l ++ k :: r) (h' : m'.jobs = l ++ { k with job := j } :: r)
    (hj : j.executor = k.job.executor ∧ j.id = k.job.id ∧ (k.job.executor = x → j.scheduledAt = k.job.scheduledAt)) :
    Keeps x m m' := by
  intro k' hk' hx
  rw [h] at hk'
  rcases List.mem_append.mp hk' with hk' | hk'
  · exact ⟨k', by rw [h']; simp [hk'], hx, rfl, rfl⟩
  · rcases List.mem_cons.mp hk' with hk' | hk'
    · subst hk'
      exact ⟨{ k' with job := j }, by rw [h']; simp, by simp only [hj.1]; exact hx, hj.2.1, hj.2.2 hx⟩
    · exact ⟨k', by rw [h']; simp [hk'], hx, rfl, rfl⟩

private theorem keeps_onJob {x : String} {id : Int} {f : Job → Job} {w : Bool} {m : Mem}
    (hf : ∀ j, (f j).executor = j.executor ∧ (f j).id = j.id ∧ (f j).scheduledAt = j.scheduledAt) :
    Keeps x m (m.onJob id f w).2 := by
  rcases onJob_cases id f w m with ⟨-, he⟩ | ⟨l, k, r, h1, -, -, -, h5, -⟩
  · rw [he]; exact keeps_same rfl
  · exact keeps_one h1 h5 ⟨(hf _).1, (hf _).2.1, fun _ => (hf _).2.2⟩

/-- The call is not a prune. -/
def Api.keepsJobs : Api → Bool
  | .op (.prune _) => false
  | _ => true

private theorem keeps_api {x : String} {key : Option Int} {d η : Delta} (now : Time) {m : Mem} {call : Api}
    (hn : (m.jobs.map fun k => k.job.id).Nodup)
    (h : SpacedCall x key d η now call) (hp : call.keepsJobs = true) : Keeps x m (m.api now call).2 := by
  cases call with
  | op o =>
    cases o with
    | complete id => exact keeps_onJob (by intro j; simp [Job.markComplete])
    | retryable id t e => exact h.elim
    | discarded id e => exact keeps_onJob (by intro j; simp [Job.markDiscarded])
    | cancelled id e => exact keeps_onJob (by intro j; simp [Job.markCancelled])
    | snoozed id t => exact h.elim
    | rerun id => exact h.elim
    | update job => exact h.elim
    | prune spec => simp [Api.keepsJobs] at hp
    | query q => exact keeps_same rfl
    | subscribe y => exact keeps_same rfl
    | notifyAll => exact keeps_same rfl
    | load y =>
      rcases load_cases now y m with ⟨-, he⟩ | ⟨l, k, r, h1, -, -, -, h5⟩
      · simp only [Mem.api, Mem.step]; rw [he]; exact keeps_same rfl
      · simp only [Mem.api, Mem.step]
        rw [h5]
        exact keeps_one h1 rfl ⟨rfl, rfl, fun _ => rfl⟩
  | enqueue e =>
    simp only [Mem.api, SpacedCall] at h ⊢
    obtain ⟨hx, hy⟩ := h
    cases hcr : e.criteria with
    | none =>
      intro k hk hkx
      exact ⟨k, by simp [Mem.enqueue, hcr, Mem.insertNew, notify_jobs, hk], hkx, rfl, rfl⟩
    | some uc =>
      rcases enqueue_cases now e m uc hcr with ⟨h1, -, h3, -⟩ | ⟨l, k, r, h1, h2, h3, h4, h5⟩
      · intro k hk hkx
        exact ⟨k, by rw [h3]; simp [hk], hkx, rfl, rfl⟩
      · have hs := replace_same e k.job
        rw [h5]
        refine keeps_one h1 (update_replace (e := e) hn h1).1 ⟨hs.2.1, hs.2.2, ?_⟩
        intro hkx
        have hex : e.executor = x := by
          by_cases hex : e.executor = x
          · exact hex
          · rw [← h3.executor (hy hex uc hcr)]; exact hkx
        obtain ⟨-, -, uc', g1, -, -, -, -, g6⟩ := hx hex
        refine replace_time ?_
        intro uc'' rep hu hr
        rw [g1, Option.some.injEq] at hu
        subst hu
        exact g6 rep hr

private theorem keeps_run {x : String} {key : Option Int} {d η : Delta} {paused : Bool} (pre cs : List TApi)
    (hl : (pre ++ cs).length ≤ 2 ^ 32)
    (hcs : ∀ c ∈ cs, SpacedCall x key d η c.now c.call) (hp : ∀ c ∈ cs, c.call.keepsJobs = true) :
    Keeps x ((Mem.init paused).runApi pre) ((Mem.init paused).runApi (pre ++ cs)) := by
  induction cs generalizing pre with
  | nil => rw [List.append_nil]; exact keeps_same rfl
  | cons c cs ih =>
    have hn := runApi_nodup paused pre (by simp only [List.length_append] at hl; omega)
    have h1 := keeps_api c.now hn (hcs c (by simp)) (hp c (by simp))
    have h2 := ih (pre ++ [c]) (by simpa using hl) (fun c hc => hcs c (by simp [hc])) (fun c hc => hp c (by simp [hc]))
    rw [List.append_assoc] at h2
    simp only [List.cons_append, List.nil_append] at h2
    rw [runApi_append (Mem.init paused) pre [c]] at h2
    intro k hk hx
    obtain ⟨k', hk', hx', a, b⟩ := h1 k hk hx
    obtain ⟨k'', hk'', hx'', a', b'⟩ := h2 k' hk' hx'
    exact ⟨k'', hk'', hx'', by rw [a', a], by rw [b', b]⟩

private theorem load_gives {now : Time} {x : String} {m : Mem} {j : Job}
    (h : (m.api now (.op (.load x))).1 = .job (some j)) :
    j.executor = x ∧ j.scheduledAt - now < 100 * ms ∧
      ∃ k ∈ m.jobs, k.job.executor = x ∧ k.job.id = j.id ∧ k.job.scheduledAt = j.scheduledAt := by
  simp only [Mem.api, Mem.step] at h
  rcases load_cases now x m with ⟨-, he⟩ | ⟨l, k, r, h1, h2, -, -, h5⟩
  · rw [he] at h; simp at h
  · rw [h5] at h
    simp only [Res.job.injEq, Option.some.injEq] at h
    subst h
    have := readyFor_iff.mp h2
    exact ⟨this.1, this.2.1, k, by rw [h1]; simp, this.1, rfl, rfl⟩

/-- **C123, executions in memory.** In such a history two different jobs of `x` that are
handed out each at most `late` after their time, with no prune in between, are handed out
more than `d` apart, less the lateness, the time between scheduling and enqueueing (`η`)
and the 100 ms by which a job may be handed out early. -/
theorem C123_begun_in_memory_partial (paused : Bool) (x : String) (key : Option Int) (d η late : Delta)
    (pre mid : List TApi) (t₁ t₂ : Time) (j₁ j₂ : Job)
    (hl : (pre ++ ⟨t₁, .op (.load x)⟩ :: mid).length ≤ 2 ^ 32)
    (hm : (pre ++ ⟨t₁, .op (.load x)⟩ :: mid).Pairwise fun a b => a.now ≤ b.now)
    (hcs : ∀ c ∈ pre ++ mid, SpacedCall x key d η c.now c.call)
    (hp : ∀ c ∈ mid, ∀ spec, c.call ≠ .op (.prune spec))
    (h₁ : (((Mem.init paused).runApi pre).api t₁ (.op (.load x))).1 = .job (some j₁))
    (h₂ : (((Mem.init paused).runApi (pre ++ ⟨t₁, .op (.load x)⟩ :: mid)).api t₂ (.op (.load x))).1 = .job (some j₂))
    (hne : j₁.id ≠ j₂.id) (l₁ : t₁ ≤ j₁.scheduledAt + late) (l₂ : t₂ ≤ j₂.scheduledAt + late) :
    d - η - late - 100000000 < t₂ - t₁ ∨ d - η - late - 100000000 < t₁ - t₂ := by
  have hall : ∀ c ∈ pre ++ ⟨t₁, .op (.load x)⟩ :: mid, SpacedCall x key d η c.now c.call := by
    intro c hc
    simp only [List.mem_append, List.mem_cons] at hc hcs
    rcases hc with hc | hc | hc
    · exact hcs c (.inl hc)
    · subst hc; trivial
    · exact hcs c (.inr hc)
  obtain ⟨-, e1, k1, hk1, hx1, i1, s1⟩ := load_gives h₁
  obtain ⟨-, e2, k2, hk2, hx2, i2, s2⟩ := load_gives h₂
  obtain ⟨k, hk, hx, i, s⟩ := keeps_run (paused := paused) pre (⟨t₁, .op (.load x)⟩ :: mid) hl
    (fun c hc => hall c (List.mem_append_right _ hc))
    (by
      intro c hc
      rcases List.mem_cons.mp hc with hc | hc
      · subst hc; rfl
      · have := hp c hc
        unfold Api.keepsJobs
        split
        · rename_i spec heq; exact (this spec heq).elim
        · rfl) k1 hk1 hx1
  have := C123_spaced_in_memory_partial paused x key d η _ hl hm hall k hk k2 hk2 hx hx2 (by rw [i, i1, i2]; exact hne)
  rw [s, s1, s2] at this
  simp only [Time, Delta, ms] at *
  omega

/-- The criteria of the documentation (rexecutor/src/lib.rs:79-83), from the builder calls. -/
def documentedCriteria : Criteria :=
  (Criteria.byExecutor.andWithin (300 * sec)).onConflictReplace ((Replace.only .priority).setStatuses JobStatus.all)

/-- A job with these criteria, looking at every status. -/
def fiveMinutes : EnqueuableJob :=
  { sampleEnq with criteria := some (documentedCriteria.andStatuses JobStatus.all) }

/-- Enqueued five times, at 0, 1, 299, 300 and 400 s; two jobs are stored, and executed at
0 and 300 s. -/
def fiveMinutesHistory : List TApi :=
  [⟨0, .enqueue fiveMinutes⟩, ⟨0, .op (.load "mail")⟩, ⟨1 * sec, .enqueue { fiveMinutes with scheduledAt := 1 * sec }⟩,
    ⟨2 * sec, .op (.complete 0)⟩, ⟨299 * sec, .enqueue { fiveMinutes with scheduledAt := 299 * sec }⟩,
    ⟨300 * sec, .enqueue { fiveMinutes with scheduledAt := 300 * sec }⟩,
    ⟨400 * sec, .enqueue { fiveMinutes with scheduledAt := 400 * sec }⟩]

private theorem fiveMinutes_spaced (t : Time) :
    SpacedCall "mail" none (300 * sec) 0 t (.enqueue { fiveMinutes with scheduledAt := t }) := by
  refine ⟨fun _ => ⟨by simp, Int.le_refl _, _, rfl, rfl, rfl, rfl, ?_, ?_⟩, ?_⟩
  · intro st; cases st <;> decide
  · intro rep h; cases h; rfl
  · intro h; exact (h rfl).elim

example : (∀ c ∈ fiveMinutesHistory, SpacedCall "mail" none (300 * sec) 0 c.now c.call) ∧
    (fiveMinutesHistory.Pairwise fun a b => a.now ≤ b.now) ∧
    ((Mem.init).runApi fiveMinutesHistory).jobs.map (fun k => (k.job.id, k.job.status, k.job.scheduledAt)) =
      [(0, .complete, 0), (1, .scheduled, 300 * sec)] := by
  refine ⟨?_, by decide, by decide +kernel⟩
  intro c hc
  simp only [fiveMinutesHistory, List.mem_cons, List.not_mem_nil, or_false] at hc
  rcases hc with h | h | h | h | h | h | h <;> subst h
  all_goals first | trivial | exact fiveMinutes_spaced _

/-- The bounds on executions are met by the example: handed out at 0 and 300 s. -/
example : ((((Mem.init).runApi [⟨0, .enqueue fiveMinutes⟩]).api 0 (.op (.load "mail"))).1 matches .job (some _)) ∧
    (((Mem.init).runApi fiveMinutesHistory).api (300 * sec) (.op (.load "mail"))).1 =
      .job (some { (fiveMinutes.intoJob (300 * sec) 1).job with
        scheduledAt := 300 * sec, status := .executing, attempt := 1, attemptedAt := some (300 * sec) }) := by
  decide +kernel

/-- A job with the documented criteria; `by_executor()` looks at Scheduled jobs. -/
def documentedFiveMinutes : EnqueuableJob := { sampleEnq with criteria := some documentedCriteria }

/-- **C123 fails in memory.** With the documented criteria three jobs are enqueued,
executed and completed within three seconds. -/
theorem C123_violated_in_memory :
    let cs : List TApi := [⟨0, .enqueue documentedFiveMinutes⟩, ⟨0, .op (.load "mail")⟩, ⟨0, .op (.complete 0)⟩,
      ⟨sec, .enqueue { documentedFiveMinutes with scheduledAt := sec }⟩, ⟨sec, .op (.load "mail")⟩, ⟨sec, .op (.complete 1)⟩,
      ⟨2 * sec, .enqueue { documentedFiveMinutes with scheduledAt := 2 * sec }⟩, ⟨2 * sec, .op (.load "mail")⟩,
      ⟨2 * sec, .op (.complete 2)⟩]
    ((Mem.init).runApi cs).jobs.map (fun k => (k.job.id, k.job.status, k.job.attempt, k.job.attemptedAt)) =
      [(0, .complete, 1, some 0), (1, .complete, 1, some sec), (2, .complete, 1, some (2 * sec))] := by
  decide +kernel

/-- The lateness cannot be dropped: looking at all statuses, a job that begins 299 s late
begins one second before the next one. -/
theorem C123_violated_late :
    let cs : List TApi := [⟨0, .enqueue fiveMinutes⟩, ⟨299 * sec, .op (.load "mail")⟩,
      ⟨300 * sec, .enqueue { fiveMinutes with scheduledAt := 300 * sec }⟩, ⟨300 * sec, .op (.load "mail")⟩]
    ((Mem.init).runApi cs).jobs.map (fun k => (k.job.id, k.job.attemptedAt)) =
      [(0, some (299 * sec)), (1, some (300 * sec))] := by
  decide +kernel

/-- Nor can the requirement that calls do not overlap: two enqueues that look at the same
time both insert. -/
theorem C123_violated_overlapping :
    ((fresh.run [⟨0, .start fiveMinutes⟩, ⟨0, .start fiveMinutes⟩, ⟨0, .advance 0⟩, ⟨0, .advance 1⟩,
      ⟨0, .advance 0⟩, ⟨0, .advance 1⟩, ⟨0, .advance 0⟩, ⟨0, .advance 1⟩, ⟨0, .advance 0⟩, ⟨0, .advance 1⟩]).mem.jobs.map
      fun k => (k.job.id, k.job.status, k.job.scheduledAt)) = [(0, .scheduled, 0), (1, .scheduled, 0)] := by
  decide +kernel

end Rexecutor
