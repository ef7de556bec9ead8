import Verif.Model.Cron
import Verif.Model.Api
import Verif.Lemmas.Api
import Verif.Spec.Samples

/-! # C26, C40: cron jobs -/

namespace Rexecutor

/-- A schedule that ticks every second. -/
def everySecond : Schedule where
  tick t := ∃ k : Int, t = k * 1000000000
  next t := some ((t / 1000000000 + 1) * 1000000000)
  next_tick := by
    intro t n h
    simp only [Option.some.injEq] at h
    exact ⟨_, h.symm⟩
  next_after := by
    intro t n h
    simp only [Option.some.injEq] at h
    simp only [Time] at *
    omega
  next_first := by
    intro t n u h h1 h2
    simp only [Option.some.injEq] at h
    rintro ⟨k, hk⟩
    simp only [Time] at *
    omega

/-- A cron job every second. -/
def sampleCron : Cron String Unit where
  schedule := everySecond
  consts := { name := "mail", maxAttempts := 2, criteria := none }
  cd := { enc := fun s => some (.str s), dec := fun | .str s => some s | _ => none }
  cm := { enc := fun _ => some .null, dec := fun | .null => some () | _ => none }
  data := "hello"
  keyHash := 17

/-! ## C40 -/

private theorem turn_spec {c : Cron D M} {t : Time} {l : Lags} {x : Turn} (h : c.turn t l = some x) :
    c.schedule.next t = some x.tick ∧ x.began = t ∧ x.tick - 10 * ms ≤ x.at' ∧ t ≤ x.at' ∧ x.at' ≤ x.done ∧
    x.done ≤ x.again ∧ x.tick ≤ x.again ∧ x.job = c.job x.at' x.tick := by
  unfold Cron.turn at h
  split at h
  · simp at h
  · rename_i n hn
    simp only [Option.some.injEq] at h
    subst h
    simp only [Time, Delta, ms, and_true, true_and] at *
    refine ⟨hn, ?_, ?_, ?_, ?_, ?_⟩
    all_goals first | omega | (split <;> omega)

/-- **C40.** For every schedule and every pattern of delays: every job a cron runner
enqueues is for a tick of the schedule that lies after the time it looked at the
schedule, and it is enqueued no earlier than 10 ms before that tick. -/
theorem C40_on_tick (c : Cron D M) (t : Time) (ls : List Lags) (x : Turn) (hx : x ∈ c.loop t ls) :
    c.schedule.tick x.tick ∧ t ≤ x.began ∧ x.began < x.tick ∧ x.tick - 10 * ms ≤ x.at' := by
  induction ls generalizing t with
  | nil => simp [Cron.loop] at hx
  | cons l ls ih =>
    simp only [Cron.loop] at hx
    split at hx
    · simp at hx
    · rename_i y hy
      obtain ⟨h1, h2, h3, h4, h5, h6, h7, h8⟩ := turn_spec hy
      rcases List.mem_cons.mp hx with rfl | hx
      · exact ⟨c.schedule.next_tick h1, by rw [h2]; exact Int.le_refl _,
          by rw [h2]; exact c.schedule.next_after h1, h3⟩
      · obtain ⟨g1, g2, g3, g4⟩ := ih _ hx
        exact ⟨g1, Int.le_trans (Int.le_trans (Int.le_trans h4 h5) h6) g2, g3, g4⟩

private theorem after_start {c : Cron D M} {t : Time} {ls : List Lags} {x : Turn} (hx : x ∈ c.loop t ls) :
    t < x.tick := by
  obtain ⟨-, h1, h2, -⟩ := C40_on_tick c t ls x hx
  exact Int.lt_of_le_of_lt h1 h2

/-- **C40, order.** The ticks of successive jobs strictly increase: no tick is served
twice by one cron runner. -/
theorem C40_increasing (c : Cron D M) (t : Time) (ls : List Lags) :
    (c.loop t ls).Pairwise fun x y => x.tick < y.tick := by
  induction ls generalizing t with
  | nil => exact .nil
  | cons l ls ih =>
    simp only [Cron.loop]
    split
    · exact .nil
    · rename_i y hy
      obtain ⟨h1, h2, h3, h4, h5, h6, h7, h8⟩ := turn_spec hy
      refine .cons ?_ (ih _)
      intro z hz
      exact Int.lt_of_le_of_lt h7 (after_start hz)

/-- **C40, no tick skipped.** If after each job the loop is back looking at the schedule
before the following tick, then every tick from the start of the runner up to the last
one served was served. -/
theorem C40_no_skip (c : Cron D M) (t : Time) (ls : List Lags)
    (hfast : ∀ x ∈ c.loop t ls, ∀ u, c.schedule.tick u → x.tick < u → x.again < u)
    (x : Turn) (hx : x ∈ c.loop t ls) (u : Time) (hu : c.schedule.tick u) (htu : t < u) (hux : u ≤ x.tick) :
    ∃ y ∈ c.loop t ls, y.tick = u := by
  induction ls generalizing t with
  | nil => simp [Cron.loop] at hx
  | cons l ls ih =>
    simp only [Cron.loop] at hx hfast ⊢
    split at hx
    · simp at hx
    · rename_i y hy
      simp only [hy] at hfast ⊢
      obtain ⟨h1, h2, h3, h4, h5, h6, h7, h8⟩ := turn_spec hy
      by_cases hyu : y.tick = u
      · exact ⟨y, by simp, hyu⟩
      by_cases hlt : u < y.tick
      · exact absurd hu (c.schedule.next_first h1 htu hlt)
      · have hgt : y.tick < u := by
          simp only [Time] at *
          omega
        have hag := hfast y (by simp) u hu hgt
        rcases List.mem_cons.mp hx with rfl | hx
        · exact absurd (Int.lt_of_lt_of_le hgt hux) (Int.lt_irrefl _)
        · obtain ⟨z, hz, hzu⟩ := ih _ (fun x hx => hfast x (List.mem_cons_of_mem _ hx)) hx hag
          exact ⟨z, List.mem_cons_of_mem _ hz, hzu⟩

/-- **C40, the job.** What is passed to the backend is a job of the executor, scheduled
exactly at the tick, with the serialised data of the cron job and the default of
everything else. -/
theorem C40_job (c : Cron D M) (t : Time) (ls : List Lags) (x : Turn) (hx : x ∈ c.loop t ls)
    (j : EnqueuableJob) (hj : x.job = some j) :
    j.scheduledAt = x.tick ∧ j.executor = c.consts.name ∧ c.cd.enc c.data = some j.data ∧
    j.maxAttempts = c.consts.maxAttempts ∧ j.priority = 0 ∧ j.tags = [] := by
  have hjob : x.job = c.job x.at' x.tick := by
    induction ls generalizing t with
    | nil => simp [Cron.loop] at hx
    | cons l ls ih =>
      simp only [Cron.loop] at hx
      split at hx
      · simp at hx
      · rename_i y hy
        rcases List.mem_cons.mp hx with rfl | hx
        · exact (turn_spec hy).2.2.2.2.2.2.2
        · exact ih _ hx
  rw [hjob] at hj
  simp only [Cron.job, JobBuilder.build, JobBuilder.applyAll, List.foldl, JobBuilder.apply, JobBuilder.init,
    Codec.encOption] at hj
  split at hj
  · simp at hj
  · rename_i data hd
    simp only [Option.some.injEq] at hj
    subst hj
    exact ⟨rfl, rfl, hd, rfl, rfl, rfl⟩

/-- Three turns of a cron job every second: the second enqueue takes so long that a tick
is lost. -/
example : (sampleCron.loop 100000000 [⟨1000, 2000000, 5000000, 0⟩, ⟨0, 0, 1500000000, 7⟩, ⟨0, 0, 0, 0⟩]).map
      (fun x => (x.began, x.tick, x.at', x.again)) =
    [(100000000, 1000000000, 992000000, 1000000000),
     (1000000000, 2000000000, 1990000000, 3490000007),
     (3490000007, 4000000000, 3990000000, 4000000000)] := by
  decide

/-- Without the delay no tick is lost and the hypothesis of `C40_no_skip` holds. -/
example : (sampleCron.loop 0 [⟨0, 0, 0, 0⟩, ⟨0, 0, 5, 7⟩]).map (fun x => (x.tick, x.again)) =
    [(1000000000, 1000000000), (2000000000, 2000000007)] := by
  decide

/-! ## C26 -/

private theorem cron_job {c : Cron D M} {now tick : Time} {j : EnqueuableJob} (h : c.job now tick = some j) :
    j.criteria = some (cronCriteria c.keyHash) ∧ j.scheduledAt = tick ∧ j.executor = c.consts.name ∧
    c.cd.enc c.data = some j.data := by
  simp only [Cron.job, JobBuilder.build, JobBuilder.applyAll, List.foldl, JobBuilder.apply, JobBuilder.init,
    Codec.encOption] at h
  split at h
  · simp at h
  · rename_i data hd
    simp only [Option.some.injEq] at h
    subst h
    exact ⟨rfl, rfl, rfl, hd⟩

private theorem cron_inserts {c : Cron D M} {now now' tick : Time} {j : EnqueuableJob}
    (h : c.job now tick = some j) (m : Mem) :
    (m.enqueue now' j).2.jobs = m.jobs ++ [j.intoJob now' (wrapI32 m.allocated)] := by
  obtain ⟨h1, -⟩ := cron_job h
  rcases enqueue_cases now' j m _ h1 with ⟨-, -, h2, -⟩ | ⟨l, k, r, -, -, hd, -⟩
  · exact h2
  · exfalso
    have := hd.window 0 rfl
    simp only [Time, Delta] at *
    omega

/-- **C26 fails on the in-memory backend.** Whatever is stored: a cron job is never
recognised as a duplicate, at any time and for any tick, because no distance is smaller
than the zero duration of its criteria. So when two cron runners with the same executor
and data enqueue for the same tick, one after the other, two jobs are added, both
`Scheduled`, with the same executor, data and scheduled time. -/
theorem C26_violated (c : Cron D M) (tick now₁ now₂ : Time) (m : Mem) (j₁ j₂ : EnqueuableJob)
    (h₁ : c.job now₁ tick = some j₁) (h₂ : c.job now₂ tick = some j₂) :
    ∃ k₁ k₂, ((m.api now₁ (.enqueue j₁)).2.api now₂ (.enqueue j₂)).2.jobs = m.jobs ++ [k₁, k₂] ∧
      k₁.job.executor = c.consts.name ∧ k₂.job.executor = k₁.job.executor ∧
      k₁.job.scheduledAt = tick ∧ k₂.job.scheduledAt = tick ∧ k₂.job.data = k₁.job.data ∧
      k₁.key = some c.keyHash ∧ k₂.key = k₁.key ∧
      k₁.job.status = .scheduled ∧ k₂.job.status = .scheduled := by
  obtain ⟨a1, a2, a3, a4⟩ := cron_job h₁
  obtain ⟨b1, b2, b3, b4⟩ := cron_job h₂
  refine ⟨j₁.intoJob now₁ (wrapI32 m.allocated), j₂.intoJob now₂ (wrapI32 (m.enqueue now₁ j₁).2.allocated), ?_⟩
  simp only [Mem.api, cron_inserts h₁, cron_inserts h₂]
  rw [a4, Option.some.injEq] at b4
  simp [EnqueuableJob.intoJob, a1, a2, a3, b1, b2, b3, b4, cronCriteria, Criteria.andKey, Criteria.andExecutor]

example : (sampleCron.job 990000000 1000000000).isSome = true ∧
    ((Mem.init.api 990000000 (.enqueue ((sampleCron.job 990000000 1000000000).getD sampleEnq))).2.api 990000001
      (.enqueue ((sampleCron.job 990000001 1000000000).getD sampleEnq))).2.jobs.map
        (fun k => (k.job.id, k.job.executor, k.job.scheduledAt)) =
      [(0, "mail", 1000000000), (1, "mail", 1000000000)] := by
  decide

end Rexecutor
