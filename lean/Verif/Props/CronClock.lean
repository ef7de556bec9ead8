import Verif.Model.CronClock
import Verif.Props.Cron
import Verif.Props.PgUnique

/-! # C133: cron jobs when the clock is set -/

namespace Rexecutor

/-- Every reading is off by at most `d`. -/
def ClockErrs.Within (d : Int) (e : ClockErrs) : Prop :=
  -d ≤ e.looking ∧ e.looking ≤ d ∧ -d ≤ e.sleeping ∧ e.sleeping ≤ d ∧ -d ≤ e.making ∧ e.making ≤ d ∧
  -d ≤ e.after ∧ e.after ≤ d

private theorem turnErrs_spec {c : Cron D M} {t : Time} {l : Lags} {e : ClockErrs} {x : Turn}
    (h : c.turnErrs t l e = some x) :
    c.schedule.next (t + e.looking) = some x.tick ∧ x.began = t ∧ x.tick - e.sleeping - 10000000 ≤ x.at' ∧
    t ≤ x.at' ∧ x.at' ≤ x.done ∧ x.done ≤ x.again ∧ x.tick - e.after + l.rest ≤ x.again ∧
    x.job = c.job (x.at' + e.making) x.tick := by
  unfold Cron.turnErrs at h
  split at h
  · simp at h
  · rename_i n hn
    simp only [Option.some.injEq] at h
    subst h
    simp only [Time, Delta, ms, and_true, true_and] at *
    refine ⟨hn, ?_, ?_, ?_, ?_, ?_⟩
    all_goals first | omega | (split <;> omega)

/-- **C133, a clock that is right.** With a clock that is never off the loop is the loop of C40. -/
theorem C133_right_clock (c : Cron D M) (t : Time) (ls : List Lags) :
    c.loopErrs t (ls.map fun l => (l, ⟨0, 0, 0, 0⟩)) = c.loop t ls := by
  induction ls generalizing t with
  | nil => rfl
  | cons l ls ih =>
    have hturn : c.turnErrs t l ⟨0, 0, 0, 0⟩ = c.turn t l := by
      unfold Cron.turnErrs Cron.turn
      have h0 : t + (0 : Int) = t := Int.add_zero t
      simp only [h0]
      cases c.schedule.next t with
      | none => rfl
      | some n =>
        simp only [Option.some.injEq, Turn.mk.injEq, true_and, Time, Delta, ms, Int.add_zero, and_true]
        split <;> omega
    simp only [List.map_cons, Cron.loopErrs, Cron.loop, hturn]
    cases c.turn t l with
    | none => rfl
    | some x => simp only [ih]

/-- **C133, on time.** Suppose the clock is never off by more than `d`. Every job a cron runner
enqueues is for a tick of the schedule, it is enqueued no earlier than 10 ms and `d` before that
tick, and when the runner looked at the schedule the tick was at most `d` past. -/
theorem C133_on_tick (c : Cron D M) (t : Time) (ls : List (Lags × ClockErrs)) (d : Int)
    (hd : ∀ p ∈ ls, p.2.Within d) (x : Turn) (hx : x ∈ c.loopErrs t ls) :
    c.schedule.tick x.tick ∧ t ≤ x.began ∧ x.began < x.tick + d ∧ x.tick - d - 10000000 ≤ x.at' := by
  induction ls generalizing t with
  | nil => simp [Cron.loopErrs] at hx
  | cons p ls ih =>
    obtain ⟨l, e⟩ := p
    simp only [Cron.loopErrs] at hx
    split at hx
    · simp at hx
    · rename_i y hy
      obtain ⟨h1, h2, h3, h4, h5, h6, h7, h8⟩ := turnErrs_spec hy
      have hw := hd (l, e) (by simp)
      simp only [ClockErrs.Within] at hw
      rcases List.mem_cons.mp hx with rfl | hx
      · have ha := c.schedule.next_after h1
        refine ⟨c.schedule.next_tick h1, ?_, ?_, ?_⟩ <;> simp only [Time] at * <;> omega
      · obtain ⟨g1, g2, g3, g4⟩ := ih _ (fun p hp => hd p (List.mem_cons_of_mem _ hp)) hx
        exact ⟨g1, Int.le_trans (Int.le_trans (Int.le_trans h4 h5) h6) g2, g3, g4⟩

private theorem after_startErrs {c : Cron D M} {t : Time} {ls : List (Lags × ClockErrs)} {b : Int}
    (hb : ∀ p ∈ ls, -b ≤ p.2.looking) {x : Turn} (hx : x ∈ c.loopErrs t ls) : t - b < x.tick := by
  induction ls generalizing t with
  | nil => simp [Cron.loopErrs] at hx
  | cons p ls ih =>
    obtain ⟨l, e⟩ := p
    simp only [Cron.loopErrs] at hx
    split at hx
    · simp at hx
    · rename_i y hy
      obtain ⟨h1, h2, h3, h4, h5, h6, h7, h8⟩ := turnErrs_spec hy
      have hl := hb (l, e) (by simp)
      rcases List.mem_cons.mp hx with rfl | hx
      · have ha := c.schedule.next_after h1
        simp only [Time] at *
        omega
      · have := ih (fun p hp => hb p (List.mem_cons_of_mem _ hp)) hx
        simp only [Time] at *
        omega

/-- **C133, order.** Suppose the clock is never off by more than `d`. However it is set within
that margin, the tick of a later job is later than the tick of an earlier one less `2 d`. So
with ticks at least `2 d` apart no job is enqueued for a tick before one already served. -/
theorem C133_order (c : Cron D M) (t : Time) (ls : List (Lags × ClockErrs)) (d : Int)
    (hd : ∀ p ∈ ls, p.2.Within d) : (c.loopErrs t ls).Pairwise fun x y => x.tick - 2 * d < y.tick := by
  induction ls generalizing t with
  | nil => exact .nil
  | cons p ls ih =>
    obtain ⟨l, e⟩ := p
    simp only [Cron.loopErrs]
    split
    · exact .nil
    · rename_i y hy
      obtain ⟨h1, h2, h3, h4, h5, h6, h7, h8⟩ := turnErrs_spec hy
      have hw := hd (l, e) (by simp)
      simp only [ClockErrs.Within] at hw
      refine .cons ?_ (ih _ (fun p hp => hd p (List.mem_cons_of_mem _ hp)))
      intro z hz
      have := after_startErrs (b := d) (fun p hp => (hd p (List.mem_cons_of_mem _ hp)).1) hz
      simp only [Time] at *
      omega

/-- **C133, partial** (missing: clocks that are set back, see `C133_violated`). If between the
reading at the end of one turn and the reading at the beginning of any later turn the clock
loses no more time than the second sleep overshoots by, then the ticks of successive jobs strictly
increase: no tick is served twice. In particular if the clock is set forward only. -/
theorem C133_once_partial (c : Cron D M) (t : Time) (ls : List (Lags × ClockErrs))
    (hfwd : ls.Pairwise fun p q => p.2.after ≤ q.2.looking + (p.1.rest : Int)) :
    (c.loopErrs t ls).Pairwise fun x y => x.tick < y.tick := by
  induction ls generalizing t with
  | nil => exact .nil
  | cons p ls ih =>
    obtain ⟨l, e⟩ := p
    rw [List.pairwise_cons] at hfwd
    simp only [Cron.loopErrs]
    split
    · exact .nil
    · rename_i y hy
      obtain ⟨h1, h2, h3, h4, h5, h6, h7, h8⟩ := turnErrs_spec hy
      refine .cons ?_ (ih _ hfwd.2)
      intro z hz
      have := after_startErrs (b := (l.rest : Int) - e.after)
        (fun p hp => by have := hfwd.1 p hp; simp only at this; omega) hz
      simp only [Time] at *
      omega

/-- **C133, no tick skipped.** Suppose the clock is never off by more than `d`, and after each job
the loop is back looking at the schedule more than `d` before the following tick. Then every tick
from `d` after the start of the runner up to the last one served was served. -/
theorem C133_no_skip (c : Cron D M) (t : Time) (ls : List (Lags × ClockErrs)) (d : Int)
    (hd : ∀ p ∈ ls, p.2.Within d)
    (hfast : ∀ x ∈ c.loopErrs t ls, ∀ u, c.schedule.tick u → x.tick < u → x.again + d < u)
    (x : Turn) (hx : x ∈ c.loopErrs t ls) (u : Time) (hu : c.schedule.tick u) (htu : t + d < u) (hux : u ≤ x.tick) :
    ∃ y ∈ c.loopErrs t ls, y.tick = u := by
  induction ls generalizing t with
  | nil => simp [Cron.loopErrs] at hx
  | cons p ls ih =>
    obtain ⟨l, e⟩ := p
    simp only [Cron.loopErrs] at hx hfast ⊢
    split at hx
    · simp at hx
    · rename_i y hy
      simp only [hy] at hfast ⊢
      have h1 := (turnErrs_spec hy).1
      have hw := hd (l, e) (by simp)
      simp only [ClockErrs.Within] at hw
      by_cases hyu : y.tick = u
      · exact ⟨y, by simp, hyu⟩
      by_cases hlt : u < y.tick
      · exact absurd hu (c.schedule.next_first h1 (by simp only [Time] at *; omega) hlt)
      · have hgt : y.tick < u := by
          simp only [Time] at *
          omega
        have hag := hfast y (by simp) u hu hgt
        rcases List.mem_cons.mp hx with rfl | hx
        · exact absurd (Int.lt_of_lt_of_le hgt hux) (Int.lt_irrefl _)
        · obtain ⟨z, hz, hzu⟩ := ih _ (fun p hp => hd p (List.mem_cons_of_mem _ hp))
            (fun x hx => hfast x (List.mem_cons_of_mem _ hx)) hx hag
          exact ⟨z, List.mem_cons_of_mem _ hz, hzu⟩

/-- **C133, exactly when.** Of two successive turns the second serves a later tick exactly if by
the clock the tick of the first has come when the runner looks at the schedule again. -/
theorem C133_exactly (c : Cron D M) (t : Time) (l l' : Lags) (e e' : ClockErrs) (x y : Turn)
    (h : c.loopErrs t [(l, e), (l', e')] = [x, y]) : x.tick < y.tick ↔ x.tick ≤ x.again + e'.looking := by
  simp only [Cron.loopErrs] at h
  split at h
  · simp at h
  · rename_i x' hx
    split at h
    · simp at h
    · rename_i y' hy
      simp only [List.cons.injEq, and_true] at h
      obtain ⟨rfl, rfl⟩ := h
      have a := (turnErrs_spec hx).1
      have b := (turnErrs_spec hy).1
      refine ⟨fun h => ?_, fun h => Int.lt_of_le_of_lt h (c.schedule.next_after b)⟩
      apply Int.le_of_not_gt
      intro hlt
      exact c.schedule.next_first b hlt h (c.schedule.next_tick a)

private theorem cron_job_now (c : Cron D M) (now now' tick : Time) : c.job now tick = c.job now' tick := by
  simp only [Cron.job, JobBuilder.applyAll, List.foldl, JobBuilder.apply, JobBuilder.init]

/-- **C133 fails when the clock is set back**, by however little. Take any cron job, any tick `n`
ahead of it, any `d > 0`. There are errors of the clock of at most `d` with which the runner
serves that tick in two successive turns, and then two jobs with the same data are stored for the
tick, in memory whatever is stored, on Postgres unless the hash of the criteria happens to be the
hash of the data. -/
theorem C133_violated (hash : HashFn) (tie tie' : Int → Nat) (c : Cron D M) (t n : Time) (d : Int) (hd : 0 < d)
    (hn : c.schedule.next t = some n) (hahead : ∀ u, u < n → c.schedule.next u ≠ none) :
    ∃ ls x y, (∀ p ∈ ls, p.2.Within d) ∧ c.loopErrs t ls = [x, y] ∧ x.tick = n ∧ y.tick = n ∧
      ∀ j₁ j₂, x.job = some j₁ → y.job = some j₂ →
        (∀ (m : Mem) (now₁ now₂ : Time), ∃ k₁ k₂,
          ((m.api now₁ (.enqueue j₁)).2.api now₂ (.enqueue j₂)).2.jobs = m.jobs ++ [k₁, k₂] ∧
          k₁.job.executor = c.consts.name ∧ k₂.job.executor = c.consts.name ∧
          k₁.job.scheduledAt = n ∧ k₂.job.scheduledAt = n ∧ k₂.job.data = k₁.job.data) ∧
        (∀ (p : Pg) (now₁ now₂ : Time), 1000 ∣ n → p.seq + 1 < 2147483647 →
          hash (some c.keyHash) (some c.consts.name) [.scheduled] ≠ c.keyHash →
          (∀ r ∈ p.rows, r.uniquenessKey ≠ some c.keyHash) → ∃ r₁ r₂,
          ((p.enqueue hash tie now₁ j₁).2.enqueue hash tie' now₂ j₂).2.rows = p.rows ++ [r₁, r₂] ∧
          r₁.executor = c.consts.name ∧ r₂.executor = c.consts.name ∧
          r₁.scheduledAt = n ∧ r₂.scheduledAt = n ∧ r₁.data = r₂.data) := by
  have ht := c.schedule.next_after hn
  obtain ⟨d', hd0, hd1, hd2⟩ : ∃ d' : Int, 0 < d' ∧ d' ≤ d ∧ d' ≤ n - t := by
    refine ⟨min d (n - t), ?_, ?_, ?_⟩ <;> simp only [Time] at * <;> omega
  let l : Lags := ⟨0, 0, 0, 0⟩
  let e : ClockErrs := ⟨0, 0, 0, d'⟩
  let e' : ClockErrs := ⟨0, 0, 0, 0⟩
  have hx : ∃ x, c.turnErrs t l e = some x ∧ x.tick = n ∧ t ≤ x.again ∧ x.again < n := by
    have h0 : t + e.looking = t := Int.add_zero t
    simp only [Cron.turnErrs, h0, hn]
    refine ⟨_, rfl, rfl, ?_⟩
    simp only [Time, Delta, ms, l, e] at *
    split <;> omega
  obtain ⟨x, hx, hxn, hx1, hx2⟩ := hx
  have hnext : c.schedule.next x.again = some n := by
    cases hz : c.schedule.next x.again with
    | none => exact absurd hz (hahead _ hx2)
    | some z =>
      have h1 := c.schedule.next_after hz
      have h2 : ¬ z < n := fun h => c.schedule.next_first hn (Int.lt_of_le_of_lt hx1 h1) h (c.schedule.next_tick hz)
      have h3 : ¬ n < z := fun h => c.schedule.next_first hz hx2 h (c.schedule.next_tick hn)
      simp only [Option.some.injEq, Time] at *
      omega
  have hy : ∃ y, c.turnErrs x.again l e' = some y ∧ y.tick = n := by
    have h0 : x.again + e'.looking = x.again := Int.add_zero _
    simp only [Cron.turnErrs, h0, hnext]
    exact ⟨_, rfl, rfl⟩
  obtain ⟨y, hy, hyn⟩ := hy
  refine ⟨[(l, e), (l, e')], x, y, ?_, ?_, hxn, hyn, ?_⟩
  · intro p hp
    simp only [List.mem_cons, List.not_mem_nil, or_false] at hp
    rcases hp with rfl | rfl <;> simp only [ClockErrs.Within, e, e'] <;> omega
  · simp only [Cron.loopErrs, hx, hy]
  · intro j₁ j₂ hj₁ hj₂
    rw [(turnErrs_spec hx).2.2.2.2.2.2.2, hxn] at hj₁
    rw [(turnErrs_spec hy).2.2.2.2.2.2.2, hyn] at hj₂
    constructor
    · intro m now₁ now₂
      rw [cron_job_now c _ now₁] at hj₁
      rw [cron_job_now c _ now₂] at hj₂
      obtain ⟨k₁, k₂, g1, g2, g3, g4, g5, g6, -⟩ := C26_violated c n now₁ now₂ m j₁ j₂ hj₁ hj₂
      exact ⟨k₁, k₂, g1, g2, g3.trans g2, g4, g5, g6⟩
    · intro p now₁ now₂ hw hs hh hr
      rw [cron_job_now c _ now₁] at hj₁
      rw [cron_job_now c _ now₂] at hj₂
      obtain ⟨r₁, r₂, g1, g2, g3, g4, g5, g6, g7, g8⟩ :=
        C26_postgres_violated hash tie tie' c n now₁ now₂ p j₁ j₂ hj₁ hj₂ hh hw hr hs
      exact ⟨r₁, r₂, g1, g4, g5, g7, g8, g6⟩

/-- The clock is set back by a microsecond between the end of the first turn and the beginning of
the second: the tick at one second is served twice. -/
def setBack : List (Lags × ClockErrs) :=
  [(⟨0, 0, 0, 0⟩, ⟨0, 0, 0, 1000⟩), (⟨0, 0, 0, 0⟩, ⟨0, 0, 0, 0⟩), (⟨0, 0, 0, 3⟩, ⟨0, 0, 0, 0⟩)]

example : (sampleCron.loopErrs 0 setBack).map (fun x => (x.tick, x.at')) =
    [(1000000000, 990000000), (1000000000, 999999000), (2000000000, 1990000000)] := by decide

example : ∀ p ∈ setBack, p.2.Within 1000 := by
  intro p hp
  simp only [setBack, List.mem_cons, List.not_mem_nil, or_false] at hp
  rcases hp with rfl | rfl | rfl <;> simp only [ClockErrs.Within] <;> omega

example : (sampleCron.loopErrs 0 setBack).Pairwise fun x y => x.tick - 2 * 1000 < y.tick := by
  apply C133_order
  intro p hp
  simp only [setBack, List.mem_cons, List.not_mem_nil, or_false] at hp
  rcases hp with rfl | rfl | rfl <;> simp only [ClockErrs.Within] <;> omega

example : ∀ x ∈ sampleCron.loopErrs 0 setBack, ∀ u, everySecond.tick u → x.tick < u → x.again + 1000 < u := by
  intro x hx u hu hlt
  have : (x.tick, x.again) ∈ (sampleCron.loopErrs 0 setBack).map fun x => (x.tick, x.again) :=
    List.mem_map.mpr ⟨x, hx, rfl⟩
  rw [show (sampleCron.loopErrs 0 setBack).map (fun x => (x.tick, x.again)) =
    [(1000000000, 999999000), (1000000000, 1000000000), (2000000000, 2000000003)] by decide] at this
  obtain ⟨k, hk⟩ := hu
  simp only [List.mem_cons, List.not_mem_nil, or_false, Prod.mk.injEq] at this
  simp only [Time] at *
  omega

/-- The clock is set forward by half a second, then loses a nanosecond while the sleep overshoots
by a microsecond: every tick is served once. -/
def setForward : List (Lags × ClockErrs) :=
  [(⟨0, 0, 0, 1000⟩, ⟨0, 0, 0, 500000000⟩), (⟨0, 0, 0, 0⟩, ⟨499999999, 499999999, 499999999, 499999999⟩)]

example : (setForward.Pairwise fun p q => p.2.after ≤ q.2.looking + (p.1.rest : Int)) ∧
    (sampleCron.loopErrs 0 setForward).map (fun x => (x.tick, x.at')) =
      [(1000000000, 990000000), (2000000000, 1490000001)] := by
  constructor
  · decide
  · decide

example : ∃ x y, sampleCron.loopErrs 0 (setBack.take 2) = [x, y] ∧ ¬ x.tick < y.tick ∧ ¬ x.tick ≤ x.again + 0 :=
  ⟨_, _, rfl, by decide, by decide⟩

/-- The hypotheses of `C133_violated` hold of a job every second. -/
example : sampleCron.schedule.next 0 = some 1000000000 ∧ ∀ u, u < 1000000000 → sampleCron.schedule.next u ≠ none :=
  ⟨rfl, fun u _ => by simp [sampleCron, everySecond]⟩

end Rexecutor
