import Verif.Props.Cron
import Verif.Props.Pruner

/-! # C83: shutdown of cron runners and pruners -/

namespace Rexecutor

/-- Ticks of the schedule are at least a second apart, as those of every cron expression. -/
def Schedule.Seconds (s : Schedule) : Prop := ∀ u v, s.tick u → s.tick v → u < v → u + sec ≤ v

/-- Each step of a turn takes at most 190 ms longer than it should. -/
def Lags.Prompt (l : Lags) : Prop :=
  l.reading ≤ 190000000 ∧ l.oversleep ≤ 190000000 ∧ l.enqueue ≤ 190000000 ∧ l.rest ≤ 190000000

private theorem turn_tick {c : Cron D M} {t : Time} {l : Lags} {x : Turn} (h : c.turn t l = some x) :
    c.schedule.next t = some x.tick ∧ x.began = t ∧ x.at' = t + l.reading + max 0 (x.tick - (t + l.reading) - 10 * ms) + l.oversleep ∧
    x.at' ≤ x.again ∧ x.again = (if x.tick - (x.at' + l.enqueue) > 0 then x.tick else x.at' + l.enqueue) + l.rest := by
  unfold Cron.turn at h
  split at h
  · simp at h
  · rename_i n hn
    simp only [Option.some.injEq] at h
    subst h
    refine ⟨hn, rfl, rfl, ?_, rfl⟩
    simp only [Time, Delta, ms] at *
    split <;> omega

private theorem pruneTurn_tick {s : Schedule} {t : Time} {l : Lags} {x : PruneTurn} (h : pruneTurn s t l = some x) :
    s.next t = some x.tick ∧ x.began = t ∧ x.at' = t + l.reading + max 0 (x.tick - (t + l.reading) - 10 * ms) + l.oversleep ∧
    x.at' ≤ x.again ∧ x.again = (if x.tick - (x.at' + l.enqueue) > 0 then x.tick else x.at' + l.enqueue) + l.rest := by
  unfold pruneTurn at h
  split at h
  · simp at h
  · rename_i n hn
    simp only [Option.some.injEq] at h
    subst h
    refine ⟨hn, rfl, rfl, ?_, rfl⟩
    simp only [Time, Delta, ms] at *
    split <;> omega

/-- A turn that begins after the stop, at most 760 ms after a tick, stops. -/
private theorem stops_late {s : Schedule} (hs : s.Seconds) {stop t u n : Time} {l : Lags} {pick : Bool} (hl : l.Prompt)
    (hstop : stop ≤ t) (hu : s.tick u) (hut : u ≤ t) (htu : t ≤ u + 760000000) (hn : s.next t = some n) :
    stopsTurn stop t n l pick = true := by
  have h1 := s.next_after hn
  have h2 := hs u n hu (s.next_tick hn) (by simp only [Time] at *; omega)
  have h3 := hl.1
  simp only [stopsTurn, Bool.or_eq_true, Bool.and_eq_true, decide_eq_true_eq]
  left
  simp only [Time, Delta, ms, sec] at *
  omega

/-- A prompt turn ends at most 760 ms after its tick. -/
private theorem again_late {t n at' again : Time} {l : Lags} (hl : l.Prompt) (hn : t < n)
    (h1 : at' = t + l.reading + max 0 (n - (t + l.reading) - 10 * ms) + l.oversleep)
    (h2 : again = (if n - (at' + l.enqueue) > 0 then n else at' + l.enqueue) + l.rest) :
    n ≤ again ∧ again ≤ n + 760000000 := by
  obtain ⟨l1, l2, l3, l4⟩ := hl
  subst h2
  simp only [Time, Delta, ms] at *
  split <;> omega

/-- A turn that stops would not have acted before the stop. -/
private theorem stop_after {stop t n at' : Time} {l : Lags} {pick : Bool}
    (h1 : at' = t + l.reading + max 0 (n - (t + l.reading) - 10 * ms) + l.oversleep)
    (h : stopsTurn stop t n l pick = true) : stop ≤ at' := by
  simp only [stopsTurn, Bool.or_eq_true, Bool.and_eq_true, decide_eq_true_eq] at h
  simp only [Time, Delta, ms] at *
  omega

/-- **C83, cron runners.** If the token is cancelled at time `stop`: the turns of the loop are
the first turns it would have without, and none that enqueues before `stop` is missing; and when
ticks are at least a second apart and each step of a turn takes at most 190 ms longer than it
should, at most one job is enqueued after `stop`, and it is the last. -/
theorem C83_cron (c : Cron D M) (stop t : Time) (ls : List (Lags × Bool)) :
    (c.loopUntil stop t ls <+: c.loop t (ls.map (·.1))) ∧
    ((c.loop t (ls.map (·.1))).takeWhile (fun x => x.at' < stop) <+: c.loopUntil stop t ls) ∧
    (c.schedule.Seconds → (∀ l ∈ ls, l.1.Prompt) →
      (c.loopUntil stop t ls).dropLast.all (fun x => x.at' < stop) = true) := by
  induction ls generalizing t with
  | nil => exact ⟨List.nil_prefix, List.nil_prefix, fun _ _ => rfl⟩
  | cons l ls ih =>
    obtain ⟨l, pick⟩ := l
    simp only [Cron.loopUntil, Cron.loop, List.map_cons]
    cases ht : c.turn t l with
    | none => exact ⟨List.nil_prefix, List.nil_prefix, fun _ _ => rfl⟩
    | some x =>
      simp only
      split
      · rename_i hst
        refine ⟨List.nil_prefix, ?_, fun _ _ => rfl⟩
        obtain ⟨-, -, h3, -, -⟩ := turn_tick ht
        rw [List.takeWhile_cons_of_neg (by simpa using stop_after h3 hst)]
        exact List.nil_prefix
      · obtain ⟨i1, i3, i2⟩ := ih x.again
        refine ⟨List.cons_prefix_cons.mpr ⟨rfl, i1⟩, ?_, ?_⟩
        · rw [List.takeWhile_cons]
          split
          · exact List.cons_prefix_cons.mpr ⟨rfl, i3⟩
          · exact List.nil_prefix
        intro hs hl
        have i2 := i2 hs (fun l hl' => hl l (List.mem_cons_of_mem _ hl'))
        obtain ⟨h1, h2, h3, h4, h5⟩ := turn_tick ht
        by_cases hx : x.at' < stop
        · cases hrest : c.loopUntil stop x.again ls with
          | nil => rfl
          | cons y ys =>
            rw [hrest] at i2
            rw [List.dropLast_cons_of_ne_nil (by simp)]
            simp only [List.all_cons, Bool.and_eq_true, decide_eq_true_eq]
            exact ⟨hx, i2⟩
        · have hempty : c.loopUntil stop x.again ls = [] := by
            cases ls with
            | nil => rfl
            | cons l' ls =>
              obtain ⟨l', pick'⟩ := l'
              simp only [Cron.loopUntil]
              split
              · rfl
              · rename_i y hy
                obtain ⟨g1, -⟩ := turn_tick hy
                obtain ⟨a1, a2⟩ := again_late (hl (l, pick) (by simp)) (c.schedule.next_after h1) h3 h5
                rw [if_pos]
                refine stops_late hs (hl (l', pick') (by simp)) ?_ (c.schedule.next_tick h1) a1 a2 g1
                simp only [Time] at *
                omega
          rw [hempty]
          rfl

/-- A turn that may stop, and would act after the stop, does. -/
private theorem stops_at_once {stop t n at' : Time} {l : Lags}
    (h1 : at' = t + l.reading + max 0 (n - (t + l.reading) - 10 * ms) + l.oversleep) :
    stopsTurn stop t n l true = !decide (at' < stop) := by
  rw [Bool.eq_iff_iff]
  simp only [stopsTurn, Bool.or_eq_true, Bool.and_eq_true, decide_eq_true_eq, Bool.not_eq_true', decide_eq_false_iff_not, and_true]
  have hm : 0 ≤ max 0 (n - (t + l.reading) - 10 * ms) := Int.le_max_left _ _
  revert h1 hm
  generalize max 0 (n - (t + l.reading) - 10 * ms) = m
  intro h1 hm
  simp only [Time, Delta] at *
  omega

/-- **C83, cron runners that stop at once.** Whatever the lags: if `select!` takes the token whenever both are
ready, the loop enqueues exactly what it would have enqueued before `stop`; the sleep can be ended by the token
at any time. -/
theorem C83_cron_at_once (c : Cron D M) (stop t : Time) (ls : List Lags) :
    c.loopUntil stop t (ls.map fun l => (l, true)) = (c.loop t ls).takeWhile (fun x => x.at' < stop) := by
  induction ls generalizing t with
  | nil => rfl
  | cons l ls ih =>
    simp only [Cron.loopUntil, Cron.loop, List.map_cons]
    cases ht : c.turn t l with
    | none => rfl
    | some x =>
      obtain ⟨-, -, h3, -, -⟩ := turn_tick ht
      simp only [stops_at_once h3, List.takeWhile_cons, ih]
      by_cases hx : x.at' < stop <;> simp [hx]

/-- **C83, pruners that stop at once.** The same for a pruner. -/
theorem C83_pruner_at_once (s : Schedule) (stop t : Time) (ls : List Lags) :
    pruneLoopUntil s stop t (ls.map fun l => (l, true)) = (pruneLoop s t ls).takeWhile (fun x => x.at' < stop) := by
  induction ls generalizing t with
  | nil => rfl
  | cons l ls ih =>
    simp only [pruneLoopUntil, pruneLoop, List.map_cons]
    cases ht : pruneTurn s t l with
    | none => rfl
    | some x =>
      obtain ⟨-, -, h3, -, -⟩ := pruneTurn_tick ht
      simp only [stops_at_once h3, List.takeWhile_cons, ih]
      by_cases hx : x.at' < stop <;> simp [hx]

/-- The token is cancelled while the runner waits for the third tick; or during the second
enqueue; or it has just slept when it is cancelled. -/
example :
    ((sampleCron.loopUntil (2500000000) 0 (List.replicate 5 (⟨0, 0, 1000000, 0⟩, true))).map (·.tick)) = [1 * sec, 2 * sec] ∧
    ((sampleCron.loopUntil (1990000500) 0 (List.replicate 5 (⟨0, 0, 1000000, 0⟩, true))).map (·.tick)) = [1 * sec, 2 * sec] ∧
    ((sampleCron.loopUntil (1990000000) 0 (List.replicate 5 (⟨0, 0, 1000000, 0⟩, true))).map (·.tick)) = [1 * sec] ∧
    ((sampleCron.loopUntil (1990000000) 0 (List.replicate 5 (⟨0, 0, 1000000, 0⟩, false))).map (fun x => (x.tick, x.at'))) =
      [(1 * sec, 990000000), (2 * sec, 1990000000)] := by decide

/-- **C83, the bound on the lags is needed.** With a tick every second and an enqueue that takes a
second each time, a loop whose token was cancelled before it began may enqueue any number of
jobs: there is no sleep left in which `select!` must notice the token. -/
theorem C83_slow (n : Nat) :
    ∃ (t : Time) (ls : List (Lags × Bool)), (∀ l ∈ ls, l.1.enqueue = 1000000000 ∧ l.1.reading = 0 ∧ l.1.oversleep = 0 ∧ l.1.rest = 0) ∧
      (sampleCron.loopUntil 0 t ls).length = n ∧ ∀ x ∈ sampleCron.loopUntil 0 t ls, 0 < x.at' := by
  suffices h : ∀ k : Nat,
      (sampleCron.loopUntil 0 (995000000 + (k : Int) * 1000000000) (List.replicate n (⟨0, 0, 1000000000, 0⟩, false))).length = n ∧
      ∀ x ∈ sampleCron.loopUntil 0 (995000000 + (k : Int) * 1000000000) (List.replicate n (⟨0, 0, 1000000000, 0⟩, false)), 0 < x.at' by
    exact ⟨_, _, fun l hl => by rw [List.eq_of_mem_replicate hl]; exact ⟨rfl, rfl, rfl, rfl⟩, h 0⟩
  induction n with
  | zero => exact fun k => ⟨rfl, by simp [Cron.loopUntil]⟩
  | succ n ih =>
    intro k
    generalize ht : (995000000 + (k : Int) * 1000000000 : Time) = t
    have hn : sampleCron.schedule.next t = some (t + 5000000) := by
      simp only [sampleCron, everySecond, Option.some.injEq, Time] at *
      omega
    have hx : ∃ x, sampleCron.turn t ⟨0, 0, 1000000000, 0⟩ = some x := by simp [Cron.turn, hn]
    obtain ⟨x, hx⟩ := hx
    obtain ⟨h1, -, h3, -, h5⟩ := turn_tick hx
    rw [hn, Option.some.injEq] at h1
    have hat : x.at' = t := by simp only [Time, Delta, ms] at *; omega
    have hag : x.again = 995000000 + ((k + 1 : Nat) : Int) * 1000000000 := by
      rw [if_neg (by simp only [Time, Delta] at *; omega)] at h5
      simp only [Time, Delta] at *
      omega
    have hst : stopsTurn 0 t x.tick ⟨0, 0, 1000000000, 0⟩ false = false := by
      simp only [stopsTurn, Bool.and_false, Bool.or_false, Bool.and_eq_false_iff, decide_eq_false_iff_not]
      right
      simp only [Time, Delta, ms] at *
      omega
    obtain ⟨i1, i2⟩ := ih (k + 1)
    rw [← hag] at i1 i2
    simp only [List.replicate_succ, Cron.loopUntil, hx, hst, Bool.false_eq_true, if_false, List.length_cons, i1, true_and, List.mem_cons,
      forall_eq_or_imp, hat]
    exact ⟨by simp only [Time] at *; omega, i2⟩

/-- `everySecond` has ticks a second apart. -/
example : everySecond.Seconds := by
  rintro u v ⟨a, ha⟩ ⟨b, hb⟩ h
  simp only [sec, Time] at *
  omega

/-- **C83, pruners.** The same: the runs are the first it would have without, none that starts
before `stop` is missing, and when ticks are at least a second apart and each step of a turn
takes at most 190 ms longer than it should, at most one pruning run starts after the stop, and it
is the last. -/
theorem C83_pruner (s : Schedule) (stop t : Time) (ls : List (Lags × Bool)) :
    (pruneLoopUntil s stop t ls <+: pruneLoop s t (ls.map (·.1))) ∧
    ((pruneLoop s t (ls.map (·.1))).takeWhile (fun x => x.at' < stop) <+: pruneLoopUntil s stop t ls) ∧
    (s.Seconds → (∀ l ∈ ls, l.1.Prompt) →
      (pruneLoopUntil s stop t ls).dropLast.all (fun x => x.at' < stop) = true) := by
  induction ls generalizing t with
  | nil => exact ⟨List.nil_prefix, List.nil_prefix, fun _ _ => rfl⟩
  | cons l ls ih =>
    obtain ⟨l, pick⟩ := l
    simp only [pruneLoopUntil, pruneLoop, List.map_cons]
    cases ht : pruneTurn s t l with
    | none => exact ⟨List.nil_prefix, List.nil_prefix, fun _ _ => rfl⟩
    | some x =>
      simp only
      split
      · rename_i hst
        refine ⟨List.nil_prefix, ?_, fun _ _ => rfl⟩
        obtain ⟨-, -, h3, -, -⟩ := pruneTurn_tick ht
        rw [List.takeWhile_cons_of_neg (by simpa using stop_after h3 hst)]
        exact List.nil_prefix
      · obtain ⟨i1, i3, i2⟩ := ih x.again
        refine ⟨List.cons_prefix_cons.mpr ⟨rfl, i1⟩, ?_, ?_⟩
        · rw [List.takeWhile_cons]
          split
          · exact List.cons_prefix_cons.mpr ⟨rfl, i3⟩
          · exact List.nil_prefix
        intro hs hl
        have i2 := i2 hs (fun l hl' => hl l (List.mem_cons_of_mem _ hl'))
        obtain ⟨h1, h2, h3, h4, h5⟩ := pruneTurn_tick ht
        by_cases hx : x.at' < stop
        · cases hrest : pruneLoopUntil s stop x.again ls with
          | nil => rfl
          | cons y ys =>
            rw [hrest] at i2
            rw [List.dropLast_cons_of_ne_nil (by simp)]
            simp only [List.all_cons, Bool.and_eq_true, decide_eq_true_eq]
            exact ⟨hx, i2⟩
        · have hempty : pruneLoopUntil s stop x.again ls = [] := by
            cases ls with
            | nil => rfl
            | cons l' ls =>
              obtain ⟨l', pick'⟩ := l'
              simp only [pruneLoopUntil]
              split
              · rfl
              · rename_i y hy
                obtain ⟨g1, -⟩ := pruneTurn_tick hy
                obtain ⟨a1, a2⟩ := again_late (hl (l, pick) (by simp)) (s.next_after h1) h3 h5
                rw [if_pos]
                refine stops_late hs (hl (l', pick') (by simp)) ?_ (s.next_tick h1) a1 a2 g1
                simp only [Time] at *
                omega
          rw [hempty]
          rfl

example : (pruneLoopUntil everySecond 2500000000 0 (List.replicate 5 (⟨0, 0, 1000000, 0⟩, true))).map (·.tick) = [1 * sec, 2 * sec] := by
  decide

end Rexecutor
