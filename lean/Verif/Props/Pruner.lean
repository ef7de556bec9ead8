import Verif.Model.Pruner
import Verif.Spec.Prune
import Verif.Props.Store
import Verif.Props.Cron

/-! # C41, C57: pruner configuration and pruner runs -/

namespace Rexecutor

/-! ## What the builders select -/

/-- `Pruner::only::<A>().and::<B>()...`. -/
def Pruner.onlyAll (p : Pruner AllExecutors) (n : String) (ns : List String) : Pruner OnlyExecutors :=
  ns.foldl Pruner.andOnly (p.only n)

/-- `Pruner::except::<A>().and::<B>()...`. -/
def Pruner.exceptAll (p : Pruner AllExecutors) (n : String) (ns : List String) : Pruner ExceptExecutors :=
  ns.foldl Pruner.andExcept (p.except n)

private theorem foldl_andOnly (p : Pruner OnlyExecutors) (ns : List String) :
    (ns.foldl Pruner.andOnly p) = { p with executors := ⟨p.executors.names ++ ns⟩ } := by
  induction ns generalizing p with
  | nil => simp
  | cons n ns ih => simp [ih, Pruner.andOnly]

private theorem foldl_andExcept (p : Pruner ExceptExecutors) (ns : List String) :
    (ns.foldl Pruner.andExcept p) = { p with executors := ⟨p.executors.names ++ ns⟩ } := by
  induction ns generalizing p with
  | nil => simp
  | cons n ns ih => simp [ih, Pruner.andExcept]

/-- **C41, builders.** For every status, strategy and list of executors: the plain pruner
looks at all jobs of the status, `only(..).and(..)` at those of exactly the named
executors, `except(..).and(..)` at those of all others; the strategy is the one asked
for. -/
theorem C41_builders (st : JobStatus) (age : Delta) (len : Nat) (n : String) (ns : List String) (j : Job) :
    (((Pruner.maxAge age st).spec.Selects j ↔ j.status = st) ∧
     ((Pruner.maxLength len st).spec.Selects j ↔ j.status = st)) ∧
    ((((Pruner.maxAge age st).onlyAll n ns).spec.Selects j ↔ j.status = st ∧ j.executor ∈ n :: ns) ∧
     (((Pruner.maxLength len st).onlyAll n ns).spec.Selects j ↔ j.status = st ∧ j.executor ∈ n :: ns)) ∧
    ((((Pruner.maxAge age st).exceptAll n ns).spec.Selects j ↔ j.status = st ∧ j.executor ∉ n :: ns) ∧
     (((Pruner.maxLength len st).exceptAll n ns).spec.Selects j ↔ j.status = st ∧ j.executor ∉ n :: ns)) ∧
    ((Pruner.maxAge age st).spec.pruneBy = .maxAge age ∧
     ((Pruner.maxAge age st).onlyAll n ns).spec.pruneBy = .maxAge age ∧
     ((Pruner.maxAge age st).exceptAll n ns).spec.pruneBy = .maxAge age) ∧
    ((Pruner.maxLength len st).spec.pruneBy = .maxLength len ∧
     ((Pruner.maxLength len st).onlyAll n ns).spec.pruneBy = .maxLength len ∧
     ((Pruner.maxLength len st).exceptAll n ns).spec.pruneBy = .maxLength len) := by
  simp only [Pruner.onlyAll, Pruner.exceptAll, foldl_andOnly, foldl_andExcept]
  simp [Pruner.spec, Pruner.maxAge, Pruner.maxLength, Pruner.only, Pruner.except, IntoSpec.intoSpec,
    PruneSpec.Selects]

example : ((Pruner.maxAge (5 * sec) .complete).onlyAll "mail" ["push"]).spec.Selects
    { sampleJob 1 with status := .complete } := by decide

/-! ## Configurations -/

/-- One builder call on a `PrunerConfig`. -/
inductive ConfigCall where
  | maxConcurrency (limit : Option Nat)
  | pruner {T : Type} [IntoSpec T] (p : Pruner T)
  | pruners {T : Type} [IntoSpec T] (ps : List (Pruner T))

/-- The call made on a configuration. -/
def PrunerConfig.apply (c : PrunerConfig) : ConfigCall → PrunerConfig
  | .maxConcurrency limit => c.withMaxConcurrency limit
  | @ConfigCall.pruner _ _ p => c.withPruner p
  | @ConfigCall.pruners _ _ ps => c.withPruners ps

/-- The pruners a call adds. -/
def ConfigCall.adds : ConfigCall → List PruneSpec
  | .maxConcurrency _ => []
  | @ConfigCall.pruner _ _ p => [p.spec]
  | @ConfigCall.pruners _ _ ps => ps.map (·.spec)

/-- The limit a call sets. -/
def ConfigCall.limit? : ConfigCall → Option (Option Nat)
  | .maxConcurrency limit => some limit
  | _ => none

/-- **C41, configuration.** After every chain of builder calls the configured pruners are
those of the calls, in the order of the calls, none lost and none added, and the limit is
the one given last, ten if none was given. -/
theorem C41_config (cs : List ConfigCall) :
    (cs.foldl PrunerConfig.apply .new).pruners = cs.flatMap (·.adds) ∧
    (cs.foldl PrunerConfig.apply .new).maxConcurrency = ((cs.filterMap (·.limit?)).getLast?).getD (some 10) := by
  have h : ∀ (c : PrunerConfig), (cs.foldl PrunerConfig.apply c).pruners = c.pruners ++ cs.flatMap (·.adds) ∧
      (cs.foldl PrunerConfig.apply c).maxConcurrency = ((cs.filterMap (·.limit?)).getLast?).getD c.maxConcurrency := by
    induction cs with
    | nil => simp
    | cons k ks ih =>
      intro c
      obtain ⟨h1, h2⟩ := ih (c.apply k)
      rw [List.foldl_cons, h1, h2]
      cases k with
      | maxConcurrency l =>
        simp only [PrunerConfig.apply, PrunerConfig.withMaxConcurrency, List.flatMap_cons, ConfigCall.adds,
          List.nil_append, true_and, List.filterMap_cons, ConfigCall.limit?, List.getLast?_cons, Option.getD_some]
      | pruner p => simp [PrunerConfig.apply, PrunerConfig.withPruner, ConfigCall.adds, ConfigCall.limit?]
      | pruners ps => simp [PrunerConfig.apply, PrunerConfig.withPruners, ConfigCall.adds, ConfigCall.limit?]
  have := h .new
  simpa [PrunerConfig.new] using this

example : (([.pruner (Pruner.maxAge (5 * sec) .complete), .maxConcurrency none,
      .pruners [(Pruner.maxLength 3 .discarded).only "mail", (Pruner.maxLength 4 .complete).only "push"],
      .maxConcurrency (some 3)] : List ConfigCall).foldl PrunerConfig.apply .new).pruners.map (·.pruneBy)
    = [.maxAge (5 * sec), .maxLength 3, .maxLength 4] := by
  decide

/-! ## One run -/

private structure RunInv (c : PrunerConfig) (s : PruneRun) : Prop where
  split : s.calls.map (·.spec) ++ s.waiting = c.pruners
  logged : s.logged = (s.calls.take s.yielded).filterMap fun k => k.returned.join
  returned : ∀ k ∈ s.calls.take s.yielded, k.returned.isSome = true
  le : s.yielded ≤ s.calls.length

private theorem runInv_step {c : PrunerConfig} {s : PruneRun} (H : RunInv c s) (a : PruneAct) :
    RunInv c (s.step a) := by
  obtain ⟨h1, h2, h3, h4⟩ := H
  cases a with
  | start =>
    simp only [PruneRun.step]
    split
    · exact ⟨h1, h2, h3, h4⟩
    · rename_i p ps hw
      refine ⟨by rw [← h1, hw]; simp, ?_, ?_, by simp; omega⟩
      · simp only [List.take_append_of_le_length h4]; exact h2
      · simp only [List.take_append_of_le_length h4]; exact h3
  | return_ i err =>
    simp only [PruneRun.step]
    split
    · rename_i p hc
      have hlt := (List.getElem?_eq_some_iff.mp hc).1
      have hge : s.yielded ≤ i := by
        apply Nat.le_of_not_lt
        intro hlt'
        have : ({ spec := p, returned := none } : PruneCall) ∈ s.calls.take s.yielded :=
          List.mem_iff_getElem?.mpr ⟨i, by rw [List.getElem?_take, if_pos hlt', hc]⟩
        have := h3 _ this
        simp at this
      have htake : (s.calls.set i { spec := p, returned := some err }).take s.yielded = s.calls.take s.yielded := by
        rw [List.take_set_of_le hge]
      refine ⟨?_, ?_, ?_, by simpa using h4⟩
      · rw [← h1]
        congr 1
        refine List.ext_getElem? fun n => ?_
        simp only [List.getElem?_map, List.getElem?_set]
        split
        · rename_i he
          subst he
          rw [hc]; simp only [hlt, if_true, Option.map_some]
        · rfl
      · simp only [htake]; exact h2
      · simp only [htake]; exact h3
    · exact ⟨h1, h2, h3, h4⟩
  | yield =>
    simp only [PruneRun.step]
    split
    · rename_i p err hc
      have hlt := (List.getElem?_eq_some_iff.mp hc).1
      have htake : s.calls.take (s.yielded + 1) = s.calls.take s.yielded ++ [{ spec := p, returned := some err }] := by
        rw [List.take_add_one, hc]; rfl
      refine ⟨h1, ?_, ?_, hlt⟩
      · simp only [htake, List.filterMap_append]
        rw [← h2]
        cases err <;> simp
      · intro k hk
        simp only [htake, List.mem_append, List.mem_singleton] at hk
        rcases hk with hk | rfl
        · exact h3 k hk
        · rfl
    · exact ⟨h1, h2, h3, h4⟩

private theorem runInv_run {c : PrunerConfig} {s : PruneRun} (H : RunInv c s) (as : List PruneAct) :
    RunInv c (s.run as) := by
  induction as generalizing s with
  | nil => exact H
  | cons a as ih => exact ih (runInv_step H a)

/-- **C41.** In every pruner run, however the calls overlap and whichever of them fail: the
prune calls made so far are those of the first configured pruners, in order, each exactly
once; when the run has finished every configured pruner has been called exactly once and
has returned, and the errors logged are exactly those returned, in order. -/
theorem C41_each_once (c : PrunerConfig) (as : List PruneAct) :
    ((c.prune.run as).calls.map (·.spec)) <+: c.pruners ∧
    ((c.prune.run as).finished = true →
      (c.prune.run as).calls.map (·.spec) = c.pruners ∧
      (∀ k ∈ (c.prune.run as).calls, k.returned.isSome = true) ∧
      (c.prune.run as).logged = (c.prune.run as).calls.filterMap fun k => k.returned.join) := by
  obtain ⟨h1, h2, h3, h4⟩ := runInv_run (s := c.prune) (c := c)
    ⟨by simp [PrunerConfig.prune], by simp [PrunerConfig.prune], by simp [PrunerConfig.prune],
      by simp [PrunerConfig.prune]⟩ as
  refine ⟨⟨_, h1⟩, fun hf => ?_⟩
  simp only [PruneRun.finished, Bool.and_eq_true, List.isEmpty_iff, beq_iff_eq] at hf
  rw [hf.1, List.append_nil] at h1
  rw [hf.2, List.take_length] at h2 h3
  exact ⟨h1, h3, h2⟩

/-- **C41, progress.** A run can always go on to finish, whatever has failed: from every
state some further actions lead to a finished run. -/
theorem C41_can_finish (c : PrunerConfig) (as : List PruneAct) :
    ∃ bs, ((c.prune.run as).run bs).finished = true := by
  have happ : ∀ (s : PruneRun) (as bs : List PruneAct), s.run (as ++ bs) = (s.run as).run bs := by
    intro s as bs
    induction as generalizing s with
    | nil => rfl
    | cons a as ih => exact ih _
  -- first start everything
  have hstart : ∀ s : PruneRun, ∃ bs, (s.run bs).waiting = [] := by
    intro s
    generalize hw : s.waiting = w
    induction w generalizing s with
    | nil => exact ⟨[], hw⟩
    | cons p ps ih =>
      obtain ⟨bs, hb⟩ := ih (s.step .start) (by simp [PruneRun.step, hw])
      exact ⟨.start :: bs, hb⟩
  -- then return and hand on one after the other
  have hdrain : ∀ (n : Nat) (s : PruneRun), s.waiting = [] → s.yielded + n = s.calls.length →
      ∃ bs, (s.run bs).finished = true := by
    intro n
    induction n with
    | zero => intro s hw hn; exact ⟨[], by simp [PruneRun.run, PruneRun.finished, hw]; omega⟩
    | succ n ih =>
      intro s hw hn
      have hlt : s.yielded < s.calls.length := by omega
      obtain ⟨k, hk⟩ : ∃ k, s.calls[s.yielded]? = some k := ⟨s.calls[s.yielded], by simp⟩
      obtain ⟨p, r⟩ := k
      cases r with
      | some err =>
        obtain ⟨bs, hb⟩ := ih (s.step .yield) (by simp [PruneRun.step, hk, hw])
          (by simp [PruneRun.step, hk]; omega)
        exact ⟨.yield :: bs, hb⟩
      | none =>
        have h1 : s.step (.return_ s.yielded none) =
            { s with calls := s.calls.set s.yielded { spec := p, returned := some none } } := by
          simp only [PruneRun.step, hk]
        obtain ⟨bs, hb⟩ := ih ((s.step (.return_ s.yielded none)).step .yield)
          (by rw [h1]; simp [PruneRun.step, hlt, hw]) (by rw [h1]; simp [PruneRun.step, hlt]; omega)
        exact ⟨.return_ s.yielded none :: .yield :: bs, hb⟩
  obtain ⟨bs, hb⟩ := hstart (c.prune.run as)
  have hle : ((c.prune.run as).run bs).yielded ≤ ((c.prune.run as).run bs).calls.length := by
    rw [← happ]
    exact (runInv_run (s := c.prune) (c := c)
      ⟨by simp [PrunerConfig.prune], by simp [PrunerConfig.prune], by simp [PrunerConfig.prune],
        by simp [PrunerConfig.prune]⟩ (as ++ bs)).le
  obtain ⟨ds, hd⟩ := hdrain _ _ hb (Nat.add_sub_cancel' hle)
  exact ⟨bs ++ ds, by rw [happ]; exact hd⟩

/-- Two pruners, the first fails, the second still runs. -/
def samplePruners : PrunerConfig :=
  (PrunerConfig.new.withPruner (Pruner.maxAge (5 * sec) .complete)).withPruner
    ((Pruner.maxLength 3 .discarded).only "mail")

example : ((samplePruners.prune.run [.start, .start, .return_ 1 none, .return_ 0 (some .badState), .yield, .yield]).finished = true) ∧
    (samplePruners.prune.run [.start, .start, .return_ 1 none, .return_ 0 (some .badState), .yield, .yield]).logged = [.badState] := by
  decide

/-- **C41, effect in memory.** A pruner run on the in-memory backend removes only jobs some
configured pruner selects; every other job is kept, unchanged and in order. -/
theorem C41_memory (now : Time) (m : Mem) (c : PrunerConfig) :
    (m.pruneAll now c).jobs.Sublist m.jobs ∧
    (m.pruneAll now c).jobs.filter (fun k => ∀ spec ∈ c.pruners, ¬ spec.Selects k.job)
      = m.jobs.filter (fun k => ∀ spec ∈ c.pruners, ¬ spec.Selects k.job) := by
  unfold Mem.pruneAll
  generalize hps : c.pruners = ps
  have : ∀ (qs : List PruneSpec), (∀ q ∈ qs, q ∈ ps) → ∀ m : Mem,
      (qs.foldl (fun m spec => m.prune now spec) m).jobs.Sublist m.jobs ∧
      (qs.foldl (fun m spec => m.prune now spec) m).jobs.filter (fun k => ∀ spec ∈ ps, ¬ spec.Selects k.job)
        = m.jobs.filter (fun k => ∀ spec ∈ ps, ¬ spec.Selects k.job) := by
    intro qs
    induction qs with
    | nil => intro _ m; exact ⟨List.Sublist.refl _, rfl⟩
    | cons q qs ih =>
      intro hq m
      obtain ⟨h1, h2⟩ := ih (fun x hx => hq x (List.mem_cons_of_mem _ hx)) (m.prune now q)
      refine ⟨h1.trans (prune_sublist now q m), h2.trans ?_⟩
      have hframe := (C15_prune_frame now q m).2.2.1
      have key : ∀ l : List KeyedJob, l.filter (fun k => ∀ spec ∈ ps, ¬ spec.Selects k.job) =
          (l.filter (fun k => ¬ q.Selects k.job)).filter (fun k => ∀ spec ∈ ps, ¬ spec.Selects k.job) := by
        intro l
        rw [List.filter_filter]
        apply List.filter_congr
        intro k _
        rw [Bool.eq_iff_iff]
        simp only [Bool.and_eq_true, decide_eq_true_eq]
        exact ⟨fun h => ⟨h, h q (hq q (by simp))⟩, fun h => h.1⟩
      rw [key, key m.jobs]
      congr 1
  exact this ps (fun _ h => h) m

example : ((storeOf [{ sampleJob 1 with status := .complete }, sampleJob 2]).pruneAll (9 * sec) samplePruners).jobs.map (·.job.id) = [2] := by
  decide

/-! ## When runs happen -/

private theorem pruneTurn_spec {s : Schedule} {t : Time} {l : Lags} {x : PruneTurn} (h : pruneTurn s t l = some x) :
    s.next t = some x.tick ∧ x.began = t ∧ x.tick - 10 * ms ≤ x.at' ∧ t ≤ x.at' ∧ x.at' ≤ x.done ∧
    x.done ≤ x.again ∧ x.tick ≤ x.again := by
  unfold pruneTurn at h
  split at h
  · simp at h
  · rename_i n hn
    simp only [Option.some.injEq] at h
    subst h
    simp only [Time, Delta, ms] at *
    refine ⟨hn, trivial, ?_, ?_, ?_, ?_, ?_⟩
    all_goals first | omega | (split <;> omega)

/-- **C41, timing.** For every schedule and every pattern of delays: each pruner run is for
a tick of the schedule and starts no earlier than 10 ms before it, runs do not overlap,
and the ticks strictly increase, so no tick is served twice. -/
theorem C41_timing (s : Schedule) (t : Time) (ls : List Lags) :
    (∀ x ∈ pruneLoop s t ls, s.tick x.tick ∧ t < x.tick ∧ t ≤ x.at' ∧ x.tick - 10 * ms ≤ x.at' ∧ x.at' ≤ x.done) ∧
    (pruneLoop s t ls).Pairwise fun x y => x.tick < y.tick ∧ x.done ≤ y.at' := by
  induction ls generalizing t with
  | nil => exact ⟨by simp [pruneLoop], .nil⟩
  | cons l ls ih =>
    simp only [pruneLoop]
    split
    · exact ⟨by simp, .nil⟩
    · rename_i y hy
      obtain ⟨h1, h2, h3, h4, h5, h6, h7⟩ := pruneTurn_spec hy
      obtain ⟨ih1, ih2⟩ := ih y.again
      have ha := s.next_after h1
      refine ⟨?_, .cons ?_ ih2⟩
      · intro x hx
        rcases List.mem_cons.mp hx with rfl | hx
        · exact ⟨s.next_tick h1, ha, h4, h3, h5⟩
        · obtain ⟨g1, g2, g3, g4, g5⟩ := ih1 x hx
          simp only [Time] at *
          exact ⟨g1, by omega, by omega, g4, g5⟩
      · intro z hz
        obtain ⟨g1, g2, g3, g4, g5⟩ := ih1 z hz
        simp only [Time] at *
        exact ⟨by omega, by omega⟩

example : (pruneLoop everySecond 0 [⟨0, 0, 5, 0⟩, ⟨1, 2, 3, 4⟩]).map (·.tick) = [1 * sec, 2 * sec] := by decide

/-! ## C57 -/

/-- **C57 fails.** With `max_concurrency` set to one and two pruners, both prune calls are
in progress at once: the limit applies only to the logging of errors. -/
theorem C57_violated :
    ∃ (c : PrunerConfig) (as : List PruneAct), c.maxConcurrency = some 1 ∧ 1 < (c.prune.run as).inFlight :=
  ⟨samplePruners.withMaxConcurrency (some 1), [.start, .start], rfl, by decide⟩

private theorem start_all (ps : List PruneSpec) (s : PruneRun) (h : s.waiting = ps) :
    (s.run (List.replicate ps.length .start)).inFlight = s.inFlight + ps.length := by
  induction ps generalizing s with
  | nil => rfl
  | cons p ps ih =>
    simp only [List.length_cons, List.replicate_succ, PruneRun.run]
    have hs : s.step .start = { s with waiting := ps, calls := s.calls ++ [{ spec := p }] } := by
      simp only [PruneRun.step, h]
    rw [hs, ih _ rfl]
    simp only [PruneRun.inFlight, List.countP_append, List.countP_cons, List.countP_nil]
    simp
    omega

/-- **C57, exactly which limits are kept.** Whatever limit is configured: `n` calls are never
exceeded if and only if there are at most `n` pruners, since all calls can be in progress at once. -/
theorem C57_exactly (c : PrunerConfig) (n : Nat) :
    (∀ as, (c.prune.run as).inFlight ≤ n) ↔ c.pruners.length ≤ n := by
  constructor
  · intro h
    have := h (List.replicate c.pruners.length .start)
    rw [start_all c.pruners c.prune rfl] at this
    simpa [PrunerConfig.prune, PruneRun.inFlight] using this
  · intro h as
    have := (C41_each_once c as).1.length_le
    rw [List.length_map] at this
    exact Nat.le_trans (Nat.le_trans List.countP_le_length this) h

/-- **C57, what holds.** There are never more calls in progress than configured pruners, so
a limit at least that large is respected. Missing: every smaller limit. -/
theorem C57_small_config_partial (c : PrunerConfig) (limit : Nat) (_ : c.maxConcurrency = some limit)
    (h : c.pruners.length ≤ limit) (as : List PruneAct) : (c.prune.run as).inFlight ≤ limit := by
  have := (C41_each_once c as).1.length_le
  rw [List.length_map] at this
  exact Nat.le_trans (Nat.le_trans List.countP_le_length this) h

example : samplePruners.maxConcurrency = some 10 ∧ samplePruners.pruners.length ≤ 10 ∧
    (samplePruners.prune.run [.start, .start]).inFlight = 2 := by decide

end Rexecutor
