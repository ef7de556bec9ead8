import Verif.Model.Poison
import Verif.Spec.Range
import Verif.Props.CronStop
import Verif.Spec.Samples

/-! # C90, C91: calls that take the backend or the pruner down -/

namespace Rexecutor

/-- The times `age` before and after `now` are within the range of `DateTime<Utc>`. -/
def PruneSpec.Fits (now : Time) (s : PruneSpec) : Prop :=
  ∀ age, s.pruneBy = .maxAge age → Representable (now - age) ∧ Representable (now + age)

instance instDecidableFits (now : Time) (s : PruneSpec) : Decidable (s.Fits now) :=
  match h : s.pruneBy with
  | .maxLength _ => .isTrue fun age hage => by rw [h] at hage; simp at hage
  | .maxAge d =>
    if hd : Representable (now - d) ∧ Representable (now + d) then
      .isTrue fun age hage => by rw [h] at hage; cases hage; exact hd
    else .isFalse fun hf => hd (hf d h)

/-- The call is one that looks at or changes the stored jobs. -/
def Op.UsesJobs : Op → Prop
  | .subscribe _ | .notifyAll => False
  | _ => True

instance instDecidableUsesJobs (o : Op) : Decidable o.UsesJobs := by
  cases o <;> simp only [Op.UsesJobs] <;> infer_instance

/-- The event shows that this call has failed: a hand-out panics, everything else returns
`BadState`. -/
def LockEv.FailsFor : Op → LockEv → Prop
  | .load _, ev => ev = .panicked
  | _, ev => ev = .badState

/-- The event is an enqueue call storing a job or writing one back. -/
def LockEv.Stores : LockEv → Prop
  | .ok (.inserted ..) | .ok (.wrote ..) => True
  | _ => False

private theorem panicsMem_iff (now : Time) (s : PruneSpec) : s.panicsMem now = true ↔ ¬ s.Fits now := by
  unfold PruneSpec.panicsMem PruneSpec.Fits
  cases h : s.pruneBy with
  | maxLength n => simp
  | maxAge d =>
    simp only [addTime_eq, Bool.or_eq_true, Option.isNone_iff_eq_none, ite_eq_right_iff, PruneBy.maxAge.injEq,
      forall_eq', reduceCtorEq, imp_false]
    simp only [Representable, Time, Delta] at *
    constructor
    · intro hh hf; rcases hh with hh | hh <;> exact hh (by omega)
    · intro hf
      by_cases h1 : Representable (now + -d)
      · right; intro h2; refine hf ?_; simp only [Representable, Time, Delta] at *; omega
      · left; exact h1

theorem step_healthy {s : Locked} (hs : s.poisoned = false) {now : Time} {a : Act}
    (h : ∀ spec, a = .op (.prune spec) → spec.Fits now) :
    s.step now a = (.ok (s.conc.step now a).1, { s with conc := (s.conc.step now a).2 }) := by
  unfold Locked.step
  rw [if_neg (by simp [hs])]
  split
  · rename_i spec
    have := h spec rfl
    rw [if_neg (by rw [panicsMem_iff]; exact fun hn => hn this)]
  · rfl

/-- **C90, partial: what does not take the in-memory backend down.** For every healthy
backend and every schedule of any calls by any number of clients and streams: if no age of
an age-pruning call reaches beyond the range of `DateTime<Utc>`, the lock is never poisoned
and every call behaves as in the model without poisoning. The missing part is false
(`C90_violated`). -/
theorem C90_goes_on_partial (s : Locked) (hs : s.poisoned = false) (acts : List TAct)
    (h : ∀ a ∈ acts, ∀ spec, a.act = .op (.prune spec) → spec.Fits a.now) :
    s.run acts = { conc := s.conc.run acts, poisoned := false } ∧
    s.trace acts = (s.conc.trace acts).map (LockEv.ok ·.ev) := by
  induction acts generalizing s with
  | nil => cases s; simp_all [Locked.run, Locked.trace, Conc.run, Conc.trace]
  | cons a as ih =>
    have hst := step_healthy hs (h a (by simp))
    have := ih { s with conc := (s.conc.step a.now a.act).2 } hs (fun b hb => h b (by simp [hb]))
    simp only [Locked.run, Locked.trace, Conc.run, Conc.trace, hst, this, List.map_cons, and_self]

example : ∀ a ∈ [call 0 (.prune (Pruner.maxAge (5 * sec) .complete).spec), call 7 (.load "mail")],
    ∀ spec, a.act = .op (.prune spec) → spec.Fits a.now := by
  intro a ha spec hspec
  simp only [List.mem_cons, List.not_mem_nil, or_false] at ha
  rcases ha with rfl | rfl
  · simp only [call, Act.op.injEq, Op.prune.injEq] at hspec
    subst hspec
    simp only [PruneSpec.Fits, Pruner.spec, Pruner.maxAge, PruneBy.maxAge.injEq, forall_eq']
    simp only [Representable, Time, Delta, call, sec]
    omega
  · simp [call] at hspec

private theorem advance_jobs {m : Mem} {now : Time} {p : Pending} :
    (m.advancePoisoned now p).2.2.jobs = m.jobs ∧ ¬ (m.advancePoisoned now p).1.Stores := by
  cases p with
  | start e =>
    simp only [Mem.advancePoisoned]
    cases hc : e.criteria with
    | none => simp [Mem.advance, hc, LockEv.Stores]
    | some uc => simp [LockEv.Stores]
  | pushed id e =>
    simp only [Mem.advancePoisoned, Mem.advance, Mem.notify, LockEv.Stores, not_false_eq_true, and_true]
    split <;> rfl
  | _ => simp [Mem.advancePoisoned, Mem.advance, LockEv.Stores]

theorem step_poisoned {s : Locked} (hs : s.poisoned = true) (now : Time) (a : Act) :
    (s.step now a).2.poisoned = true ∧ (s.step now a).2.conc.mem.jobs = s.conc.mem.jobs ∧
    ¬ (s.step now a).1.Stores ∧ (∀ o, a = .op o → o.UsesJobs → (s.step now a).1.FailsFor o) := by
  unfold Locked.step
  rw [if_pos hs]
  refine ⟨hs, ?_⟩
  cases a with
  | start e => simp [Conc.stepPoisoned, Conc.step, LockEv.Stores]
  | advance i =>
    simp only [Conc.stepPoisoned]
    cases hc : s.conc.calls[i]? with
    | none => simp [LockEv.Stores]
    | some p =>
      have := @advance_jobs s.conc.mem now p
      simp only [reduceCtorEq, false_implies, implies_true, and_true]
      exact this
  | op o => cases o <;> simp [Conc.stepPoisoned, Conc.step, Mem.step, Mem.subscribe, Mem.notifyAll, LockEv.Stores, LockEv.FailsFor, Op.UsesJobs]

/-- **C90: exactly what takes the in-memory backend down.** For every healthy backend and
every schedule: the lock is poisoned in the end if and only if one of the calls was a
pruning call with an age that reaches beyond the range of `DateTime<Utc>` from the time of
the call. -/
theorem C90_exactly (s : Locked) (hs : s.poisoned = false) (acts : List TAct) :
    (s.run acts).poisoned = true ↔ ∃ a ∈ acts, ∃ spec, a.act = .op (.prune spec) ∧ ¬ spec.Fits a.now := by
  constructor
  · intro h
    refine Classical.byContradiction fun hn => ?_
    have := (C90_goes_on_partial s hs acts fun a ha spec hspec =>
      Classical.byContradiction fun hf => hn ⟨a, ha, spec, hspec, hf⟩).1
    rw [this] at h
    cases h
  · rintro ⟨a, ha, spec, hspec, hf⟩
    have stays : ∀ (as : List TAct) (s : Locked), s.poisoned = true → (s.run as).poisoned = true := by
      intro as
      induction as with
      | nil => intro s h; exact h
      | cons b bs ih => intro s h; exact ih _ (step_poisoned h b.now b.act).1
    clear hs
    induction acts generalizing s with
    | nil => cases ha
    | cons b bs ih =>
      rcases List.mem_cons.mp ha with rfl | hb
      · refine stays bs _ ?_
        by_cases hp : s.poisoned = true
        · exact (step_poisoned hp _ _).1
        · rw [hspec]
          simp only [Locked.step, hp, Bool.false_eq_true, if_false, (panicsMem_iff a.now spec).mpr hf, if_true]
      · exact ih _ hb

example : ((⟨{}, false⟩ : Locked).run
    [call 0 (.subscribe "mail"), call 5 (.prune (Pruner.maxAge deltaMax .complete).spec), call 7 (.load "mail")]).poisoned = true := by
  decide

/-- **C90: it never recovers.** Once the lock is poisoned, then for every schedule: it stays
poisoned, the stored jobs stay as they are, no enqueue stores anything, and every call that
uses the stored jobs fails: a hand-out to a stream by a panic, every other call with `BadState`. -/
theorem C90_never_recovers (s : Locked) (hs : s.poisoned = true) (acts : List TAct) :
    (s.run acts).poisoned = true ∧ (s.run acts).conc.mem.jobs = s.conc.mem.jobs ∧
    (∀ ev ∈ s.trace acts, ¬ ev.Stores) ∧
    (∀ (i : Nat) a o, acts[i]? = some a → a.act = .op o → o.UsesJobs → ∃ ev, (s.trace acts)[i]? = some ev ∧ ev.FailsFor o) := by
  induction acts generalizing s with
  | nil => simp [Locked.run, Locked.trace, hs]
  | cons b bs ih =>
    obtain ⟨h1, h2, h3, h4⟩ := step_poisoned hs b.now b.act
    obtain ⟨i1, i2, i3, i4⟩ := ih _ h1
    refine ⟨i1, i2.trans h2, ?_, ?_⟩
    · intro ev hev
      simp only [Locked.trace, List.mem_cons] at hev
      rcases hev with rfl | hev
      · exact h3
      · exact i3 ev hev
    · intro i a o hi ho hu
      cases i with
      | zero =>
        simp only [List.getElem?_cons_zero, Option.some.injEq] at hi
        subst hi
        exact ⟨_, by simp [Locked.trace], h4 o ho hu⟩
      | succ i =>
        simp only [List.getElem?_cons_succ] at hi
        obtain ⟨ev, he, hf⟩ := i4 i a o hi ho hu
        exact ⟨ev, by simpa [Locked.trace] using he, hf⟩

/-- **C90 is false of the code.** For every healthy backend, whatever is stored, and every
clock reading: an age pruner with the longest `TimeDelta` ("never remove anything") panics
inside the lock and poisons it, and the next enqueue of any job without criteria takes an
id, fails and stores nothing. -/
theorem C90_violated (s : Locked) (hs : s.poisoned = false) (now now' : Time)
    (hnow : Representable now) (st : JobStatus) (e : EnqueuableJob) (he : e.criteria = none) :
    let s₁ := (s.step now (.op (.prune (Pruner.maxAge deltaMax st).spec))).2
    (s.step now (.op (.prune (Pruner.maxAge deltaMax st).spec))).1 = .panicked ∧ s₁.poisoned = true ∧
    s₁.trace (enqSteps now' s.conc.calls.length e) =
      [.ok (.began e), .ok (.allocated (wrapI32 s.conc.mem.allocated)), .badState, .ok .nothing] ∧
    (s₁.run (enqSteps now' s.conc.calls.length e)).conc.mem.jobs = s.conc.mem.jobs := by
  have hp : (Pruner.maxAge deltaMax st).spec.panicsMem now = true := by
    rw [panicsMem_iff]
    intro hf
    have := hf deltaMax rfl
    simp only [Representable, Time, Delta, deltaMax, i64Max] at *
    omega
  have h1 : s.step now (.op (.prune (Pruner.maxAge deltaMax st).spec)) = (.panicked, { s with poisoned := true }) := by
    simp only [Locked.step, hs, Bool.false_eq_true, if_false, hp, if_true]
  simp only [h1, true_and]
  refine ⟨?_, (C90_never_recovers { s with poisoned := true } rfl _).2.1⟩
  simp [enqSteps, Locked.trace, Locked.step, Conc.stepPoisoned, Conc.step, Mem.advancePoisoned, Mem.advance, he]

/-! ## The pruner -/

private theorem calls_all {panics : Time → PruneSpec → Bool} {now : Time} {ps : List PruneSpec}
    (h : ∀ p ∈ ps, panics now p = false) : PrunerConfig.calls panics now ps = (ps, true) := by
  induction ps with
  | nil => rfl
  | cons p ps ih =>
    rw [PrunerConfig.calls, if_neg (by simp [h p (by simp)]), ih (fun q hq => h q (by simp [hq]))]

private theorem calls_stop {panics : Time → PruneSpec → Bool} {now : Time} {pre post : List PruneSpec} {bad : PruneSpec}
    (h : panics now bad = true) :
    (PrunerConfig.calls panics now (pre ++ bad :: post)).2 = false ∧
    (PrunerConfig.calls panics now (pre ++ bad :: post)).1 <+: pre := by
  induction pre with
  | nil => simp [PrunerConfig.calls, h]
  | cons p ps ih =>
    simp only [List.cons_append, PrunerConfig.calls]
    by_cases hp : panics now p = true
    · simp [hp]
    · rw [if_neg hp]
      exact ⟨ih.1, (List.cons_prefix_cons).mpr ⟨rfl, ih.2⟩⟩

private theorem panicsPg_fits {now : Time} {p : PruneSpec} (h : p.Fits now) : p.panicsPg now = false := by
  unfold PruneSpec.panicsPg
  cases hp : p.pruneBy with
  | maxLength n => rfl
  | maxAge d =>
    have := h d hp
    have h1 : (addTime now d).isNone = false := by
      simp only [addTime_eq]; rw [if_pos (by simp only [Representable, Time, Delta] at *; omega)]; rfl
    have h2 : (addTime now (-d)).isNone = false := by
      simp only [addTime_eq]; rw [if_pos (by simp only [Representable, Time, Delta] at *; omega)]; rfl
    simp only [h1, h2]
    split <;> rfl

/-- **C91, partial: the pruner keeps running.** On both backends, for every schedule,
configuration and lags: if at the time of each turn all configured ages stay within the
range of `DateTime<Utc>`, the pruner makes the same turns as the model without panics, and
in each of them it carries out every configured pruner, in order. The missing part is false
(`C91_violated`). -/
theorem C91_keeps_pruning_partial (c : PrunerConfig) (s : Schedule) (t : Time) (ls : List Lags)
    (h : ∀ turn ∈ pruneLoop s t ls, ∀ p ∈ c.pruners, p.Fits turn.at') :
    prunerLoop (fun now p => p.panicsMem now) c s t ls = (pruneLoop s t ls).map (·, c.pruners) ∧
    prunerLoop (fun now p => p.panicsPg now) c s t ls = (pruneLoop s t ls).map (·, c.pruners) := by
  induction ls generalizing t with
  | nil => simp [prunerLoop, pruneLoop]
  | cons l ls ih =>
    simp only [prunerLoop, pruneLoop] at h ⊢
    cases ht : pruneTurn s t l with
    | none => simp
    | some turn =>
      rw [ht] at h
      simp only [List.mem_cons, forall_eq_or_imp] at h
      have := ih turn.again h.2
      simp only
      rw [calls_all (fun p hp => by
            have := h.1 p hp
            cases hb : p.panicsMem turn.at' with
            | false => rfl
            | true => exact absurd this ((panicsMem_iff _ _).mp hb)),
        calls_all (fun p hp => panicsPg_fits (h.1 p hp))]
      simp [this]

example : ∀ turn ∈ pruneLoop everySecond 0 [⟨0, 0, 0, 0⟩, ⟨5, 6, 7, 8⟩],
    ∀ p ∈ [(Pruner.maxAge (5 * sec) .complete).spec, (Pruner.maxLength 3 .discarded).spec], p.Fits turn.at' := by
  decide

/-- **C91 is false of the code.** On both backends, for every schedule, starting time and
lags: if one of the pruners is an age pruner with the longest `TimeDelta`, the pruner makes
at most one turn, and never carries out that pruner or any configured after it. -/
theorem C91_violated (c : PrunerConfig) (pre post : List PruneSpec) (st : JobStatus)
    (hc : c.pruners = pre ++ (Pruner.maxAge deltaMax st).spec :: post) (s : Schedule) (t : Time) (ls : List Lags)
    (hclock : ∀ turn ∈ pruneLoop s t ls, Representable turn.at') :
    (prunerLoop (fun now p => p.panicsMem now) c s t ls).length ≤ 1 ∧
    (prunerLoop (fun now p => p.panicsPg now) c s t ls).length ≤ 1 ∧
    (∀ x ∈ prunerLoop (fun now p => p.panicsMem now) c s t ls, x.2 <+: pre) ∧
    (∀ x ∈ prunerLoop (fun now p => p.panicsPg now) c s t ls, x.2 <+: pre) := by
  cases ls with
  | nil => simp [prunerLoop]
  | cons l ls =>
    simp only [prunerLoop, pruneLoop] at hclock ⊢
    cases ht : pruneTurn s t l with
    | none => simp
    | some turn =>
      rw [ht] at hclock
      simp only [List.mem_cons, forall_eq_or_imp] at hclock
      have hr := hclock.1
      have hn : (addTime turn.at' deltaMax).isNone = true ∧ (addTime turn.at' (-deltaMax)).isNone = true := by
        simp only [addTime_eq, Option.isNone_iff_eq_none, ite_eq_right_iff, reduceCtorEq, imp_false]
        simp only [Representable, Time, Delta, deltaMax, i64Max] at *
        omega
      have hm : (Pruner.maxAge deltaMax st).spec.panicsMem turn.at' = true := by
        simp [PruneSpec.panicsMem, Pruner.spec, Pruner.maxAge, hn]
      have hp : (Pruner.maxAge deltaMax st).spec.panicsPg turn.at' = true := by
        simp only [PruneSpec.panicsPg, Pruner.spec, Pruner.maxAge, hn]
        cases st <;> rfl
      have am := calls_stop (panics := fun now p => p.panicsMem now) (pre := pre) (post := post) hm
      have ap := calls_stop (panics := fun now p => p.panicsPg now) (pre := pre) (post := post) hp
      rw [hc]
      simp only
      revert am ap
      generalize PrunerConfig.calls (fun now p => p.panicsMem now) turn.at' _ = xm
      generalize PrunerConfig.calls (fun now p => p.panicsPg now) turn.at' _ = xp
      intro am ap
      obtain ⟨m1, m2⟩ := xm
      obtain ⟨p1, p2⟩ := xp
      simp only at am ap
      obtain ⟨rfl, am⟩ := am
      obtain ⟨rfl, ap⟩ := ap
      simp [am, ap]

/-! ### Exactly -/

/-- On Postgres only the moment that is compared is computed: that after which waiting and executing jobs, or
that before which finished jobs, are pruned. It is within the range of `DateTime<Utc>`. -/
def PruneSpec.FitsPg (now : Time) (p : PruneSpec) : Prop :=
  ∀ d, p.pruneBy = .maxAge d →
    (p.status ∈ [JobStatus.scheduled, .retryable, .executing] → Representable (now + d)) ∧
    (p.status ∈ [JobStatus.complete, .cancelled, .discarded] → Representable (now - d))

private theorem panicsPg_iff (now : Time) (p : PruneSpec) : p.panicsPg now = false ↔ p.FitsPg now := by
  have add : ∀ d : Delta, (addTime now d).isNone = false ↔ Representable (now + d) := by
    intro d
    rw [addTime_eq]
    split <;> simp_all
  unfold PruneSpec.panicsPg PruneSpec.FitsPg
  cases hp : p.pruneBy with
  | maxLength n => simp
  | maxAge d =>
    have sub : now - d = now + -d := by simp only [Time, Delta] at *; omega
    cases hs : p.status <;> simp [add, sub]

private theorem calls_exactly {panics : Time → PruneSpec → Bool} {now : Time} (ps : List PruneSpec) :
    PrunerConfig.calls panics now ps = (ps, true) ∨
    ((∃ p ∈ ps, panics now p = true) ∧ (PrunerConfig.calls panics now ps).2 = false ∧ (PrunerConfig.calls panics now ps).1 ≠ ps) := by
  induction ps with
  | nil => exact .inl rfl
  | cons p ps ih =>
    rw [PrunerConfig.calls]
    by_cases hp : panics now p = true
    · rw [if_pos hp]
      exact .inr ⟨⟨p, by simp, hp⟩, rfl, by simp⟩
    · rw [if_neg hp]
      rcases ih with ih | ⟨⟨q, h1, h2⟩, h3, h4⟩
      · rw [ih]; exact .inl rfl
      · exact .inr ⟨⟨q, List.mem_cons_of_mem _ h1, h2⟩, h3, by simpa using h4⟩

private theorem prunes_iff (panics : Time → PruneSpec → Bool) (c : PrunerConfig) (s : Schedule) (t : Time) (ls : List Lags) :
    prunerLoop panics c s t ls = (pruneLoop s t ls).map (·, c.pruners) ↔
      ∀ turn ∈ pruneLoop s t ls, ∀ p ∈ c.pruners, panics turn.at' p = false := by
  induction ls generalizing t with
  | nil => simp [prunerLoop, pruneLoop]
  | cons l ls ih =>
    simp only [prunerLoop, pruneLoop]
    cases ht : pruneTurn s t l with
    | none => simp
    | some turn =>
      simp only [List.map_cons, List.mem_cons, forall_eq_or_imp]
      rcases calls_exactly (panics := panics) (now := turn.at') c.pruners with h | ⟨⟨p, h1, h2⟩, h3, h4⟩
      · rw [h]
        simp only [List.cons.injEq, true_and, ih]
        refine ⟨fun g => ⟨fun p hp => ?_, g⟩, fun g => g.2⟩
        cases hb : panics turn.at' p with
        | false => rfl
        | true =>
          obtain ⟨pre, post, e⟩ := List.append_of_mem hp
          have := (calls_stop (panics := panics) (pre := pre) (post := post) hb).1
          rw [← e, h] at this
          cases this
      · refine ⟨fun g => ?_, fun g => absurd (g.1 p h1) (by simp [h2])⟩
        revert h3 h4 g
        generalize PrunerConfig.calls panics turn.at' c.pruners = x
        obtain ⟨cs, b⟩ := x
        rintro h3 h4 g
        simp only at h3 h4
        subst h3
        simp only [List.cons.injEq, Prod.mk.injEq, true_and] at g
        exact absurd g.1 h4

/-- **C91, exactly.** The pruner makes every turn and carries out every configured pruner in each of them if and
only if the moments it computes are within the range of `DateTime<Utc>`: in memory the age is both subtracted
from and added to the time, on Postgres it is added for jobs that wait or execute and subtracted for finished
jobs. -/
theorem C91_exactly (c : PrunerConfig) (s : Schedule) (t : Time) (ls : List Lags) :
    (prunerLoop (fun now p => p.panicsMem now) c s t ls = (pruneLoop s t ls).map (·, c.pruners) ↔
      ∀ turn ∈ pruneLoop s t ls, ∀ p ∈ c.pruners, p.Fits turn.at') ∧
    (prunerLoop (fun now p => p.panicsPg now) c s t ls = (pruneLoop s t ls).map (·, c.pruners) ↔
      ∀ turn ∈ pruneLoop s t ls, ∀ p ∈ c.pruners, p.FitsPg turn.at') := by
  constructor
  · rw [prunes_iff]
    have h : ∀ now p, PruneSpec.panicsMem now p = false ↔ p.Fits now := by
      intro now p
      rw [Bool.eq_false_iff, ne_eq, panicsMem_iff, Classical.not_not]
    simp only [h]
  · rw [prunes_iff]
    simp only [panicsPg_iff]

/-- 8,300,000,000,000 seconds ago is within the range, in as many seconds is not: such a pruner of finished jobs
goes on on Postgres, and ends in memory. -/
example :
    let c : PrunerConfig := { maxConcurrency := some 10, pruners := [(Pruner.maxAge (8300000000000 * sec) .complete).spec] }
    ((prunerLoop (fun now p => p.panicsPg now) c everySecond 0 [⟨0, 0, 0, 0⟩, ⟨0, 0, 0, 0⟩]).map (·.2.length) = [1, 1]) ∧
    ((prunerLoop (fun now p => p.panicsMem now) c everySecond 0 [⟨0, 0, 0, 0⟩, ⟨0, 0, 0, 0⟩]).map (·.2.length) = [0]) := by
  decide +kernel

end Rexecutor
