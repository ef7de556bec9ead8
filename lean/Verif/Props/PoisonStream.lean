import Verif.Model.PoisonStream
import Verif.Props.Poison

/-! # C100: what a failing in-memory backend does to the runners -/

namespace Rexecutor

/-- The event is a step of stream `i`. -/
def LStEv.of (i : Nat) : LStEv → Bool
  | .errored k | .died k => k == i
  | .ok (.looked k _) | .ok (.decided k _) | .ok (.returned k _) | .ok (.slept k) | .ok (.received k) | .ok (.timedOut k) => k == i
  | _ => false

/-- Stream `i` returned a job. -/
def LStEv.returns : LStEv → Bool
  | .ok (.returned _ _) => true
  | _ => false

/-- Some stream yielded an error, or panicked. -/
def LStEv.harms : LStEv → Bool
  | .errored _ | .died _ => true
  | _ => false

/-- **C100, partial: without poisoning.** For every backend that is not poisoned, whose runners are
all there, and every schedule of calls and of streams: if no age of an age-pruning call
reaches beyond the range of `DateTime<Utc>`, no stream yields an error and no runner is lost;
everything is as in the model without poisoning. The missing part is false (`C100_violated`). -/
theorem C100_outlives_partial (s : LStreams) (hs : s.poisoned = false) (hd : s.dead = []) (acts : List TStAct)
    (h : ∀ a ∈ acts, ∀ spec, a.act = .client (.op (.prune spec)) → spec.Fits a.now) :
    s.run acts = { st := s.st.run acts } ∧ s.trace acts = (s.st.trace acts).map .ok ∧
    ∀ ev ∈ s.trace acts, ev.harms = false := by
  suffices hh : s.run acts = { st := s.st.run acts } ∧ s.trace acts = (s.st.trace acts).map .ok by
    refine ⟨hh.1, hh.2, fun ev hev => ?_⟩
    rw [hh.2] at hev
    obtain ⟨e, -, rfl⟩ := List.mem_map.mp hev
    rfl
  induction acts generalizing s with
  | nil => obtain ⟨st, p, d⟩ := s; simp only at hs hd; subst hs hd; exact ⟨rfl, rfl⟩
  | cons a as ih =>
    have hst : s.step a.now a.act = (.ok (s.st.step a.now a.act).1, { st := (s.st.step a.now a.act).2 }) := by
      obtain ⟨st, p, d⟩ := s
      simp only at hs hd
      subst hs hd
      have ha := h a (by simp)
      generalize a.act = act at *
      cases act with
      | client b =>
        simp only [LStreams.step]
        rw [step_healthy rfl (fun spec hb => ha spec (by rw [hb]))]
        rfl
      | subscribe ex => rfl
      | stream i timer =>
        simp only [LStreams.step, Streams.step, List.contains_nil, Bool.false_eq_true, if_false]
        cases st.readers[i]? <;> rfl
    obtain ⟨i1, i2⟩ := ih { st := (s.st.step a.now a.act).2 } rfl rfl (fun b hb => h b (List.mem_cons_of_mem _ hb))
    simp only [LStreams.run, LStreams.trace, Streams.run, Streams.trace, hst, i1, i2, List.map_cons, and_self]

example : ∀ a ∈ [(⟨0, .subscribe "mail"⟩ : TStAct), ⟨1, .client (.op (.prune (Pruner.maxAge (5 * sec) .complete).spec))⟩, ⟨2, .stream 0 false⟩],
    ∀ spec, a.act = .client (.op (.prune spec)) → spec.Fits a.now := by
  intro a ha spec hspec
  simp only [List.mem_cons, List.not_mem_nil, or_false] at ha
  rcases ha with rfl | rfl | rfl
  · cases hspec
  · simp only [StAct.client.injEq, Act.op.injEq, Op.prune.injEq] at hspec
    subst hspec
    intro age h
    simp only [Pruner.maxAge, Pruner.spec, PruneBy.maxAge.injEq] at h
    subst h
    simp only [sec]; decide
  · cases hspec

private theorem poisoned_stays {s : LStreams} (hp : s.poisoned = true) (now : Time) (a : StAct) :
    (s.step now a).2.poisoned = true := by
  cases a with
  | client b =>
    have := (step_poisoned (s := { conc := s.st.conc, poisoned := s.poisoned }) hp now b).1
    simp only [LStreams.step]
    split <;> rename_i heq <;> rw [heq] at this <;> exact this
  | subscribe ex => exact hp
  | stream i timer =>
    simp only [LStreams.step]
    split
    · exact hp
    · split
      · exact hp
      · unfold LStreams.poisonedStep
        split
        · exact hp
        · split <;> exact hp
        · exact hp

/-- where the streams are is changed only by their own steps -/
private theorem readers_step (s : LStreams) (now : Time) (a : StAct) (i : Nat) (r : Reader) (hr : s.st.readers[i]? = some r)
    (hno : ∀ timer, a ≠ .stream i timer) : (s.step now a).2.st.readers[i]? = some r ∧
      ((s.step now a).2.dead.contains i = s.dead.contains i) ∧ (s.step now a).1.of i = false := by
  have hstream : ∀ k timer q, k ≠ i → (s.st.streamStep now timer k q).2.readers[i]? = some r ∧
      LStEv.of i (.ok (s.st.streamStep now timer k q).1) = false := by
    intro k timer q hk
    have hmod : ∀ w, (s.st.readers.modify k fun r => { r with wait := w })[i]? = some r := by
      intro w; rw [List.getElem?_modify, hr]; simp [hk]
    have hne : (k == i) = false := by simpa using hk
    unfold Streams.streamStep
    split
    · exact ⟨hmod _, by simpa [LStEv.of] using hk⟩
    · exact ⟨hmod _, by simpa [LStEv.of] using hk⟩
    · split
      · split
        · exact ⟨hmod _, by simpa [LStEv.of] using hk⟩
        · exact ⟨hmod _, by simpa [LStEv.of] using hk⟩
      · exact ⟨hmod _, by simpa [LStEv.of] using hk⟩
    · dsimp only
      split
      · exact ⟨hmod _, by simpa [LStEv.of] using hk⟩
      · split
        · exact ⟨hmod _, by simpa [LStEv.of] using hk⟩
        · exact ⟨hr, rfl⟩
  cases a with
  | client b =>
    simp only [LStreams.step]
    split <;> exact ⟨hr, rfl, rfl⟩
  | subscribe ex =>
    refine ⟨?_, rfl, rfl⟩
    simp only [LStreams.step, Streams.step]
    rw [List.getElem?_append_left (List.getElem?_eq_some_iff.mp hr).1]
    exact hr
  | stream k timer =>
    have hk : k ≠ i := fun h => hno timer (by rw [h])
    simp only [LStreams.step]
    split
    · exact ⟨hr, rfl, rfl⟩
    · rename_i q hq
      split
      · exact ⟨hr, rfl, rfl⟩
      · split
        · unfold LStreams.poisonedStep
          split
          · exact ⟨hr, rfl, by simpa [LStEv.of] using hk⟩
          · split
            · exact ⟨hr, by simp [hk.symm], by simpa [LStEv.of] using hk⟩
            · exact ⟨(hstream k timer q hk).1, rfl, (hstream k timer q hk).2⟩
          · exact ⟨(hstream k timer q hk).1, rfl, (hstream k timer q hk).2⟩
        · exact ⟨(hstream k timer q hk).1, rfl, (hstream k timer q hk).2⟩

/-- **C100: a runner on a poisoned backend spins.** From when a stream is about to look for a job
on a poisoned backend, and its runner is still there, then for every schedule: whenever it
is its turn it yields an error at once and is where it was. It never waits for anything
again, and its runner never stops by itself. -/
theorem C100_spins (s : LStreams) (hp : s.poisoned = true) (i : Nat) (r : Reader) (hr : s.st.readers[i]? = some r)
    (hw : r.wait = .ready) (hd : s.dead.contains i = false) (acts : List TStAct) :
    (s.run acts).st.readers[i]? = some r ∧ (s.run acts).dead.contains i = false ∧
    (∀ ev ∈ s.trace acts, ev.of i = true → ev = .errored i) ∧
    (s.trace acts).countP (fun ev => ev.of i) = acts.countP fun a => match a.act with | .stream k _ => k == i | _ => false := by
  induction acts generalizing s with
  | nil => exact ⟨hr, hd, by simp [LStreams.trace], rfl⟩
  | cons a as ih =>
    have hp' := poisoned_stays hp a.now a.act
    by_cases hx : ∃ timer, a.act = .stream i timer
    · obtain ⟨timer, hx⟩ := hx
      have hst : s.step a.now a.act = (.errored i, s) := by
        rw [hx]
        simp only [LStreams.step, hr, hd, Bool.false_eq_true, if_false, hp, if_true, LStreams.poisonedStep, hw]
      obtain ⟨i1, i2, i3, i4⟩ := ih s hp hr hd
      simp only [LStreams.run, LStreams.trace, hst, List.countP_cons, i4]
      refine ⟨i1, i2, ?_, by simp [LStEv.of, hx]⟩
      intro ev hev hof
      rcases List.mem_cons.mp hev with rfl | hev
      · rfl
      · exact i3 ev hev hof
    · have hno : ∀ timer, a.act ≠ .stream i timer := fun t ht => hx ⟨t, ht⟩
      obtain ⟨g1, g2, g3⟩ := readers_step s a.now a.act i r hr hno
      obtain ⟨i1, i2, i3, i4⟩ := ih _ hp' g1 (by rw [g2, hd])
      simp only [LStreams.run, LStreams.trace, List.countP_cons, i4, g3]
      refine ⟨i1, i2, ?_, ?_⟩
      · intro ev hev hof
        rcases List.mem_cons.mp hev with rfl | hev
        · rw [g3] at hof; cases hof
        · exact i3 ev hev hof
      · have : (match a.act with | .stream k _ => k == i | _ => false) = false := by
          split
          · rename_i k timer heq
            simp only [beq_eq_false_iff_ne]
            rintro rfl
            exact hno timer heq
          · rfl
        rw [this]

/-- **C100: no job runs any more.** On a poisoned backend no stream returns a job, in any
schedule. -/
theorem C100_no_jobs (s : LStreams) (hp : s.poisoned = true) (acts : List TStAct) :
    ∀ ev ∈ s.trace acts, ev.returns = false := by
  induction acts generalizing s with
  | nil => simp [LStreams.trace]
  | cons a as ih =>
    intro ev hev
    rcases List.mem_cons.mp hev with rfl | hev
    · generalize a.act = act
      cases act with
      | client b =>
        simp only [LStreams.step]
        split <;> rfl
      | subscribe ex => rfl
      | stream i timer =>
        simp only [LStreams.step]
        split
        · rfl
        · rename_i r hr
          split
          · rfl
          · unfold LStreams.poisonedStep
            split
            · rfl
            · split
              · rfl
              · rename_i hw hl
                simp only [Streams.streamStep, hw, if_neg hl]; rfl
            · rename_i h1 h2
              rcases hw : r.wait with _ | f | ⟨c, d⟩ | ⟨c, t, d⟩
              · exact absurd hw h1
              · simp only [Streams.streamStep, hw]; rfl
              · exact absurd hw (h2 _ _)
              · simp only [Streams.streamStep, hw]
                split
                · rfl
                · split <;> rfl
    · exact ih _ (poisoned_stays hp a.now a.act) ev hev

/-- Two runners, one looking for a job and one about to load the job it found, when a pruner with
the longest age runs. -/
def poisonedWhileRunning : List TStAct :=
  [⟨0, .subscribe "mail"⟩, ⟨0, .subscribe "mail"⟩] ++
  (enqSteps 0 0 sampleEnq).map (fun a => ⟨a.now, .client a.act⟩) ++
  [⟨1, .stream 1 false⟩, ⟨1, .stream 1 false⟩,
    ⟨2, .client (.op (.prune (Pruner.maxAge deltaMax .complete).spec))⟩,
    ⟨3, .stream 1 false⟩, ⟨3, .stream 0 false⟩, ⟨3, .stream 0 false⟩, ⟨3, .stream 0 false⟩]

/-- **C100: violated.** The second runner dies, the first one yields errors without pause; the job that was due is
never executed. -/
theorem C100_violated :
    (LStreams.run {} poisonedWhileRunning).poisoned = true ∧ (LStreams.run {} poisonedWhileRunning).dead = [1] ∧
    (LStreams.trace {} poisonedWhileRunning).filterMap
      (fun | .errored i => some (i, false) | .died i => some (i, true) | _ => none) =
      [(1, true), (0, false), (0, false), (0, false)] ∧
    (LStreams.run {} poisonedWhileRunning).st.conc.mem.jobs.map (fun k => (k.job.id, k.job.status)) = [(0, .scheduled)] := by
  decide

/-- `poisonedWhileRunning` leads to a state as in `C100_spins`. -/
example : (LStreams.run {} poisonedWhileRunning).st.readers[0]? = some { sub := 0, executor := "mail" } ∧
    (LStreams.run {} poisonedWhileRunning).dead.contains 0 = false := by
  decide

end Rexecutor
