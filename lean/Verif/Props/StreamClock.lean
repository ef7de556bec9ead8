import Verif.Model.StreamClock
import Verif.Props.Poll

/-!
# C135: when a clock is set, a due job waits for half a minute at most

Every action takes place at a real time. What is read off a clock during it may be anything, and
different for every action: clocks are set forwards and backwards, run fast or slow, and on Postgres
those of the nodes and that of the database differ. Timers count real time.
-/

namespace Rexecutor

private theorem shortest (now : Time) (f : Option Time) : streamDelay now f ≤ 30000000000 := by
  cases f with
  | none => simp [streamDelay, defaultDelay, sec]
  | some t =>
    simp only [streamDelay, defaultDelay, pollDelta, sec, ms, Time, Delta] at *
    split <;> omega

private theorem no_delay {now T : Time} {f : Time} (hf : f ≤ T) (h : T ≤ now) : streamDelay now (some f) ≤ 15 * ms := by
  simp only [streamDelay, defaultDelay, pollDelta, sec, ms, Time, Delta] at *
  split <;> omega

/-! ## In memory -/

/-- Stream `i`, which can make its next step from `m` on, makes that step and every later one
within `ε` of real time of when it first can. -/
def PromptAt (ε : Delta) (i : Nat) : Time → Streams → List ClockedAct → Prop
  | _, _, [] => True
  | m, s, a :: as =>
    a.real ≤ m + ε ∧
    PromptAt ε i
      (if a.act.isStream i && (s.stepAt a.real a.now a.act).1.isSomething then (s.stepAt a.real a.now a.act).2.movesFrom i a.real
       else min m ((s.stepAt a.real a.now a.act).2.movesFrom i a.real))
      (s.stepAt a.real a.now a.act).2 as

instance PromptAt.dec (ε : Delta) (i : Nat) : ∀ (m : Time) (s : Streams) (as : List ClockedAct), Decidable (PromptAt ε i m s as)
  | _, _, [] => .isTrue trivial
  | _, s, a :: as => @instDecidableAnd _ _ _ (PromptAt.dec ε i _ (s.stepAt a.real a.now a.act).2 as)

private theorem set_get {s : Streams} {i k : Nat} {r : Reader} (hr : s.readers[i]? = some r) (w : Wait) :
    (s.setWait k w).readers[i]? = some (if k = i then { r with wait := w } else r) := by
  simp only [Streams.setWait, List.getElem?_modify, hr, Option.map_some]
  split <;> rfl

/-- What others do leaves a stream where it is. -/
private theorem unmovedAt {s : Streams} {i : Nat} {r : Reader} {real now : Time} {a : StAct} (hr : s.readers[i]? = some r)
    (ha : a.isStream i = false) : (s.stepAt real now a).2.readers[i]? = some r := by
  cases a with
  | client a => exact stream_unmoved (a := .client a) hr rfl
  | subscribe x => exact stream_unmoved (now := now) (a := .subscribe x) hr rfl
  | stream k b =>
    have hk : k ≠ i := by simpa [StAct.isStream] using ha
    simp only [Streams.stepAt]
    cases hrk : s.readers[k]? with
    | none => exact hr
    | some q =>
      have set : ∀ (s' : Streams) (w : Wait), s'.readers = s.readers → (s'.setWait k w).readers[i]? = some r := by
        intro s' w h
        rw [set_get (h ▸ hr), if_neg hk]
      simp only [Streams.streamStepAt]
      cases q.wait with
      | ready => exact set s _ rfl
      | looked g => exact set s _ rfl
      | decided c d =>
        simp only
        split
        · generalize s.conc.mem.load now q.executor = z
          obtain ⟨j, m⟩ := z
          cases j with
          | some j => exact set (s.setMem m) _ rfl
          | none => exact set s _ rfl
        · exact set s _ rfl
      | asleep c since d =>
        simp only
        split
        · exact set (s.setMem _) _ rfl
        · split
          · exact set s _ rfl
          · exact hr

/-- What the steps of the stream itself lead to. -/
private theorem ownAt {s : Streams} {i : Nat} {r : Reader} {real now : Time} {b : Bool} (hr : s.readers[i]? = some r) :
    (s.stepAt real now (.stream i b)).1.isSomething = true ∧
    ((∃ j, (s.stepAt real now (.stream i b)).1 = .returned i j ∧ j.executor = r.executor ∧
      (s.stepAt real now (.stream i b)).2.readers[i]? = some { r with wait := .ready }) ∨
    (∃ w, (s.stepAt real now (.stream i b)).2.readers[i]? = some { r with wait := w } ∧
      match r.wait with
      | .ready => w = .looked (s.conc.mem.nextAvailable r.executor)
      | .looked f => w = .decided now (streamDelay now f)
      | .decided c d => w = .asleep c real d ∧
          (d ≤ pollDelta → ∀ k ∈ s.conc.mem.jobs, readyFor now r.executor k.job = false)
      | .asleep _ _ _ => w = .ready)) ∨
    ((s.stepAt real now (.stream i b)).1.isSomething = false ∧ (s.stepAt real now (.stream i b)).2 = s) := by
  simp only [Streams.stepAt, hr, Streams.streamStepAt]
  cases hw : r.wait with
  | ready => exact .inl ⟨rfl, .inr ⟨_, by rw [set_get hr, if_pos rfl], rfl⟩⟩
  | looked f => exact .inl ⟨rfl, .inr ⟨_, by rw [set_get hr, if_pos rfl], rfl⟩⟩
  | decided c d =>
    simp only
    by_cases hd : d ≤ pollDelta
    · rw [if_pos hd]
      rcases load_cases now r.executor s.conc.mem with ⟨h, h'⟩ | ⟨l, k', rr, h1, h2, h3, h4, h5⟩
      · rw [h']
        exact .inl ⟨rfl, .inr ⟨_, by rw [set_get hr, if_pos rfl], rfl, fun _ => h⟩⟩
      · rw [h5]
        refine .inl ⟨rfl, .inl ⟨_, rfl, (readyFor_iff.mp h2).1, ?_⟩⟩
        exact (set_get (s := s.setMem _) (k := i) hr .ready).trans (by rw [if_pos rfl])
    · rw [if_neg hd]
      exact .inl ⟨rfl, .inr ⟨_, by rw [set_get hr, if_pos rfl], rfl, fun h => (hd h).elim⟩⟩
  | asleep c since d =>
    simp only
    by_cases h1 : (s.conc.mem.hasMessage r.sub && !(b && decide (since + d ≤ real))) = true
    · rw [if_pos h1]
      exact .inl ⟨rfl, .inr ⟨.ready, (set_get (s := s.setMem _) (k := i) hr .ready).trans (by rw [if_pos rfl]), rfl⟩⟩
    · rw [if_neg h1]
      by_cases h2 : since + d ≤ real
      · rw [if_pos (by simpa using h2)]
        exact .inl ⟨rfl, .inr ⟨.ready, by rw [set_get hr, if_pos rfl], rfl⟩⟩
      · rw [if_neg (by simpa using h2)]
        exact .inr ⟨rfl, rfl⟩

/-- Where a stream is, as of time `t`, if it can move from `m` on. -/
private def lagAt (m t : Time) : Wait → Prop
  | .decided _ d => m ≤ t ∧ d ≤ 30000000000 ∧ 0 ≤ d
  | .asleep _ since d => since ≤ t ∧ d ≤ 30000000000 ∧ m ≤ since + d
  | _ => m ≤ t

/-- The stream is on its way to return a job due at `T`, with time to spare until half a minute
and `6 ε` after `t₁`. -/
private def nearAt (ε : Delta) (T t₁ m : Time) : Wait → Prop
  | .ready => m ≤ t₁ + 30000000000 + 3 * ε
  | .looked f => m ≤ t₁ ∨ (m ≤ t₁ + 30000000000 + 4 * ε ∧ ∃ g, f = some g ∧ g ≤ T)
  | .decided _ d => (m ≤ t₁ + ε ∧ d ≤ 30000000000) ∨ (m ≤ t₁ + 30000000000 + 5 * ε ∧ d ≤ 15 * ms)
  | .asleep _ _ _ => m ≤ t₁ + 30000000000 + 2 * ε

private theorem nearAt_le {ε : Delta} (hε : 0 ≤ ε) {T t₁ m : Time} {w : Wait} (h : nearAt ε T t₁ m w) :
    m ≤ t₁ + 30000000000 + 5 * ε := by
  cases w with
  | ready => simp only [nearAt, Time, Delta] at *; omega
  | looked f => rcases h with h | ⟨h, -⟩ <;> simp only [Time, Delta] at * <;> omega
  | decided c d => rcases h with ⟨h, -⟩ | ⟨h, -⟩ <;> simp only [Time, Delta] at * <;> omega
  | asleep c since d => simp only [nearAt, Time, Delta] at *; omega

private theorem nearAt_mono {ε : Delta} {T t₁ m m' : Time} {w : Wait} (h : nearAt ε T t₁ m w) (hm : m' ≤ m) : nearAt ε T t₁ m' w := by
  cases w with
  | ready => exact Int.le_trans hm h
  | looked f => exact h.imp (Int.le_trans hm) fun h => ⟨Int.le_trans hm h.1, h.2⟩
  | decided c d => exact h.imp (fun h => ⟨Int.le_trans hm h.1, h.2⟩) fun h => ⟨Int.le_trans hm h.1, h.2⟩
  | asleep c since d => exact Int.le_trans hm h

private theorem lagAt_mono {m m' t t' : Time} {w : Wait} (h : lagAt m t w) (hm : m' ≤ m) (ht : t ≤ t') : lagAt m' t' w := by
  cases w with
  | ready => exact Int.le_trans hm (Int.le_trans h ht)
  | looked f => exact Int.le_trans hm (Int.le_trans h ht)
  | decided c d => exact ⟨Int.le_trans hm (Int.le_trans h.1 ht), h.2⟩
  | asleep c since d => exact ⟨Int.le_trans h.1 ht, h.2.1, Int.le_trans hm h.2.2⟩

private def nextAt (i : Nat) (m : Time) (s : Streams) (a : ClockedAct) : Time :=
  if a.act.isStream i && (s.stepAt a.real a.now a.act).1.isSomething then (s.stepAt a.real a.now a.act).2.movesFrom i a.real
  else min m ((s.stepAt a.real a.now a.act).2.movesFrom i a.real)

/-- One action: where the stream is, and, if a job that is due waits, how far it is. -/
private theorem stepsAt {ε : Delta} (hε : 0 ≤ ε) {s : Streams} {i : Nat} {r : Reader} {m t : Time} {a : ClockedAct}
    (hr : s.readers[i]? = some r) (hl : lagAt m t r.wait) (ht : t ≤ a.real) (hm : a.real ≤ m + ε) :
    ∃ r', (s.stepAt a.real a.now a.act).2.readers[i]? = some r' ∧ r'.executor = r.executor ∧
      lagAt (nextAt i m s a) a.real r'.wait ∧
      ∀ (k : KeyedJob) (t₁ : Time), k ∈ s.conc.mem.jobs → k.job.available → k.job.executor = r.executor →
        k.job.scheduledAt ≤ a.now → nearAt ε k.job.scheduledAt t₁ m r.wait →
        (∃ j, (s.stepAt a.real a.now a.act).1 = .returned i j ∧ j.executor = r.executor) ∨
          nearAt ε k.job.scheduledAt t₁ (nextAt i m s a) r'.wait := by
  obtain ⟨real, now, a⟩ := a
  simp only at ht hm ⊢
  have stays : nextAt i m s ⟨real, now, a⟩ ≤ m → (s.stepAt real now a).2.readers[i]? = some r →
      ∃ r', (s.stepAt real now a).2.readers[i]? = some r' ∧ r'.executor = r.executor ∧
      lagAt (nextAt i m s ⟨real, now, a⟩) real r'.wait ∧
      ∀ (k : KeyedJob) (t₁ : Time), k ∈ s.conc.mem.jobs → k.job.available → k.job.executor = r.executor →
        k.job.scheduledAt ≤ now → nearAt ε k.job.scheduledAt t₁ m r.wait →
        (∃ j, (s.stepAt real now a).1 = .returned i j ∧ j.executor = r.executor) ∨
          nearAt ε k.job.scheduledAt t₁ (nextAt i m s ⟨real, now, a⟩) r'.wait := by
    intro h1 h2
    exact ⟨r, h2, rfl, lagAt_mono hl h1 ht, fun k t₁ _ _ _ _ hn => .inr (nearAt_mono hn h1)⟩
  cases ha : a.isStream i with
  | false =>
    refine stays ?_ (unmovedAt hr ha)
    simp only [nextAt, ha, Bool.false_and]
    exact Int.min_le_left _ _
  | true =>
    cases a with
    | client a => cases ha
    | subscribe x => cases ha
    | stream n b =>
      have hn : n = i := by simpa [StAct.isStream] using ha
      subst hn
      rcases ownAt (real := real) (now := now) (b := b) hr with ⟨hs, h⟩ | ⟨hs, h⟩
      · have hnext : nextAt n m s ⟨real, now, .stream n b⟩ = (s.stepAt real now (.stream n b)).2.movesFrom n real := by
          simp only [nextAt, ha, hs, Bool.and_self, if_true]
        rw [hnext]
        rcases h with ⟨j, h, hj, h'⟩ | ⟨w, h, hw⟩
        · refine ⟨_, h', rfl, ?_, fun k t₁ _ _ _ _ _ => .inl ⟨j, h, hj⟩⟩
          rw [onTime_movesFrom_eq h']
          exact Int.le_refl _
        · refine ⟨_, h, rfl, ?_⟩
          rw [onTime_movesFrom_eq h]
          cases hwt : r.wait with
          | ready =>
            rw [hwt] at hw
            simp only at hw
            subst hw
            refine ⟨Int.le_refl _, fun k t₁ hk hav hx hdue hn => .inr ?_⟩
            have hcov := nextAvailable_covers hk hav hx
            cases hf : s.conc.mem.nextAvailable r.executor with
            | none => rw [hf] at hcov; exact hcov.elim
            | some g =>
              rw [hf] at hcov
              refine .inr ⟨?_, g, rfl, hcov⟩
              simp only [nearAt, Time, Delta] at *; omega
          | looked f =>
            rw [hwt] at hw
            simp only at hw
            subst hw
            refine ⟨⟨Int.le_refl _, shortest _ _, onTime_delay_nonneg _ _⟩, fun k t₁ hk hav hx hdue hn => .inr ?_⟩
            rcases hn with hn | ⟨hn, g, rfl, hg⟩
            · refine .inl ⟨?_, shortest _ _⟩
              simp only [Time, Delta] at *; omega
            · refine .inr ⟨?_, no_delay hg hdue⟩
              simp only [Time, Delta] at *; omega
          | decided c d =>
            rw [hwt] at hw hl
            obtain ⟨hw, hd⟩ := hw
            subst hw
            obtain ⟨hl1, hl2, hl3⟩ := hl
            refine ⟨⟨Int.le_refl _, hl2, ?_⟩, fun k t₁ hk hav hx hdue hn => .inr ?_⟩
            · simp only
              split <;> simp only [Time, Delta] at * <;> omega
            · have hlong : ¬ d ≤ 15 * ms := by
                intro hp
                have hnr := hd hp k hk
                rw [← Bool.not_eq_true, readyFor_iff] at hnr
                refine hnr ⟨hx, ?_, hav⟩
                simp only [Time, Delta, ms] at *; omega
              have hn' : m ≤ t₁ + ε := by
                rcases hn with h | h
                · exact h.1
                · exact (hlong h.2).elim
              simp only [nearAt]
              split <;> simp only [Time, Delta] at * <;> omega
          | asleep c since d =>
            rw [hwt] at hw
            simp only at hw
            subst hw
            refine ⟨Int.le_refl _, fun k t₁ hk hav hx hdue hn => .inr ?_⟩
            simp only [nearAt, Time, Delta] at *; omega
      · refine stays ?_ (by rw [h]; exact hr)
        simp only [nextAt, hs, Bool.and_false]
        exact Int.min_le_left _ _

/-- The part of the schedule in which the job is due. -/
private theorem dueAt {ε : Delta} (hε : 0 ≤ ε) {s : Streams} {i : Nat} {r : Reader} {m t t₁ : Time} {k : KeyedJob}
    (as : List ClockedAct) (hr : s.readers[i]? = some r) (hl : lagAt m t r.wait) (hn : nearAt ε k.job.scheduledAt t₁ m r.wait)
    (hc : (t :: as.map (·.real)).Pairwise (· ≤ ·)) (hp : PromptAt ε i m s as)
    (hk : k ∈ s.conc.mem.jobs) (hw : k.job.available) (hx : k.job.executor = r.executor)
    (hdue : ∀ a ∈ as, k.job.scheduledAt ≤ a.now)
    {b : ClockedAct} (hb : b ∈ as) (hlate : t₁ + 30000000000 + 6 * ε < b.real) :
    ∃ as₁ a as₂, as = as₁ ++ a :: as₂ ∧ a.real ≤ t₁ + 30000000000 + 6 * ε ∧
      ((∃ j, ((s.runAt as₁).stepAt a.real a.now a.act).1 = .returned i j ∧ j.executor = r.executor) ∨
        k ∉ ((s.runAt as₁).stepAt a.real a.now a.act).2.conc.mem.jobs) := by
  induction as generalizing s r m t with
  | nil => simp at hb
  | cons a as ih =>
    obtain ⟨hpa, hp⟩ := hp
    have hD : a.real ≤ t₁ + 30000000000 + 6 * ε := by
      have := nearAt_le hε hn
      simp only [Time, Delta] at *; omega
    rw [List.map_cons] at hc
    have hta : t ≤ a.real := List.rel_of_pairwise_cons hc (by simp)
    obtain ⟨r', h1, h2, h3, h4⟩ := stepsAt hε hr hl hta hpa
    rcases h4 k t₁ hk hw hx (hdue a (by simp)) hn with h | h
    · exact ⟨[], a, as, rfl, hD, .inl h⟩
    · by_cases hk' : k ∈ (s.stepAt a.real a.now a.act).2.conc.mem.jobs
      · have hb' : b ∈ as := by
          rcases List.mem_cons.mp hb with h' | h'
          · subst h'; exact (Int.not_le.mpr hlate hD).elim
          · exact h'
        obtain ⟨as₁, c, as₂, e1, e2, e3⟩ := ih h1 h3 h (List.Pairwise.of_cons hc) hp hk' (hx.trans h2.symm)
          (fun a h => hdue a (List.mem_cons_of_mem _ h)) hb'
        rw [h2] at e3
        exact ⟨a :: as₁, c, as₂, by rw [e1]; rfl, e2, e3⟩
      · exact ⟨[], a, as, rfl, hD, .inr hk'⟩

/-- The part before. -/
private theorem beforeAt {ε : Delta} (hε : 0 ≤ ε) {s : Streams} {i : Nat} {r : Reader} {m t w : Time}
    (as bs : List ClockedAct) (hr : s.readers[i]? = some r) (hl : lagAt m t r.wait)
    (hc : (t :: (as.map (·.real) ++ w :: bs.map (·.real))).Pairwise (· ≤ ·)) (hp : PromptAt ε i m s (as ++ bs)) :
    ∃ r' m' t', (s.runAt as).readers[i]? = some r' ∧ r'.executor = r.executor ∧ lagAt m' t' r'.wait ∧
      (t' :: w :: bs.map (·.real)).Pairwise (· ≤ ·) ∧ PromptAt ε i m' (s.runAt as) bs := by
  induction as generalizing s r m t with
  | nil => exact ⟨r, m, t, hr, rfl, hl, hc, hp⟩
  | cons a as ih =>
    obtain ⟨hpa, hp⟩ := hp
    rw [List.map_cons, List.cons_append] at hc
    have hta : t ≤ a.real := List.rel_of_pairwise_cons hc (by simp)
    obtain ⟨r', h1, h2, h3, -⟩ := stepsAt hε hr hl hta hpa
    obtain ⟨q, m', t', e1, e2, e3⟩ := ih h1 h3 (List.Pairwise.of_cons hc) hp
    exact ⟨q, m', t', e1, e2.trans h2, e3⟩

private theorem runAt_app (s : Streams) (l₁ l₂ : List ClockedAct) : s.runAt (l₁ ++ l₂) = (s.runAt l₁).runAt l₂ := by
  induction l₁ generalizing s with
  | nil => rfl
  | cons a l ih => exact ih _

/-- **C135, in memory.** A stream is made at `t₀`, and from then on makes each of its steps within `ε`
of real time of when it first can. Whatever the clock shows at any time, and whether or not the
backend is paused: if a job of the executor waits at `t₁` and from then on the clock does not show
less than what it is scheduled for, then half a minute and six times `ε` later the stream has
returned a job, or the job waits no longer. -/
theorem C135_in_memory {ε : Delta} (hε : 0 ≤ ε) (paused : Bool) (p as bs : List ClockedAct) (x : String) (i : Nat)
    (t₀ now₀ t₁ : Time) (k : KeyedJob) (hi : i = ((Streams.init paused).runAt p).readers.length)
    (hc : (t₀ :: (as.map (·.real) ++ t₁ :: bs.map (·.real))).Pairwise (· ≤ ·))
    (hp : PromptAt ε i t₀ ((Streams.init paused).runAt (p ++ [⟨t₀, now₀, .subscribe x⟩])) (as ++ bs))
    (hk : k ∈ ((Streams.init paused).runAt (p ++ ⟨t₀, now₀, .subscribe x⟩ :: as)).conc.mem.jobs)
    (hw : k.job.status = .scheduled ∨ k.job.status = .retryable) (hx : k.job.executor = x)
    (hdue : ∀ b ∈ bs, k.job.scheduledAt ≤ b.now)
    (hlate : ∃ b ∈ bs, t₁ + 30000000000 + 6 * ε < b.real) :
    ∃ bs₁ b bs₂, bs = bs₁ ++ b :: bs₂ ∧ b.real ≤ t₁ + 30000000000 + 6 * ε ∧
      let s := (Streams.init paused).runAt (p ++ ⟨t₀, now₀, .subscribe x⟩ :: as ++ bs₁)
      ((∃ j, (s.stepAt b.real b.now b.act).1 = .returned i j ∧ j.executor = x) ∨
        k ∉ (s.stepAt b.real b.now b.act).2.conc.mem.jobs) := by
  have e1 : (Streams.init paused).runAt (p ++ ⟨t₀, now₀, .subscribe x⟩ :: as) =
      ((Streams.init paused).runAt (p ++ [⟨t₀, now₀, .subscribe x⟩])).runAt as := by
    rw [← runAt_app]; simp
  have hr : ((Streams.init paused).runAt (p ++ [⟨t₀, now₀, .subscribe x⟩])).readers[i]? =
      some { sub := ((Streams.init paused).runAt p).conc.mem.subs.length, executor := x, wait := .ready } := by
    rw [runAt_app, hi]
    simp [Streams.runAt, Streams.stepAt, Streams.step]
  obtain ⟨r, m, t, h1, h2, h3, h4, h5⟩ := beforeAt hε as bs hr (show t₀ ≤ t₀ from Int.le_refl _) hc hp
  simp only at h2
  rw [← e1] at h1 h5
  have ht : t ≤ t₁ := List.rel_of_pairwise_cons h4 (by simp)
  have hn : nearAt ε k.job.scheduledAt t₁ m r.wait := by
    cases hwt : r.wait with
    | ready => rw [hwt] at h3; simp only [nearAt, lagAt, Time, Delta] at *; omega
    | looked f => rw [hwt] at h3; exact .inl (Int.le_trans h3 ht)
    | decided c d =>
      rw [hwt] at h3
      refine .inl ⟨?_, h3.2.1⟩
      have := h3.1
      simp only [Time, Delta] at *; omega
    | asleep c since d => rw [hwt] at h3; simp only [nearAt, lagAt, Time, Delta] at *; omega
  have h4' : (t :: bs.map (·.real)).Pairwise (· ≤ ·) := by
    rw [List.pairwise_cons] at h4 ⊢
    exact ⟨fun a ha => h4.1 a (List.mem_cons_of_mem _ ha), List.Pairwise.of_cons h4.2⟩
  obtain ⟨b, hb, hlate⟩ := hlate
  obtain ⟨bs₁, a, bs₂, q1, q2, q3⟩ := dueAt hε bs h1 h3 hn h4' h5 hk hw (hx.trans h2.symm) hdue hb hlate
  refine ⟨bs₁, a, bs₂, q1, q2, ?_⟩
  intro s
  have : s = ((Streams.init paused).runAt (p ++ ⟨t₀, now₀, .subscribe x⟩ :: as)).runAt bs₁ := runAt_app _ _ bs₁
  rw [this]
  rw [h2] at q3
  exact q3

/-- With a clock that is right, this is the machine of C122. -/
theorem C135_right_clock (s : Streams) (t : Time) (a : StAct) : s.stepAt t t a = s.step t a := by
  cases a with
  | client a => rfl
  | subscribe x => rfl
  | stream i b =>
    simp only [Streams.stepAt, Streams.step]
    cases s.readers[i]? <;> rfl

/-! ## On Postgres -/

/-- Stream `i`, which can make its next step from `m` on, makes that step and every later one
within `ε` of real time of when it first can. -/
def PromptNetAt (hash : HashFn) (parses : Parses) (ε : Delta) (i : Nat) : Time → PgNet → List ClockedNet → Prop
  | _, _, [] => True
  | m, s, a :: as =>
    a.real ≤ m + ε ∧
    PromptNetAt hash parses ε i
      (if a.act.isStream i && (s.stepAt hash parses a.tie a.real a.now a.act).1.isSomething then
        (s.stepAt hash parses a.tie a.real a.now a.act).2.movesFrom i a.real
       else min m ((s.stepAt hash parses a.tie a.real a.now a.act).2.movesFrom i a.real))
      (s.stepAt hash parses a.tie a.real a.now a.act).2 as

instance PromptNetAt.dec (hash : HashFn) (parses : Parses) (ε : Delta) (i : Nat) : ∀ (m : Time) (s : PgNet) (as : List ClockedNet),
    Decidable (PromptNetAt hash parses ε i m s as)
  | _, _, [] => .isTrue trivial
  | _, s, a :: as =>
    @instDecidableAnd _ _ _ (PromptNetAt.dec hash parses ε i _ (s.stepAt hash parses a.tie a.real a.now a.act).2 as)

/-- What an action can mean for stream `i`, as `NetSeen`. -/
private inductive SeenAt (hash : HashFn) (tie : Int → Nat) (real now : Time) (i : Nat) (own : Bool) (c c' : PgConc) (ev : NetEv)
    (r r' : PgReader) : Prop where
  | still (q : List Time) (h : r' = { r with queue := r.queue ++ q }) (ho : own = false) (hc : DbMoved hash tie now c c')
  | failed (h : r' = { r with wait := .ready }) (he : ev = .failed i) (hc : c' = c)
  | returned (j : Job) (h : r' = { r with wait := .ready }) (he : ev = .returned i j) (hc : c' = c)
  | ready (hw : r.wait = .ready) (h : r' = { r with wait := .looked (c.pg.nextAvailable r.executor) }) (ho : own = true) (hc : c' = c)
  | looked (f : Option Time) (hw : r.wait = .looked f) (h : r' = { r with wait := .decided now (streamDelay now f) }) (ho : own = true) (hc : c' = c)
  | opens (t : Time) (d : Delta) (hw : r.wait = .decided t d) (hd : d ≤ pollDelta)
      (h : r' = { r with wait := .loading t d c.sessions.length }) (ho : own = true) (hc : c' = (c.step hash tie now (.handout r.executor)).2)
  | sleeps (t : Time) (d : Delta) (hw : r.wait = .decided t d) (hd : ¬ d ≤ pollDelta)
      (h : r' = { r with wait := .asleep t real d }) (ho : own = true) (hc : c' = c)
  | goesOn (t : Time) (d : Delta) (k : Nat) (hw : r.wait = .loading t d k)
      (hk : ∀ res, c.sessions[k]? ≠ some (.done res)) (h : r' = r) (ho : own = true)
      (hc : c' = (c.step hash tie now (.advance k)).2)
  | gotNone (t : Time) (d : Delta) (k : Nat) (hw : r.wait = .loading t d k) (hk : c.sessions[k]? = some (.done (.job none)))
      (h : r' = { r with wait := .asleep t real d }) (ho : own = true) (hc : c' = c)
  | wakes (t since : Time) (d : Delta) (q : List Time) (hw : r.wait = .asleep t since d)
      (h : r' = { r with wait := .ready, queue := q }) (ho : own = true) (hc : c' = c)

private theorem seenAt (hash : HashFn) (parses : Parses) (tie : Int → Nat) (real now : Time) {s : PgNet} {i : Nat} {r : PgReader}
    (a : NetAct) (hr : s.readers[i]? = some r) :
    ∃ r', (s.stepAt hash parses tie real now a).2.readers[i]? = some r' ∧
      SeenAt hash tie real now i (a.isStream i && (s.stepAt hash parses tie real now a).1.isSomething) s.conc
        (s.stepAt hash parses tie real now a).2.conc (s.stepAt hash parses tie real now a).1 r r' := by
  have same : r = { r with queue := r.queue ++ [] } := by simp
  have other : a.isStream i = false → s.stepAt hash parses tie real now a = s.step hash parses tie now a →
    ∃ r', (s.stepAt hash parses tie real now a).2.readers[i]? = some r' ∧
      SeenAt hash tie real now i (a.isStream i && (s.stepAt hash parses tie real now a).1.isSomething) s.conc
        (s.stepAt hash parses tie real now a).2.conc (s.stepAt hash parses tie real now a).1 r r' := by
    intro h1 h2
    rw [h2, h1, Bool.false_and]
    obtain ⟨r', h3, h4⟩ := net_seen hash parses tie now a hr
    rw [h1, Bool.false_and] at h4
    refine ⟨r', h3, ?_⟩
    cases h4 with
    | still q h ho hc => exact .still q h rfl hc
    | failed h he hc => exact .failed h he hc
    | returned j h he hc => exact .returned j h he hc
    | ready hw h ho hc => cases ho
    | looked f hw h ho hc => cases ho
    | opens t d hw hd h ho hc => cases ho
    | sleeps t d hw hd h ho hc => cases ho
    | goesOn t d k hw hk h ho hc => cases ho
    | gotNone t d k hw hk h ho hc => cases ho
    | wakes t since d q hw h ho hc => cases ho
  cases a with
  | db a => exact other rfl rfl
  | connect => exact other rfl rfl
  | subscribe m x => exact other rfl rfl
  | deliver m => exact other rfl rfl
  | reconnect m => exact other rfl rfl
  | fail m => exact other rfl rfl
  | streamFails k => exact other rfl rfl
  | stream k timer =>
    by_cases hk : k = i
    · subst hk
      have hown : (NetAct.stream k timer).isStream k = true := by simp [NetAct.isStream]
      rw [hown, Bool.true_and]
      have set : ∀ w : PgWait, (s.setWait k w).readers[k]? = some { r with wait := w } := fun w =>
        (pgnet_setWait_wait hr).trans (by rw [if_pos rfl])
      simp only [PgNet.stepAt, hr, PgNet.streamStepAt]
      cases hw : r.wait with
      | ready => exact ⟨_, set _, .ready hw rfl rfl rfl⟩
      | looked g => exact ⟨_, set _, .looked g hw rfl rfl rfl⟩
      | decided c d =>
        simp only
        by_cases hd : d ≤ pollDelta
        · rw [if_pos hd]
          exact ⟨_, (pgnet_setWait_wait (s := (s.dbStep hash tie now (.handout r.executor)).2) (j := k) hr).trans
            (by rw [if_pos rfl]), .opens c d hw hd rfl rfl rfl⟩
        · rw [if_neg hd]
          exact ⟨_, set _, .sleeps c d hw hd rfl rfl rfl⟩
      | loading c d m =>
        simp only
        split
        · exact ⟨_, set _, .returned _ rfl rfl rfl⟩
        · rename_i h
          exact ⟨_, set _, .gotNone c d m hw h rfl rfl rfl⟩
        · exact ⟨_, set _, .failed rfl rfl rfl⟩
        · rename_i h1 h2 h3
          refine ⟨r, hr, .goesOn c d m hw (fun res => ?_) rfl rfl rfl⟩
          exact h3 res
      | asleep c since d =>
        simp only
        cases hqu : r.queue with
        | nil =>
          simp only
          by_cases h2 : since + d ≤ real
          · rw [if_pos (by simpa using h2)]
            exact ⟨_, set _, .wakes c since d r.queue hw rfl rfl rfl⟩
          · rw [if_neg (by simpa using h2)]
            exact ⟨r, hr, .still [] same rfl (.inl rfl)⟩
        | cons x rest =>
          simp only
          by_cases h2 : (timer && decide (since + d ≤ real)) = true
          · rw [if_pos h2]
            exact ⟨_, set _, .wakes c since d r.queue hw rfl rfl rfl⟩
          · rw [if_neg h2]
            exact ⟨{ r with queue := rest, wait := .ready }, by simp [hr], .wakes c since d rest hw rfl rfl rfl⟩
    · have hown : (NetAct.stream k timer).isStream i = false := by simpa [NetAct.isStream] using hk
      rw [hown, Bool.false_and]
      simp only [PgNet.stepAt]
      cases hrk : s.readers[k]? with
      | none => exact ⟨r, hr, .still [] same rfl (.inl rfl)⟩
      | some q =>
        have set : ∀ (s' : PgNet) (w : PgWait), s'.readers = s.readers → (s'.setWait k w).readers[i]? = some r := by
          intro s' w h
          rw [pgnet_setWait_wait (h ▸ hr), if_neg hk]
        simp only [PgNet.streamStepAt]
        cases q.wait with
        | ready => exact ⟨r, set s _ rfl, .still [] same rfl (.inl rfl)⟩
        | looked g => exact ⟨r, set s _ rfl, .still [] same rfl (.inl rfl)⟩
        | decided c d =>
          simp only
          split
          · exact ⟨r, set (s.dbStep hash tie now (.handout q.executor)).2 _ rfl, .still [] same rfl (.inr ⟨_, rfl⟩)⟩
          · exact ⟨r, set s _ rfl, .still [] same rfl (.inl rfl)⟩
        | loading c d m =>
          simp only
          split
          · exact ⟨r, set s _ rfl, .still [] same rfl (.inl rfl)⟩
          · exact ⟨r, set s _ rfl, .still [] same rfl (.inl rfl)⟩
          · exact ⟨r, set s _ rfl, .still [] same rfl (.inl rfl)⟩
          · exact ⟨r, hr, .still [] same rfl (.inr ⟨_, rfl⟩)⟩
        | asleep c since d =>
          simp only
          split
          · split
            · exact ⟨r, set s _ rfl, .still [] same rfl (.inl rfl)⟩
            · exact ⟨r, by simp [hr, hk], .still [] same rfl (.inl rfl)⟩
          · split
            · exact ⟨r, set s _ rfl, .still [] same rfl (.inl rfl)⟩
            · exact ⟨r, hr, .still [] same rfl (.inl rfl)⟩

private theorem concAt (hash : HashFn) (parses : Parses) (tie : Int → Nat) (real now : Time) (s : PgNet) (a : NetAct) :
    (s.stepAt hash parses tie real now a).2.conc = (s.step hash parses tie now a).2.conc := by
  cases a with
  | stream k timer =>
    simp only [PgNet.stepAt, PgNet.step]
    cases s.readers[k]? with
    | none => rfl
    | some r =>
      simp only [PgNet.streamStepAt, PgNet.streamStep]
      cases r.wait with
      | ready => rfl
      | looked f => rfl
      | decided c d => simp only; split <;> rfl
      | loading c d k =>
        simp only
        generalize s.conc.sessions[k]? = o
        cases o with
        | none => rfl
        | some ss =>
          cases ss with
          | done res =>
            cases res with
            | job o => cases o <;> rfl
            | _ => rfl
          | _ => rfl
      | asleep c since d =>
        simp only
        cases r.queue with
        | nil => simp only; split <;> split <;> rfl
        | cons x q => simp only; split <;> split <;> rfl
  | _ => rfl

private def pgLagAt (m t : Time) (c : PgConc) (r : PgReader) : Prop :=
  match r.wait with
  | .decided _ d => m ≤ t ∧ d ≤ 30000000000 ∧ 0 ≤ d
  | .loading _ d k => m ≤ t ∧ d ≤ 15 * ms ∧ 0 ≤ d ∧ ∃ ss, c.sessions[k]? = some ss ∧ ss.handsOutTo r.executor
  | .asleep _ since d => since ≤ t ∧ d ≤ 30000000000 ∧ m ≤ since + d
  | _ => m ≤ t

private theorem pgLagAt_step {hash : HashFn} {tie : Int → Nat} {i : Nat} {own : Bool} {c c' : PgConc} {ev : NetEv}
    {r r' : PgReader} {m t real now : Time} {s' : PgNet} (hs : SeenAt hash tie real now i own c c' ev r r')
    (hr' : s'.readers[i]? = some r') (hl : pgLagAt m t c r) (ht : t ≤ real) :
    pgLagAt (if own then s'.movesFrom i real else min m (s'.movesFrom i real)) real c' r' := by
  rw [pgMovesFrom_eq hr']
  have ready : r'.wait = .ready → pgLagAt (if own then (match r'.wait with
      | .asleep _ since delay => if r'.queue = [] then since + delay else real
      | _ => real) else min m (match r'.wait with
      | .asleep _ since delay => if r'.queue = [] then since + delay else real
      | _ => real)) real c' r' := by
    intro h
    simp only [pgLagAt, h]
    split <;> simp only [Time, Delta] at * <;> omega
  cases hs with
  | still q h ho hc =>
    subst h ho
    simp only [Bool.false_eq_true, if_false]
    simp only [pgLagAt] at hl ⊢
    cases hw : r.wait with
    | ready => rw [hw] at hl; simp only [Time, Delta] at *; omega
    | looked f => rw [hw] at hl; simp only [Time, Delta] at *; omega
    | decided clock d => rw [hw] at hl; simp only [Time, Delta] at *; omega
    | loading clock d k =>
      rw [hw] at hl
      obtain ⟨h1, h2, h3, ss, h4, h5⟩ := hl
      refine ⟨?_, h2, h3, ?_⟩
      · simp only [Time, Delta] at *; omega
      · rcases hc with rfl | ⟨b, rfl⟩
        · exact ⟨ss, h4, h5⟩
        · exact handsOutTo_step b h4 h5
    | asleep clock since d =>
      rw [hw] at hl
      obtain ⟨h1, h2, h3⟩ := hl
      exact ⟨Int.le_trans h1 ht, h2, Int.le_trans (Int.min_le_left _ _) h3⟩
  | failed h he hc => subst h; exact ready rfl
  | returned j h he hc => subst h; exact ready rfl
  | ready hw h ho hc => subst h ho hc; exact Int.le_refl _
  | looked f hw h ho hc => subst h ho hc; exact ⟨Int.le_refl _, shortest _ _, onTime_delay_nonneg _ _⟩
  | opens clock d hw hd h ho hc =>
    subst h ho hc
    simp only [pgLagAt, hw] at hl
    refine ⟨Int.le_refl _, hd, hl.2.2, .handout r.executor, ?_, rfl⟩
    simp [PgConc.step]
  | sleeps clock d hw hd h ho hc =>
    subst h ho hc
    simp only [pgLagAt, hw] at hl
    simp only [pgLagAt]
    refine ⟨Int.le_refl _, hl.2.1, ?_⟩
    have := hl.2.2
    simp only [if_true]
    split <;> simp only [Time, Delta] at * <;> omega
  | goesOn clock d k hw hk h ho hc =>
    subst h ho hc
    simp only [pgLagAt, hw] at hl ⊢
    obtain ⟨h1, h2, h3, ss, h4, h5⟩ := hl
    exact ⟨Int.le_refl _, h2, h3, handsOutTo_step _ h4 h5⟩
  | gotNone clock d k hw hk h ho hc =>
    subst h ho hc
    simp only [pgLagAt, hw] at hl
    simp only [pgLagAt, if_true]
    obtain ⟨h1, h2, h3, -⟩ := hl
    refine ⟨Int.le_refl _, ?_, ?_⟩
    · simp only [Time, Delta, ms] at *; omega
    · split <;> simp only [Time, Delta] at * <;> omega
  | wakes clock since d q hw h ho hc => subst h ho hc; exact Int.le_refl _

/-- A hand-out that will hand something out, or that found nothing early enough. -/
private def pgStageAt (ε : Delta) (j : Row) (t₁ m : Time) : Session → Prop
  | .handout _ => m ≤ t₁ + 30000000000 + 6 * ε
  | .looking _ t snap => m ≤ t₁ ∨ (m ≤ t₁ + 30000000000 + 7 * ε ∧ j ∈ snap ∧ j.scheduledAt ≤ t)
  | .locked _ _ _ => m ≤ t₁ + 30000000000 + 8 * ε
  | .done (.job none) => m ≤ t₁ + ε
  | .done _ => m ≤ t₁ + 30000000000 + 9 * ε
  | _ => False

private def pgNearAt (ε : Delta) (j : Row) (t₁ m : Time) (c : PgConc) (r : PgReader) : Prop :=
  match r.wait with
  | .ready => m ≤ t₁ + 30000000000 + 3 * ε
  | .looked f => m ≤ t₁ ∨ (m ≤ t₁ + 30000000000 + 4 * ε ∧ ∃ g, f = some g ∧ g ≤ j.scheduledAt)
  | .decided _ d => m ≤ t₁ + ε ∨ (m ≤ t₁ + 30000000000 + 5 * ε ∧ d ≤ 15 * ms)
  | .loading _ _ k => ∃ ss, c.sessions[k]? = some ss ∧ pgStageAt ε j t₁ m ss
  | .asleep _ _ _ => m ≤ t₁ + 30000000000 + 2 * ε

private theorem pgStageAt_le {ε : Delta} (hε : 0 ≤ ε) {j : Row} {t₁ m : Time} {ss : Session} (h : pgStageAt ε j t₁ m ss) :
    m ≤ t₁ + 30000000000 + 9 * ε := by
  unfold pgStageAt at h
  split at h <;> simp only [Time, Delta] at * <;> omega

private theorem pgStageAt_mono {ε : Delta} {j : Row} {t₁ m m' : Time} {ss : Session} (h : pgStageAt ε j t₁ m ss) (hm : m' ≤ m) :
    pgStageAt ε j t₁ m' ss := by
  unfold pgStageAt at h ⊢
  split at h
  · exact Int.le_trans hm h
  · exact h.imp (Int.le_trans hm) fun h => ⟨Int.le_trans hm h.1, h.2⟩
  · exact Int.le_trans hm h
  · exact Int.le_trans hm h
  · exact Int.le_trans hm h
  · exact h

private theorem pgNearAt_le {ε : Delta} (hε : 0 ≤ ε) {j : Row} {t₁ m : Time} {c : PgConc} {r : PgReader} (h : pgNearAt ε j t₁ m c r) :
    m ≤ t₁ + 30000000000 + 9 * ε := by
  unfold pgNearAt at h
  split at h
  · simp only [Time, Delta] at *; omega
  · rcases h with h | ⟨h, -⟩ <;> simp only [Time, Delta] at * <;> omega
  · rcases h with h | ⟨h, -⟩ <;> simp only [Time, Delta] at * <;> omega
  · obtain ⟨ss, -, h⟩ := h; exact pgStageAt_le hε h
  · simp only [Time, Delta] at *; omega

private theorem ready_when_due {j : Row} {t : Time} (hw : j.Waiting) (h : j.scheduledAt ≤ t) : j.ready t j.executor = true := by
  have hp : t - 1000 ≤ pgTime t := by
    have := Int.tmod_lt_of_pos (t - epoch2000) (show (0 : Int) < 1000 by decide)
    simp only [pgTime, Time] at *
    omega
  simp only [Row.ready, Bool.and_eq_true, Bool.or_eq_true, decide_eq_true_eq, beq_iff_eq]
  refine ⟨⟨?_, hw⟩, trivial⟩
  simp only [ms, Time, Delta] at *
  omega

/-- A step of the hand-out of the stream. -/
private theorem pgStageAt_advance {c : PgConc} (H : PgInv c) {hash : HashFn} {tie : Int → Nat} {real now : Time} {ε : Delta} (hε : 0 ≤ ε)
    {j : Row} {t₁ m m' : Time} {k : Nat} {ss : Session} (hk : c.sessions[k]? = some ss) (hx : ss.handsOutTo j.executor)
    (hs : pgStageAt ε j t₁ m ss) (hj : j ∈ c.pg.rows) (hw : j.Waiting) (hdue : j.scheduledAt ≤ now) (hm : real ≤ m + ε)
    (hm' : m' ≤ m ∨ (m' = real ∧ ∀ res, ss ≠ .done res))
    (hlock : ¬ ∃ n z, c.sessions[n]? = some z ∧ z.rowLock = some j.id ∧ n ≠ k) :
    pgStageAt ε j t₁ m' (c.advance hash tie now ss).2.1 := by
  have hme : m' ≤ m + ε := by
    rcases hm' with h | h
    · simp only [Time, Delta] at *; omega
    · rw [h.1]; exact hm
  cases ss with
  | handout y =>
    simp only [PgConc.advance, pgStageAt] at *
    refine .inr ⟨?_, hj, hdue⟩
    simp only [Time, Delta] at *; omega
  | looking y t₀ snap =>
    have hy : y = j.executor := hx
    subst hy
    simp only [PgConc.advance]
    split
    · rename_i hf
      simp only [pgStageAt]
      have : m ≤ t₁ := by
        rcases hs with h2 | ⟨-, h2, h3⟩
        · exact h2
        · have hr := ready_when_due hw h3
          rw [List.find?_eq_none] at hf
          have hmem : j ∈ sortBy (Row.before tie) (snap.filter (Row.ready t₀ j.executor)) :=
            (sortBy_perm _ _).mem_iff.mpr (List.mem_filter.mpr ⟨h2, hr⟩)
          have hany : (c.pg.rows.any fun r' => r'.id == j.id && r'.ready t₀ j.executor) = true := by
            rw [List.any_eq_true]; exact ⟨j, hj, by simp [hr]⟩
          have := hf j hmem
          rw [hany, Bool.and_true, Bool.not_eq_true', Bool.not_eq_false] at this
          obtain ⟨n, z, g1, g2⟩ := rowLocked_iff.mp this
          refine (hlock ⟨n, z, g1, g2, ?_⟩).elim
          rintro rfl
          rw [hk, Option.some.injEq] at g1
          subst g1
          simp [Session.rowLock] at g2
      simp only [Time, Delta] at *; omega
    · simp only [pgStageAt] at hs ⊢
      rcases hs with h | ⟨h, -⟩ <;> simp only [Time, Delta] at * <;> omega
  | locked y t₀ id =>
    obtain ⟨z, g1, g2, -⟩ := H.lockedReady k y t₀ id hk
    simp only [PgConc.advance]
    cases hf : c.pg.rows.find? fun r => r.id == id with
    | none =>
      rw [List.find?_eq_none] at hf
      exact (hf z g1 (by simpa using g2)).elim
    | some q =>
      simp only [pgStageAt] at hs ⊢
      cases (q.markExecuting t₀).decode <;> simp only [Time, Delta] at * <;> omega
  | done r =>
    rcases hm' with h | ⟨-, h⟩
    · exact pgStageAt_mono hs h
    · exact (h r rfl).elim
  | _ => exact hs.elim

/-- One action: the stream returns, or it is still on its way. -/
private theorem pgNearAt_step {hash : HashFn} {tie : Int → Nat} {ε : Delta} (hε : 0 ≤ ε) {i : Nat} {own : Bool} {c' : PgConc} {ev : NetEv}
    {r r' : PgReader} {m t t₁ real now : Time} {s s' : PgNet} {j : Row} (H : PgInv s.conc)
    (hs : SeenAt hash tie real now i own s.conc c' ev r r') (hr : s.readers[i]? = some r) (hr' : s'.readers[i]? = some r')
    (hl : pgLagAt m t s.conc r) (hn : pgNearAt ε j t₁ m s.conc r) (hm : real ≤ m + ε)
    (hj : j ∈ s.conc.pg.rows) (hw : j.Waiting) (hx : j.executor = r.executor) (hdue : j.scheduledAt ≤ now)
    (hlock : ¬ s.otherHolds i j.id) :
    (∃ jb, ev = .returned i jb) ∨ ev = .failed i ∨
      pgNearAt ε j t₁ (if own then s'.movesFrom i real else min m (s'.movesFrom i real)) c' r' := by
  have hlock' : ∀ clock d k, r.wait = .loading clock d k →
      ¬ ∃ n z, s.conc.sessions[n]? = some z ∧ z.rowLock = some j.id ∧ n ≠ k := by
    rintro clock d k hwt ⟨n, z, h1, h2, h3⟩
    refine hlock ⟨n, z, h1, h2, ?_⟩
    intro r₀ h4 c d' h5
    rw [hr, Option.some.injEq] at h4
    subst h4
    rw [hwt] at h5
    injection h5 with _ _ h5
    exact h3 h5.symm
  rw [pgMovesFrom_eq hr']
  cases hs with
  | returned jb h he hc => exact .inl ⟨jb, he⟩
  | failed h he hc => exact .inr (.inl he)
  | still q h ho hc =>
    refine .inr (.inr ?_)
    subst h ho
    simp only [Bool.false_eq_true, if_false]
    generalize hm₁ : min m _ = m'
    replace hm₁ : m' ≤ m := hm₁ ▸ Int.min_le_left _ _
    simp only [pgNearAt, pgLagAt] at hl hn ⊢
    cases hwt : r.wait with
    | ready => rw [hwt] at hn; exact Int.le_trans hm₁ hn
    | looked f => rw [hwt] at hn; exact hn.imp (Int.le_trans hm₁) fun h => ⟨Int.le_trans hm₁ h.1, h.2⟩
    | decided clock d => rw [hwt] at hn; exact hn.imp (Int.le_trans hm₁) fun h => ⟨Int.le_trans hm₁ h.1, h.2⟩
    | loading clock d k =>
      rw [hwt] at hn hl
      obtain ⟨ss, h1, h2⟩ := hn
      obtain ⟨h3, -, -, ss', h4, h5⟩ := hl
      rw [h1, Option.some.injEq] at h4
      subst h4
      simp only
      rcases hc with rfl | ⟨b, rfl⟩
      · exact ⟨ss, h1, pgStageAt_mono h2 hm₁⟩
      · obtain ⟨z, g1, g2⟩ := net_session_seen (hash := hash) (tie := tie) (now := now) b h1
        refine ⟨z, g1, ?_⟩
        rcases g2 with rfl | rfl | rfl
        · exact pgStageAt_mono h2 hm₁
        · exact pgStageAt_advance H hε h1 (hx ▸ h5) h2 hj hw hdue hm (.inl hm₁) (hlock' _ _ _ hwt)
        · exact Int.le_trans hm₁ (pgStageAt_le hε h2)
    | asleep clock since d => rw [hwt] at hn; exact Int.le_trans hm₁ hn
  | ready hwt h ho hc =>
    refine .inr (.inr ?_)
    subst h ho hc
    simp only [pgNearAt, hwt] at hn
    have hcov := pg_next_covers hj hw hx
    simp only [pgNearAt, if_true]
    cases hf : s.conc.pg.nextAvailable r.executor with
    | none => rw [hf] at hcov; exact hcov.elim
    | some g =>
      rw [hf] at hcov
      refine .inr ⟨?_, g, rfl, hcov⟩
      simp only [Time, Delta] at *; omega
  | looked f hwt h ho hc =>
    refine .inr (.inr ?_)
    subst h ho hc
    simp only [pgNearAt, hwt] at hn
    simp only [pgNearAt, if_true]
    rcases hn with hn | ⟨hn, g, rfl, hg⟩
    · left; simp only [Time, Delta] at *; omega
    · refine .inr ⟨?_, no_delay hg hdue⟩
      simp only [Time, Delta] at *; omega
  | opens clock d hwt hd h ho hc =>
    refine .inr (.inr ?_)
    subst h ho hc
    simp only [pgNearAt, hwt] at hn
    refine ⟨.handout r.executor, by simp [PgConc.step], ?_⟩
    simp only [pgStageAt, if_true]
    rcases hn with hn | ⟨hn, -⟩ <;> simp only [Time, Delta] at * <;> omega
  | sleeps clock d hwt hd h ho hc =>
    refine .inr (.inr ?_)
    subst h ho hc
    simp only [pgNearAt, hwt, pgLagAt] at hn hl
    simp only [pgNearAt, if_true]
    have hn' : m ≤ t₁ + ε := by
      rcases hn with h | h
      · exact h
      · exact (hd h.2).elim
    have := hl.2.1
    split <;> simp only [Time, Delta] at * <;> omega
  | goesOn clock d k hwt hk h ho hc =>
    refine .inr (.inr ?_)
    subst h ho hc
    simp only [pgNearAt, hwt, pgLagAt, if_true] at hn hl ⊢
    obtain ⟨ss, h1, h2⟩ := hn
    obtain ⟨h3, -, -, ss', h4, h5⟩ := hl
    rw [h1, Option.some.injEq] at h4
    subst h4
    have hlt := (List.getElem?_eq_some_iff.mp h1).1
    refine ⟨(s.conc.advance hash tie now ss).2.1, by simp only [PgConc.step, h1]; simp [hlt], ?_⟩
    exact pgStageAt_advance H hε h1 (hx ▸ h5) h2 hj hw hdue hm
      (.inr ⟨rfl, fun res e => hk res (by rw [h1, e])⟩) (hlock' _ _ _ hwt)
  | gotNone clock d k hwt hk h ho hc =>
    refine .inr (.inr ?_)
    subst h ho hc
    simp only [pgNearAt, hwt, pgLagAt] at hn hl
    obtain ⟨ss, h1, h2⟩ := hn
    rw [hk, Option.some.injEq] at h1
    subst h1
    simp only [pgNearAt, pgStageAt, if_true] at *
    have := hl.2.1
    split <;> simp only [Time, Delta, ms] at * <;> omega
  | wakes clock since d q hwt h ho hc =>
    refine .inr (.inr ?_)
    subst h ho hc
    simp only [pgNearAt, hwt, if_true] at hn ⊢
    simp only [Time, Delta] at *; omega

private theorem keptAt {hash : HashFn} {tie : Int → Nat} {real now : Time} {i : Nat} {own : Bool} {c c' : PgConc} {ev : NetEv}
    {r r' : PgReader} (h : SeenAt hash tie real now i own c c' ev r r') : r'.executor = r.executor := by
  cases h <;> simp_all

/-- The part of the schedule in which the row is due. -/
private theorem pgDueAt {hash : HashFn} {parses : Parses} {ε : Delta} (hε : 0 ≤ ε) {s : PgNet} (H : PgInv s.conc) {i : Nat}
    {r : PgReader} {m t t₁ : Time} {j : Row} (as : List ClockedNet) (hr : s.readers[i]? = some r) (hl : pgLagAt m t s.conc r)
    (hn : pgNearAt ε j t₁ m s.conc r)
    (hc : (t :: as.map (·.real)).Pairwise (· ≤ ·)) (hp : PromptNetAt hash parses ε i m s as)
    (hj : j ∈ s.conc.pg.rows) (hw : j.Waiting) (hx : j.executor = r.executor) (hdue : ∀ a ∈ as, j.scheduledAt ≤ a.now)
    {b : ClockedNet} (hb : b ∈ as) (hlate : t₁ + 30000000000 + 10 * ε < b.real) :
    ∃ as₁ a as₂, as = as₁ ++ a :: as₂ ∧ a.real ≤ t₁ + 30000000000 + 10 * ε ∧
      ((∃ jb, ((s.runAt hash parses as₁).stepAt hash parses a.tie a.real a.now a.act).1 = .returned i jb) ∨
        ((s.runAt hash parses as₁).stepAt hash parses a.tie a.real a.now a.act).1 = .failed i ∨
        (s.runAt hash parses as₁).otherHolds i j.id ∨
        j ∉ ((s.runAt hash parses as₁).stepAt hash parses a.tie a.real a.now a.act).2.conc.pg.rows) := by
  induction as generalizing s r m t with
  | nil => simp at hb
  | cons a as ih =>
    obtain ⟨hpa, hp⟩ := hp
    obtain ⟨r', hr', hs⟩ := seenAt hash parses a.tie a.real a.now a.act hr
    have hD : a.real ≤ t₁ + 30000000000 + 10 * ε := by
      have := pgNearAt_le hε hn
      simp only [Time, Delta] at *; omega
    rw [List.map_cons] at hc
    have hta : t ≤ a.real := List.rel_of_pairwise_cons hc (by simp)
    by_cases hlock : s.otherHolds i j.id
    · exact ⟨[], a, as, rfl, hD, .inr (.inr (.inl hlock))⟩
    rcases pgNearAt_step hε H hs hr hr' hl hn hpa hj hw hx (hdue a (by simp)) hlock with h | h | h
    · exact ⟨[], a, as, rfl, hD, .inl h⟩
    · exact ⟨[], a, as, rfl, hD, .inr (.inl h)⟩
    · by_cases hj' : j ∈ (s.stepAt hash parses a.tie a.real a.now a.act).2.conc.pg.rows
      · have hb' : b ∈ as := by
          rcases List.mem_cons.mp hb with h' | h'
          · subst h'; exact (Int.not_le.mpr hlate hD).elim
          · exact h'
        obtain ⟨as₁, c, as₂, e1, e2, e3⟩ := ih (by rw [concAt]; exact pgnet_inv_step H a.tie a.now a.act) hr'
          (pgLagAt_step hs hr' hl hta) h (List.Pairwise.of_cons hc) hp hj'
          (hx.trans (keptAt hs).symm) (fun a h => hdue a (List.mem_cons_of_mem _ h)) hb'
        exact ⟨a :: as₁, c, as₂, by rw [e1]; rfl, e2, e3⟩
      · exact ⟨[], a, as, rfl, hD, .inr (.inr (.inr hj'))⟩

/-- The part before. -/
private theorem pgBeforeAt {hash : HashFn} {parses : Parses} {ε : Delta} {s : PgNet} {i : Nat} {r : PgReader} {m t w : Time}
    (as bs : List ClockedNet) (hr : s.readers[i]? = some r) (hl : pgLagAt m t s.conc r)
    (hc : (t :: (as.map (·.real) ++ w :: bs.map (·.real))).Pairwise (· ≤ ·)) (hp : PromptNetAt hash parses ε i m s (as ++ bs)) :
    ∃ r' m' t', (s.runAt hash parses as).readers[i]? = some r' ∧ r'.executor = r.executor ∧
      pgLagAt m' t' (s.runAt hash parses as).conc r' ∧
      (t' :: w :: bs.map (·.real)).Pairwise (· ≤ ·) ∧ PromptNetAt hash parses ε i m' (s.runAt hash parses as) bs := by
  induction as generalizing s r m t with
  | nil => exact ⟨r, m, t, hr, rfl, hl, hc, hp⟩
  | cons a as ih =>
    obtain ⟨hpa, hp⟩ := hp
    obtain ⟨r', hr', hs⟩ := seenAt hash parses a.tie a.real a.now a.act hr
    rw [List.map_cons, List.cons_append] at hc
    have hta : t ≤ a.real := List.rel_of_pairwise_cons hc (by simp)
    obtain ⟨q, m', t', e1, e2, e3⟩ := ih hr' (pgLagAt_step hs hr' hl hta) (List.Pairwise.of_cons hc) hp
    exact ⟨q, m', t', e1, e2.trans (keptAt hs), e3⟩

private theorem pgRunAt_app (hash : HashFn) (parses : Parses) (s : PgNet) (l₁ l₂ : List ClockedNet) :
    s.runAt hash parses (l₁ ++ l₂) = (s.runAt hash parses l₁).runAt hash parses l₂ := by
  induction l₁ generalizing s with
  | nil => rfl
  | cons a l ih => exact ih _

private theorem pgReachAt {hash : HashFn} {parses : Parses} (as : List ClockedNet) {s : PgNet} (H : PgInv s.conc) :
    PgInv (s.runAt hash parses as).conc := by
  induction as generalizing s with
  | nil => exact H
  | cons a as ih => exact ih (by rw [concAt]; exact pgnet_inv_step H a.tie a.now a.act)

/-- **C135, on Postgres.** A stream is made at `t₀` on any node, and from then on makes each of its
steps within `ε` of real time of when it first can. Whatever its clock, those of the other nodes and
that of the database show at any time, and whatever becomes of notifications: if a row of the
executor waits at `t₁` and from then on no clock shows less than what the row is scheduled for, then
half a minute and ten times `ε` later the stream has returned a job or an error, or another session
has locked the row, or the row has changed (it has been handed out, say) or is gone. -/
theorem C135_on_postgres (hash : HashFn) (parses : Parses) {ε : Delta} (hε : 0 ≤ ε) (p as bs : List ClockedNet)
    (x : String) (i n : Nat) (t₀ now₀ t₁ : Time) (tie : Int → Nat) (j : Row)
    (hi : i = (PgNet.runAt hash parses {} p).readers.length)
    (hc : (t₀ :: (as.map (·.real) ++ t₁ :: bs.map (·.real))).Pairwise (· ≤ ·))
    (hp : PromptNetAt hash parses ε i t₀ (PgNet.runAt hash parses {} (p ++ [⟨t₀, now₀, tie, .subscribe n x⟩])) (as ++ bs))
    (hj : j ∈ (PgNet.runAt hash parses {} (p ++ ⟨t₀, now₀, tie, .subscribe n x⟩ :: as)).conc.pg.rows)
    (hw : j.status = .scheduled ∨ j.status = .retryable) (hx : j.executor = x)
    (hdue : ∀ b ∈ bs, j.scheduledAt ≤ b.now)
    (hlate : ∃ b ∈ bs, t₁ + 30000000000 + 10 * ε < b.real) :
    ∃ bs₁ b bs₂, bs = bs₁ ++ b :: bs₂ ∧ b.real ≤ t₁ + 30000000000 + 10 * ε ∧
      let s := PgNet.runAt hash parses {} (p ++ ⟨t₀, now₀, tie, .subscribe n x⟩ :: as ++ bs₁)
      ((∃ jb, (s.stepAt hash parses b.tie b.real b.now b.act).1 = .returned i jb) ∨
        (s.stepAt hash parses b.tie b.real b.now b.act).1 = .failed i ∨
        s.otherHolds i j.id ∨
        j ∉ (s.stepAt hash parses b.tie b.real b.now b.act).2.conc.pg.rows) := by
  have e1 : PgNet.runAt hash parses {} (p ++ ⟨t₀, now₀, tie, .subscribe n x⟩ :: as) =
      (PgNet.runAt hash parses {} (p ++ [⟨t₀, now₀, tie, .subscribe n x⟩])).runAt hash parses as := by
    rw [← pgRunAt_app]; simp
  have hr : (PgNet.runAt hash parses {} (p ++ [⟨t₀, now₀, tie, .subscribe n x⟩])).readers[i]? = some { node := n, executor := x } := by
    rw [pgRunAt_app, hi]
    simp [PgNet.runAt, PgNet.stepAt, PgNet.step]
  obtain ⟨r, m, t, h1, h2, h3, h4, h5⟩ := pgBeforeAt as bs hr (show t₀ ≤ t₀ from Int.le_refl _) hc hp
  simp only at h2
  rw [← e1] at h1 h3 h5
  have ht : t ≤ t₁ := List.rel_of_pairwise_cons h4 (by simp)
  have hn : pgNearAt ε j t₁ m (PgNet.runAt hash parses {} (p ++ ⟨t₀, now₀, tie, .subscribe n x⟩ :: as)).conc r := by
    simp only [pgNearAt, pgLagAt] at h3 ⊢
    cases hwt : r.wait with
    | ready => rw [hwt] at h3; simp only [Time, Delta] at *; omega
    | looked f => rw [hwt] at h3; exact .inl (Int.le_trans h3 ht)
    | decided c d =>
      rw [hwt] at h3
      left
      have := h3.1
      simp only [Time, Delta] at *; omega
    | loading c d k =>
      rw [hwt] at h3
      obtain ⟨g1, g2, g3, ss, g4, g5⟩ := h3
      refine ⟨ss, g4, ?_⟩
      cases ss with
      | handout y => simp only [pgStageAt, Time, Delta] at *; omega
      | looking y t₀ snap => exact .inl (Int.le_trans g1 ht)
      | locked y t₀ id => simp only [pgStageAt, Time, Delta] at *; omega
      | done res => simp only [pgStageAt]; split <;> first | (simp only [Time, Delta] at *; omega) | simp_all
      | _ => exact g5.elim
    | asleep c since d => rw [hwt] at h3; simp only [Time, Delta] at *; omega
  have h4' : (t :: bs.map (·.real)).Pairwise (· ≤ ·) := by
    rw [List.pairwise_cons] at h4 ⊢
    exact ⟨fun a ha => h4.1 a (List.mem_cons_of_mem _ ha), List.Pairwise.of_cons h4.2⟩
  obtain ⟨b, hb, hlate⟩ := hlate
  obtain ⟨bs₁, a, bs₂, q1, q2, q3⟩ := pgDueAt hε (pgReachAt _ PgInv.init) bs h1 h3 hn h4' h5 hj hw (hx.trans h2.symm) hdue hb hlate
  refine ⟨bs₁, a, bs₂, q1, q2, ?_⟩
  intro s
  have : s = (PgNet.runAt hash parses {} (p ++ ⟨t₀, now₀, tie, .subscribe n x⟩ :: as)).runAt hash parses bs₁ := pgRunAt_app _ _ _ _ bs₁
  rw [this]
  exact q3

/-- With clocks that are right, this is the machine of C122. -/
theorem C135_right_clock_postgres (hash : HashFn) (parses : Parses) (tie : Int → Nat) (s : PgNet) (t : Time) (a : NetAct) :
    s.stepAt hash parses tie t t a = s.step hash parses tie t a := by
  cases a with
  | stream i b =>
    simp only [PgNet.stepAt, PgNet.step]
    cases s.readers[i]? <;> rfl
  | _ => rfl

/-! ## Examples -/

/-- A job for 2 s is enqueued at 0 s, while the clock is an hour behind. -/
def slowClockBefore : List ClockedAct :=
  [⟨0, -3600 * sec, .client (.start { sampleEnq with scheduledAt := 2 * sec })⟩, ⟨0, -3600 * sec, .client (.advance 0)⟩,
   ⟨0, -3600 * sec, .client (.advance 0)⟩, ⟨0, -3600 * sec, .client (.advance 0)⟩]

/-- The stream looks at the clock and goes to sleep. -/
def slowClockStart : List ClockedAct :=
  [⟨ms, -3600 * sec, .stream 0 false⟩, ⟨2 * ms, -3600 * sec, .stream 0 false⟩, ⟨3 * ms, -3600 * sec, .stream 0 false⟩]

/-- By 2 s the clock has been set right. The stream sleeps on, for half a minute. -/
def slowClockRest : List ClockedAct :=
  [⟨2 * sec, 2 * sec, .stream 0 false⟩, ⟨29 * sec, 29 * sec, .stream 0 false⟩,
   ⟨30 * sec + 4 * ms, 30 * sec + 4 * ms, .stream 0 false⟩, ⟨30 * sec + 5 * ms, 30 * sec + 5 * ms, .stream 0 false⟩,
   ⟨30 * sec + 6 * ms, 30 * sec + 6 * ms, .stream 0 false⟩, ⟨30 * sec + 7 * ms, 30 * sec + 7 * ms, .stream 0 false⟩,
   ⟨30 * sec + 8 * ms, 30 * sec + 8 * ms, .stream 0 false⟩, ⟨30 * sec + 9 * ms, 30 * sec + 9 * ms, .stream 0 false⟩,
   ⟨30 * sec + 10 * ms, 30 * sec + 10 * ms, .stream 0 false⟩, ⟨33 * sec, 33 * sec, .client (.op (.query (.statusEqual .complete)))⟩]

/-- The hypotheses of `C135_in_memory` are met; the job waits for 28 s after the clock shows its
time. -/
example : ((0 : Time) :: (slowClockStart.map (·.real) ++ 2 * sec :: slowClockRest.map (·.real))).Pairwise (· ≤ ·) ∧
    PromptAt ms 0 0 ((Streams.init false).runAt (slowClockBefore ++ [⟨0, -3600 * sec, .subscribe "mail"⟩]))
      (slowClockStart ++ slowClockRest) ∧
    (∃ k ∈ ((Streams.init false).runAt (slowClockBefore ++ ⟨0, -3600 * sec, .subscribe "mail"⟩ :: slowClockStart)).conc.mem.jobs,
      k.job.status = .scheduled ∧ k.job.executor = "mail" ∧ (∀ b ∈ slowClockRest, k.job.scheduledAt ≤ b.now) ∧
      ∃ b ∈ slowClockRest, 2 * sec + 30000000000 + 6 * ms < b.real) ∧
    ((((Streams.init false).runAt (slowClockBefore ++ ⟨0, -3600 * sec, .subscribe "mail"⟩ :: slowClockStart)).traceAt
      slowClockRest).findIdx? fun e => match e with | .returned 0 j => j.id == 0 | _ => false) = some 5 := by
  decide +kernel

def clockedNet (real now : Time) (a : NetAct) : ClockedNet := ⟨real, now, fun _ => 0, a⟩

/-- On Postgres: the clock of the node is ahead by a minute, that of the database is right. A job for
5 s is there. -/
def fastNodeStart : List ClockedNet :=
  [clockedNet ms ms (.stream 0 false), clockedNet (2 * ms) (60 * sec) (.stream 0 false), clockedNet (3 * ms) (3 * ms) (.stream 0 false),
   clockedNet (4 * ms) (4 * ms) (.stream 0 false), clockedNet (5 * ms) (5 * ms) (.stream 0 false), clockedNet (6 * ms) (6 * ms) (.stream 0 false)]

/-- At 50 ms the clock of the database is set to 6 s. -/
def fastNodeRest : List ClockedNet :=
  [clockedNet (50 * ms) (61 * sec) (.stream 0 false), clockedNet (50 * ms) (6 * sec) (.stream 0 false),
   clockedNet (50 * ms) (61 * sec) (.stream 0 false), clockedNet (50 * ms) (6 * sec) (.stream 0 false),
   clockedNet (50 * ms) (6 * sec) (.stream 0 false), clockedNet (50 * ms) (6 * sec) (.stream 0 false),
   clockedNet (50 * ms) (6 * sec) (.stream 0 false), clockedNet (50 * ms) (6 * sec) (.stream 0 false),
   clockedNet (50 * ms) (6 * sec) (.stream 0 false), clockedNet (50 * ms) (61 * sec) (.stream 0 false),
   clockedNet (50 * ms) (61 * sec) (.stream 0 false), clockedNet (30 * sec + 100 * ms) (91 * sec) (.stream 0 false),
   clockedNet (30 * sec + 100 * ms) (36 * sec) (.stream 0 false), clockedNet (30 * sec + 100 * ms) (91 * sec) (.stream 0 false),
   clockedNet (30 * sec + 100 * ms) (91 * sec) (.stream 0 false), clockedNet (32 * sec) (38 * sec) .connect]

/-- The hypotheses of `C135_on_postgres` are met with clocks that differ by a minute, and the job is
returned. -/
example : ((0 : Time) :: (fastNodeStart.map (·.real) ++ 50 * ms :: fastNodeRest.map (·.real))).Pairwise (· ≤ ·) ∧
    PromptNetAt sampleHash sampleParses (100 * ms) 0 0 (PgNet.runAt sampleHash sampleParses {}
      ([clockedNet 0 0 .connect, clockedNet 0 0 (.db (.plain { sampleEnq with scheduledAt := 5 * sec }))] ++
        [clockedNet 0 0 (.subscribe 0 "mail")])) (fastNodeStart ++ fastNodeRest) ∧
    (∃ j ∈ (PgNet.runAt sampleHash sampleParses {} ([clockedNet 0 0 .connect,
        clockedNet 0 0 (.db (.plain { sampleEnq with scheduledAt := 5 * sec }))] ++
        clockedNet 0 0 (.subscribe 0 "mail") :: fastNodeStart)).conc.pg.rows,
      j.status = .scheduled ∧ j.executor = "mail" ∧ (∀ b ∈ fastNodeRest, j.scheduledAt ≤ b.now) ∧
      ∃ b ∈ fastNodeRest, 50 * ms + 30000000000 + 10 * (100 * ms) < b.real) ∧
    ((PgNet.runAt sampleHash sampleParses {} ([clockedNet 0 0 .connect,
        clockedNet 0 0 (.db (.plain { sampleEnq with scheduledAt := 5 * sec }))] ++
        clockedNet 0 0 (.subscribe 0 "mail") :: fastNodeStart)).traceAt sampleHash sampleParses fastNodeRest).any
      (fun e => match e with | .returned 0 j => j.id == 1 | _ => false) = true := by
  decide +kernel

end Rexecutor
