import Verif.Props.StreamProgress

/-!
# C122: a due job is handed out on time

Real time: every step of a stream is made within `ε` of the moment it can be made.
-/

namespace Rexecutor

/-- From when on stream `i` can make its next step, as of an action at `now`: at once, unless it is
asleep and no message has come; then from when its timer has run out. -/
def Streams.movesFrom (s : Streams) (i : Nat) (now : Time) : Time :=
  match s.readers[i]? with
  | some { wait := .asleep _ since delay, sub := n, .. } =>
    if s.conc.mem.hasMessage n then now else since + delay
  | _ => now

/-- Something happened. -/
def StEv.isSomething : StEv → Bool
  | .nothing => false
  | _ => true

/-- Stream `i`, which can make its next step from `m` on, makes that step and every later one
within `ε` of when it first can: nothing at all happens later than that without it. -/
def PromptStream (ε : Delta) (i : Nat) : Time → Streams → List TStAct → Prop
  | _, _, [] => True
  | m, s, a :: as =>
    a.now ≤ m + ε ∧
    PromptStream ε i
      (if a.act.isStream i && (s.step a.now a.act).1.isSomething then (s.step a.now a.act).2.movesFrom i a.now
       else min m ((s.step a.now a.act).2.movesFrom i a.now))
      (s.step a.now a.act).2 as

instance PromptStream.dec (ε : Delta) (i : Nat) : ∀ (m : Time) (s : Streams) (as : List TStAct),
    Decidable (PromptStream ε i m s as)
  | _, _, [] => .isTrue trivial
  | _, s, a :: as => @instDecidableAnd _ _ _ (PromptStream.dec ε i _ (s.step a.now a.act).2 as)

private theorem onTime_get {s : Streams} {i k : Nat} {r : Reader} (hr : s.readers[i]? = some r) (w : Wait) :
    (s.setWait k w).readers[i]? = some (if k = i then { r with wait := w } else r) := by
  simp only [Streams.setWait, List.getElem?_modify, hr, Option.map_some]
  split <;> rfl

/-- What others do leaves a stream where it is. -/
theorem stream_unmoved {s : Streams} {i : Nat} {r : Reader} {now : Time} {a : StAct} (hr : s.readers[i]? = some r)
    (ha : a.isStream i = false) : (s.step now a).2.readers[i]? = some r := by
  cases a with
  | client a => exact hr
  | subscribe x =>
    simp only [Streams.step]
    rw [List.getElem?_append_left (List.getElem?_eq_some_iff.mp hr).1, hr]
  | stream k timer =>
    have hk : k ≠ i := by simpa [StAct.isStream] using ha
    simp only [Streams.step]
    cases hrk : s.readers[k]? with
    | none => exact hr
    | some q =>
      have set : ∀ (s' : Streams) (w : Wait), s'.readers = s.readers → (s'.setWait k w).readers[i]? = some r := by
        intro s' w h
        rw [onTime_get (h ▸ hr), if_neg hk]
      simp only [Streams.streamStep]
      cases q.wait with
      | ready => exact set s _ rfl
      | looked g => exact set s _ rfl
      | decided c d =>
        simp only
        split
        · generalize s.conc.mem.load now q.executor = z
          obtain ⟨j, m⟩ := z
          cases j with
          | some j => exact set (s.setMem m) _ rfl
          | none => exact set s _ rfl
        · exact set s _ rfl
      | asleep c since d =>
        simp only
        split
        · exact set (s.setMem _) _ rfl
        · split
          · exact set s _ rfl
          · exact hr

/-- Where a stream is, as of time `t`, if it can move from `m` on. -/
def onTimeLag (ε : Delta) (m t : Time) (msg : Bool) : Wait → Prop
  | .ready => m ≤ t
  | .looked _ => m ≤ t
  | .decided c d => m ≤ c ∧ c ≤ t ∧ 0 ≤ d
  | .asleep c since d => since ≤ c + ε ∧ since ≤ t ∧ m ≤ since + d ∧ (msg = true → m ≤ t)

theorem onTime_delay_nonneg (now : Time) (f : Option Time) : 0 ≤ streamDelay now f := by
  cases f with
  | none => simp [streamDelay, defaultDelay, sec]
  | some t =>
    simp only [streamDelay, defaultDelay, pollDelta, sec, ms, Time, Delta] at *
    split <;> omega

theorem onTime_movesFrom_eq {s : Streams} {i : Nat} {r : Reader} (hr : s.readers[i]? = some r) (now : Time) :
    s.movesFrom i now =
      match r.wait with
      | .asleep _ since delay => if s.conc.mem.hasMessage r.sub then now else since + delay
      | _ => now := by
  simp only [Streams.movesFrom, hr]
  obtain ⟨n, x, w⟩ := r
  cases w <;> rfl

/-- A message stays until the stream takes it. -/
theorem onTime_message_stays {s : Streams} (H : StreamInv s) {i : Nat} {r : Reader} {now : Time} {a : StAct}
    (hr : s.readers[i]? = some r) (ha : a.isStream i = false) (h : s.conc.mem.hasMessage r.sub = true) :
    (s.step now a).2.conc.mem.hasMessage r.sub = true := by
  have grow : ∀ m' : Mem, SubsGrow s.conc.mem m' → m'.hasMessage r.sub = true := by
    intro m' hg
    unfold Mem.hasMessage at h ⊢
    cases hs : s.conc.mem.subs[r.sub]? with
    | none => rw [hs] at h; cases h
    | some sb =>
      rw [hs] at h
      obtain ⟨q, hq⟩ := hg.2 _ _ hs
      rw [hq]
      simp only [Bool.not_eq_true', List.isEmpty_eq_false_iff] at h ⊢
      simp [h]
  cases a with
  | client a => exact grow _ (client_subs now s.conc a).1
  | subscribe x =>
    obtain ⟨sb, h1, -⟩ := H.bound r (List.mem_of_getElem? hr)
    simp only [Streams.step, Mem.hasMessage, Mem.subscribe] at h ⊢
    rw [List.getElem?_append_left (List.getElem?_eq_some_iff.mp h1).1]
    exact h
  | stream n timer =>
    have hni : n ≠ i := by simpa [StAct.isStream] using ha
    simp only [Streams.step]
    cases hq : s.readers[n]? with
    | none => exact h
    | some q =>
      simp only [Streams.streamStep]
      cases hwt : q.wait with
      | ready => exact h
      | looked f => exact h
      | decided clock delay =>
        simp only
        split
        · have hl := load_subs now q.executor s.conc.mem
          generalize s.conc.mem.load now q.executor = p at hl
          obtain ⟨j, m⟩ := p
          cases j with
          | none => exact h
          | some j =>
            show m.hasMessage r.sub = true
            have hs : m.subs = s.conc.mem.subs := hl.1
            simp only [Mem.hasMessage] at h ⊢
            rw [hs]; exact h
        · exact h
      | asleep clock since delay =>
        simp only
        split
        · have := stream_sub_ne H.distinct hr hq hni
          show (s.conc.mem.receive q.sub).hasMessage r.sub = true
          simp only [Mem.hasMessage, Mem.receive, List.getElem?_modify] at h ⊢
          simpa [this] using h
        · split <;> exact h

/-- What the steps of the stream itself lead to. -/
theorem onTime_own_cases {s : Streams} {i : Nat} {r : Reader} {now : Time} {b : Bool} (hr : s.readers[i]? = some r) :
    (s.step now (.stream i b)).1.isSomething = true ∧
    ((∃ j, (s.step now (.stream i b)).1 = .returned i j ∧ j.executor = r.executor ∧
      (s.step now (.stream i b)).2.readers[i]? = some { r with wait := .ready }) ∨
    (∃ w, (s.step now (.stream i b)).2.readers[i]? = some { r with wait := w } ∧
      match r.wait with
      | .ready => w = .looked (s.conc.mem.nextAvailable r.executor) ∧ (s.step now (.stream i b)).2.conc = s.conc
      | .looked f => w = .decided now (streamDelay now f) ∧ (s.step now (.stream i b)).2.conc = s.conc
      | .decided c d => w = .asleep c now d ∧ (s.step now (.stream i b)).2.conc = s.conc ∧
          (d ≤ pollDelta → ∀ k ∈ s.conc.mem.jobs, readyFor now r.executor k.job = false)
      | .asleep _ _ _ => w = .ready)) ∨
    ((s.step now (.stream i b)).1.isSomething = false ∧ (s.step now (.stream i b)).2 = s) := by
  simp only [Streams.step, hr, Streams.streamStep]
  cases hw : r.wait with
  | ready => exact .inl ⟨rfl, .inr ⟨_, by rw [onTime_get hr, if_pos rfl], rfl, rfl⟩⟩
  | looked f => exact .inl ⟨rfl, .inr ⟨_, by rw [onTime_get hr, if_pos rfl], rfl, rfl⟩⟩
  | decided c d =>
    simp only
    by_cases hd : d ≤ pollDelta
    · rw [if_pos hd]
      rcases load_cases now r.executor s.conc.mem with ⟨h, h'⟩ | ⟨l, k', rr, h1, h2, h3, h4, h5⟩
      · rw [h']
        exact .inl ⟨rfl, .inr ⟨_, by rw [onTime_get hr, if_pos rfl], rfl, rfl, fun _ => h⟩⟩
      · rw [h5]
        refine .inl ⟨rfl, .inl ⟨_, rfl, (readyFor_iff.mp h2).1, ?_⟩⟩
        exact (onTime_get (s := s.setMem _) (k := i) hr .ready).trans (by rw [if_pos rfl])
    · rw [if_neg hd]
      exact .inl ⟨rfl, .inr ⟨_, by rw [onTime_get hr, if_pos rfl], rfl, rfl, fun h => (hd h).elim⟩⟩
  | asleep c since d =>
    simp only
    by_cases h1 : (s.conc.mem.hasMessage r.sub && !(b && decide (since + d ≤ now))) = true
    · rw [if_pos h1]
      exact .inl ⟨rfl, .inr ⟨.ready, (onTime_get (s := s.setMem _) (k := i) hr .ready).trans (by rw [if_pos rfl]), rfl⟩⟩
    · rw [if_neg h1]
      by_cases h2 : since + d ≤ now
      · rw [if_pos (by simpa using h2)]
        exact .inl ⟨rfl, .inr ⟨.ready, by rw [onTime_get hr, if_pos rfl], rfl⟩⟩
      · rw [if_neg (by simpa using h2)]
        exact .inr ⟨rfl, rfl⟩

/-- The time from which the stream can move after an action. -/
def onTimeNext (i : Nat) (m : Time) (s : Streams) (a : TStAct) : Time :=
  if a.act.isStream i && (s.step a.now a.act).1.isSomething then (s.step a.now a.act).2.movesFrom i a.now
  else min m ((s.step a.now a.act).2.movesFrom i a.now)

/-- What holds of a stream all along: it is where it is, and the lag with which it went to sleep is
at most `ε`. -/
theorem onTimeLag_step {ε : Delta} {s : Streams} {i : Nat} {r : Reader} {m t : Time} {a : TStAct}
    (hr : s.readers[i]? = some r) (hl : onTimeLag ε m t (s.conc.mem.hasMessage r.sub) r.wait)
    (ht : t ≤ a.now) (hm : a.now ≤ m + ε) :
    ∃ r', (s.step a.now a.act).2.readers[i]? = some r' ∧ r'.sub = r.sub ∧ r'.executor = r.executor ∧
      onTimeLag ε (onTimeNext i m s a) a.now ((s.step a.now a.act).2.conc.mem.hasMessage r'.sub) r'.wait := by
  obtain ⟨now, a⟩ := a
  simp only at ht hm ⊢
  have stay : ∀ s' : Streams, s'.readers[i]? = some r →
      onTimeLag ε (min m (s'.movesFrom i now)) now (s'.conc.mem.hasMessage r.sub) r.wait := by
    intro s' hr'
    rw [onTime_movesFrom_eq hr']
    cases hw : r.wait with
    | ready => rw [hw] at hl; simp only [onTimeLag, Time, Delta] at *; omega
    | looked f => rw [hw] at hl; simp only [onTimeLag, Time, Delta] at *; omega
    | decided c d => rw [hw] at hl; simp only [onTimeLag, Time, Delta] at *; omega
    | asleep c since d =>
      rw [hw] at hl
      simp only [onTimeLag] at *
      refine ⟨hl.1, Int.le_trans hl.2.1 ht, ?_, ?_⟩
      · have := hl.2.2.1
        simp only [Time, Delta] at *
        omega
      · intro h
        simp only [h, if_true]
        simp only [Time, Delta] at *
        omega
  cases ha : a.isStream i with
  | false =>
    have hr' := stream_unmoved (now := now) hr ha
    refine ⟨r, hr', rfl, rfl, ?_⟩
    simp only [onTimeNext, ha, Bool.false_and]
    exact stay _ hr'
  | true =>
    cases a with
    | stream n b =>
      have hn : n = i := by simpa [StAct.isStream] using ha
      subst hn
      rcases onTime_own_cases (now := now) (b := b) hr with ⟨hs, h⟩ | ⟨hs, h⟩
      · simp only [onTimeNext, ha, hs, Bool.and_self, if_true]
        rcases h with ⟨j, -, -, h⟩ | ⟨w, h, hw⟩
        · refine ⟨_, h, rfl, rfl, ?_⟩
          rw [onTime_movesFrom_eq h]
          exact Int.le_refl _
        · refine ⟨_, h, rfl, rfl, ?_⟩
          rw [onTime_movesFrom_eq h]
          cases hr' : r.wait with
          | ready => rw [hr'] at hw; obtain ⟨hw, -⟩ := hw; subst hw; exact Int.le_refl _
          | looked f =>
            rw [hr'] at hw; obtain ⟨hw, -⟩ := hw; subst hw
            exact ⟨Int.le_refl _, Int.le_refl _, onTime_delay_nonneg _ _⟩
          | decided c d =>
            rw [hr'] at hw hl
            obtain ⟨hw, -⟩ := hw
            subst hw
            simp only [onTimeLag] at *
            refine ⟨?_, Int.le_refl _, ?_, ?_⟩
            · simp only [Time, Delta] at *; omega
            · have := hl.2.2
              split <;> simp only [Time, Delta] at * <;> omega
            · intro h; rw [if_pos h]; exact Int.le_refl _
          | asleep c since d =>
            rw [hr'] at hw
            simp only at hw
            subst hw
            exact Int.le_refl _
      · refine ⟨r, by rw [h]; exact hr, rfl, rfl, ?_⟩
        simp only [onTimeNext, hs, Bool.and_false]
        rw [h]
        exact stay s hr
    | client a => cases ha
    | subscribe x => cases ha

theorem onTime_delay_covers {now t : Time} {f : Option Time} (h : (Wait.looked f).covers t) :
    (Wait.decided now (streamDelay now f)).covers t := by
  cases f with
  | none => exact h.elim
  | some f =>
    simp only [Wait.covers, streamDelay, defaultDelay, pollDelta, sec, ms, Time, Delta] at *
    split <;> omega

/-- The stream is on its way to return a job by `T' + 15 ms + 6 ε`; the job is due at `T`. -/
def onTimeNear (ε : Delta) (T T' m : Time) (msg : Bool) : Wait → Prop
  | .ready => m ≤ T' + 15 * ms + 3 * ε
  | .looked f => m ≤ T' + 15 * ms + 4 * ε ∧ ((Wait.looked f).covers T ∨ (m ≤ T' ∧ msg = true))
  | .decided c d => m ≤ T' + 15 * ms + 5 * ε ∧ ((Wait.decided c d).covers T ∨ (m ≤ T' + ε ∧ msg = true))
  | .asleep _ _ _ => m ≤ T' + 15 * ms + 2 * ε

theorem onTimeNear_le {ε : Delta} {T T' m : Time} {msg : Bool} {w : Wait} (hε : 0 ≤ ε) (h : onTimeNear ε T T' m msg w) :
    m ≤ T' + 15 * ms + 5 * ε := by
  cases w with
  | ready => simp only [onTimeNear, Time, Delta, ms] at *; omega
  | looked f => have := h.1; simp only [Time, Delta, ms] at *; omega
  | decided c d => have := h.1; simp only [Time, Delta, ms] at *; omega
  | asleep c s d => simp only [onTimeNear, Time, Delta, ms] at *; omega

theorem onTimeNear_mono {ε : Delta} {T T' m m' : Time} {msg msg' : Bool} {w : Wait} (h : onTimeNear ε T T' m msg w) (hm : m' ≤ m)
    (hmsg : msg = true → msg' = true) : onTimeNear ε T T' m' msg' w := by
  cases w with
  | ready => exact Int.le_trans hm h
  | looked f =>
    exact ⟨Int.le_trans hm h.1, h.2.imp id fun h => ⟨Int.le_trans hm h.1, hmsg h.2⟩⟩
  | decided c d =>
    exact ⟨Int.le_trans hm h.1, h.2.imp id fun h => ⟨Int.le_trans hm h.1, hmsg h.2⟩⟩
  | asleep c s d => exact Int.le_trans hm h

/-- One action: the stream returns a job, or it is still on its way. -/
theorem onTimeNear_step {ε : Delta} (hε : 0 ≤ ε) {s : Streams} (H : StreamInv s) {i : Nat} {r : Reader} {m t T' : Time} {a : TStAct} {k : KeyedJob}
    (hr : s.readers[i]? = some r) (hl : onTimeLag ε m t (s.conc.mem.hasMessage r.sub) r.wait)
    (hn : onTimeNear ε k.job.scheduledAt T' m (s.conc.mem.hasMessage r.sub) r.wait) (hT : k.job.scheduledAt ≤ T')
    (hm : a.now ≤ m + ε) (hk : k ∈ s.conc.mem.jobs) (hw : k.job.available) (hx : k.job.executor = r.executor) :
    (∃ j, (s.step a.now a.act).1 = .returned i j ∧ j.executor = r.executor) ∨
    ∀ r', (s.step a.now a.act).2.readers[i]? = some r' →
      onTimeNear ε k.job.scheduledAt T' (onTimeNext i m s a) ((s.step a.now a.act).2.conc.mem.hasMessage r.sub) r'.wait := by
  obtain ⟨now, a⟩ := a
  simp only at hm ⊢
  cases ha : a.isStream i with
  | false =>
    right
    intro r' hr'
    rw [stream_unmoved (now := now) hr ha, Option.some.injEq] at hr'
    subst hr'
    refine onTimeNear_mono hn ?_ (onTime_message_stays H hr ha)
    simp only [onTimeNext, ha, Bool.false_and]
    exact Int.min_le_left _ _
  | true =>
    cases a with
    | stream n b =>
      have hn' : n = i := by simpa [StAct.isStream] using ha
      subst hn'
      rcases onTime_own_cases (now := now) (b := b) hr with ⟨hs, h⟩ | ⟨hs, h⟩
      · rcases h with ⟨j, h, hj, -⟩ | ⟨w, h, hwt⟩
        · exact .inl ⟨j, h, hj⟩
        · right
          intro r' hr'
          rw [h, Option.some.injEq] at hr'
          subst hr'
          simp only [onTimeNext, ha, hs, Bool.and_self, if_true]
          rw [onTime_movesFrom_eq h]
          cases hr' : r.wait with
          | ready =>
            rw [hr'] at hwt hn
            obtain ⟨hwt, -⟩ := hwt
            subst hwt
            refine ⟨?_, .inl (nextAvailable_covers hk hw hx)⟩
            simp only [onTimeNear, Time, Delta, ms] at *; omega
          | looked f =>
            rw [hr'] at hwt hn
            obtain ⟨hwt, hc⟩ := hwt
            subst hwt
            refine ⟨?_, ?_⟩
            · have := hn.1
              simp only [Time, Delta, ms] at *; omega
            · rcases hn.2 with h2 | ⟨h2, h3⟩
              · exact .inl (onTime_delay_covers h2)
              · refine .inr ⟨?_, by rw [hc]; exact h3⟩
                simp only [Time, Delta, ms] at *; omega
          | decided c d =>
            rw [hr'] at hwt hn hl
            obtain ⟨hwt, hc, hd⟩ := hwt
            subst hwt
            simp only [onTimeNear, onTimeLag] at *
            rw [hc]
            rcases hn.2 with h2 | ⟨h2, h3⟩
            · by_cases hp : d ≤ pollDelta
              · have hnr := hd hp k hk
                rw [← Bool.not_eq_true, readyFor_iff] at hnr
                have hlate : 100 * ms ≤ k.job.scheduledAt - now := Classical.byContradiction fun h' =>
                  hnr ⟨hx, Int.not_le.mp h', hw⟩
                split <;> simp only [Time, Delta, ms, pollDelta] at * <;> omega
              · have h4 : d ≤ k.job.scheduledAt - c := by
                  rcases h2 with h2 | h2
                  · exact h2
                  · exact (hp h2).elim
                split <;> simp only [Time, Delta, ms] at * <;> omega
            · rw [if_pos h3]
              simp only [Time, Delta, ms] at *; omega
          | asleep c since d =>
            rw [hr'] at hwt hn
            simp only at hwt
            subst hwt
            simp only [onTimeNear, Time, Delta, ms] at *; omega
      · right
        intro r' hr'
        rw [h, hr, Option.some.injEq] at hr'
        subst hr'
        refine onTimeNear_mono hn ?_ (by rw [h]; exact id)
        simp only [onTimeNext, hs, Bool.and_false]
        exact Int.min_le_left _ _
    | client a => cases ha
    | subscribe x => cases ha

/-- The second part of the schedule, in which the job is waiting. -/
private theorem on_time {ε : Delta} (hε : 0 ≤ ε) {s : Streams} (H : StreamInv s) {i : Nat} {r : Reader} {m t T' : Time} {k : KeyedJob}
    (as : List TStAct) (hr : s.readers[i]? = some r) (hl : onTimeLag ε m t (s.conc.mem.hasMessage r.sub) r.wait)
    (hn : onTimeNear ε k.job.scheduledAt T' m (s.conc.mem.hasMessage r.sub) r.wait) (hT : k.job.scheduledAt ≤ T')
    (hc : (t :: as.map (·.now)).Pairwise (· ≤ ·)) (hp : PromptStream ε i m s as)
    (hk : k ∈ s.conc.mem.jobs) (hw : k.job.available) (hx : k.job.executor = r.executor)
    {b : TStAct} (hb : b ∈ as) (hlate : T' + 15 * ms + 6 * ε < b.now) :
    ∃ as₁ a as₂, as = as₁ ++ a :: as₂ ∧ a.now ≤ T' + 15 * ms + 6 * ε ∧
      ((∃ j, ((s.run as₁).step a.now a.act).1 = .returned i j ∧ j.executor = r.executor) ∨
        k ∉ ((s.run as₁).step a.now a.act).2.conc.mem.jobs) := by
  induction as generalizing s r m t with
  | nil => simp at hb
  | cons a as ih =>
    have hpa : a.now ≤ m + ε := hp.1
    have hD : a.now ≤ T' + 15 * ms + 6 * ε := by
      have := onTimeNear_le hε hn
      simp only [Time, Delta, ms] at *; omega
    rw [List.map_cons] at hc
    have hta : t ≤ a.now := List.rel_of_pairwise_cons hc (by simp)
    rcases onTimeNear_step hε H hr hl hn hT hpa hk hw hx with h | h
    · exact ⟨[], a, as, rfl, hD, .inl h⟩
    · by_cases hk' : k ∈ (s.step a.now a.act).2.conc.mem.jobs
      · obtain ⟨r', h1, h2, h3, h4⟩ := onTimeLag_step hr hl hta hpa
        have hb' : b ∈ as := by
          rcases List.mem_cons.mp hb with h' | h'
          · subst h'; exact (Int.not_le.mpr hlate hD).elim
          · exact h'
        obtain ⟨as₁, c, as₂, g1, g2, g3⟩ := ih (streamInv_step H a.now a.act) h1 h4 (h2 ▸ h r' h1)
          (List.Pairwise.of_cons hc) hp.2 hk' (hx.trans h3.symm) hb'
        refine ⟨a :: as₁, c, as₂, by rw [g1]; rfl, g2, ?_⟩
        rw [h3] at g3
        exact g3
      · exact ⟨[], a, as, rfl, hD, .inr hk'⟩

/-- The first part of the schedule. -/
private theorem onTimeLag_run {ε : Delta} {s : Streams} {i : Nat} {r : Reader} {m t u : Time} (as bs : List TStAct)
    (hr : s.readers[i]? = some r) (hl : onTimeLag ε m t (s.conc.mem.hasMessage r.sub) r.wait)
    (hc : (t :: (as.map (·.now) ++ u :: bs.map (·.now))).Pairwise (· ≤ ·)) (hp : PromptStream ε i m s (as ++ bs)) :
    ∃ r' m' t', (s.run as).readers[i]? = some r' ∧ r'.executor = r.executor ∧
      onTimeLag ε m' t' ((s.run as).conc.mem.hasMessage r'.sub) r'.wait ∧
      (t' :: u :: bs.map (·.now)).Pairwise (· ≤ ·) ∧ PromptStream ε i m' (s.run as) bs := by
  induction as generalizing s r m t with
  | nil => exact ⟨r, m, t, hr, rfl, hl, hc, hp⟩
  | cons a as ih =>
    rw [List.map_cons, List.cons_append] at hc
    obtain ⟨r', h1, -, h3, h4⟩ := onTimeLag_step hr hl (List.rel_of_pairwise_cons hc (by simp)) hp.1
    obtain ⟨q, m', t', g1, g2, g3⟩ := ih h1 h4 (List.Pairwise.of_cons hc) hp.2
    exact ⟨q, m', t', g1, g2.trans h3, g3⟩

/-- **C122, in memory.** A stream is made at `t₀`, and from then on makes each of its steps within
`ε` of when it first can; clocks do not run backwards. At `t₁` a job of its executor waits, whose
enqueueing is over. Then by 15 ms and six times `ε` after the job is due – or after `t₁`, if that is
later – the stream has returned a job, or the job waits no longer. -/
theorem C122_in_memory {ε : Delta} (hε : 0 ≤ ε) (p as bs : List TStAct) (x : String) (i : Nat) (t₀ t₁ : Time) (k : KeyedJob)
    (hi : i = ((Streams.init).run p).readers.length)
    (hc : (t₀ :: (as.map (·.now) ++ t₁ :: bs.map (·.now))).Pairwise (· ≤ ·))
    (hp : PromptStream ε i t₀ ((Streams.init).run (p ++ [⟨t₀, .subscribe x⟩])) (as ++ bs))
    (hk : k ∈ ((Streams.init).run (p ++ ⟨t₀, .subscribe x⟩ :: as)).conc.mem.jobs)
    (hw : k.job.status = .scheduled ∨ k.job.status = .retryable) (hx : k.job.executor = x)
    (hen : ¬ ((Streams.init).run (p ++ ⟨t₀, .subscribe x⟩ :: as)).conc.enqueuing k.job)
    (hlate : ∃ b ∈ bs, max k.job.scheduledAt t₁ + 15000000 + 6 * ε < b.now) :
    ∃ bs₁ b bs₂, bs = bs₁ ++ b :: bs₂ ∧ b.now ≤ max k.job.scheduledAt t₁ + 15000000 + 6 * ε ∧
      ((∃ j, (((Streams.init).run (p ++ ⟨t₀, .subscribe x⟩ :: as ++ bs₁)).step b.now b.act).1 = .returned i j ∧ j.executor = x) ∨
        k ∉ ((Streams.init).run (p ++ ⟨t₀, .subscribe x⟩ :: as ++ bs₁ ++ [b])).conc.mem.jobs) := by
  have happ : ∀ (s : Streams) (l₁ l₂ : List TStAct), s.run (l₁ ++ l₂) = (s.run l₁).run l₂ := by
    intro s l₁
    induction l₁ generalizing s with
    | nil => intro l₂; rfl
    | cons a l ih => intro l₂; exact ih _ l₂
  have e1 : ((Streams.init).run (p ++ ⟨t₀, .subscribe x⟩ :: as)) = ((Streams.init).run (p ++ [⟨t₀, .subscribe x⟩])).run as := by
    rw [← happ]; simp
  have hr : ((Streams.init).run (p ++ [⟨t₀, .subscribe x⟩])).readers[i]? =
      some { sub := ((Streams.init).run p).conc.mem.subs.length, executor := x, wait := .ready } := by
    rw [happ, hi]
    simp [Streams.run, Streams.step]
  have hb := onTimeLag_run (ε := ε) (m := t₀) as bs hr (Int.le_refl _) hc hp
  obtain ⟨r, m, t, h1, h2, h3, h4, h5⟩ := hb
  simp only at h2
  rw [← e1] at h1 h3 h5
  generalize hs : (Streams.init).run (p ++ ⟨t₀, .subscribe x⟩ :: as) = s at *
  have H : StreamInv s := by rw [← hs]; exact streamInv_run (streamInv_init false) _
  have hpa : s.conc.mem.paused = false := by rw [← hs]; exact streams_run_paused _ _
  have ht : t ≤ t₁ := List.rel_of_pairwise_cons h4 (by simp)
  have hcov : s.conc.mem.hasMessage r.sub = true ∨ r.wait.covers k.job.scheduledAt := by
    obtain ⟨sb, g1, g2⟩ := H.bound r (List.mem_of_getElem? h1)
    by_cases hq : sb.queue = []
    · exact .inr (H.covers hpa r (List.mem_of_getElem? h1) sb g1 hq k hk hw (hx.trans h2.symm) hen)
    · left
      simp [Mem.hasMessage, g1, hq]
  have hmax1 : k.job.scheduledAt ≤ max k.job.scheduledAt t₁ := Int.le_max_left _ _
  have hmax2 : t₁ ≤ max k.job.scheduledAt t₁ := Int.le_max_right _ _
  generalize max k.job.scheduledAt t₁ = T' at *
  have hn : onTimeNear ε k.job.scheduledAt T' m (s.conc.mem.hasMessage r.sub) r.wait := by
    cases hwt : r.wait with
    | ready =>
      rw [hwt] at h3
      simp only [onTimeNear, onTimeLag, Time, Delta, ms] at *; omega
    | looked f =>
      rw [hwt] at h3 hcov
      refine ⟨?_, hcov.symm.imp id fun h => ⟨?_, h⟩⟩ <;> simp only [onTimeLag, Time, Delta, ms] at * <;> omega
    | decided c d =>
      rw [hwt] at h3 hcov
      obtain ⟨h3, h3', -⟩ := h3
      refine ⟨?_, hcov.symm.imp id fun h => ⟨?_, h⟩⟩ <;> simp only [Time, Delta, ms] at * <;> omega
    | asleep c since d =>
      rw [hwt] at h3 hcov
      simp only [onTimeLag, onTimeNear] at *
      obtain ⟨g1, g2, g3, g4⟩ := h3
      rcases hcov with h | h
      · have := g4 h
        simp only [Time, Delta, ms] at *; omega
      · simp only [Wait.covers, pollDelta, Time, Delta, ms] at *; omega
  obtain ⟨b, hb, hlate⟩ := hlate
  have h4' : (t :: bs.map (·.now)).Pairwise (· ≤ ·) := by
    rw [List.pairwise_cons] at h4 ⊢
    exact ⟨fun a ha => h4.1 a (List.mem_cons_of_mem _ ha), List.Pairwise.of_cons h4.2⟩
  obtain ⟨bs₁, a, bs₂, g1, g2, g3⟩ := on_time hε H bs h1 h3 hn hmax1 h4' h5 hk hw (hx.trans h2.symm) hb
    (by simp only [Time, Delta, ms] at *; omega)
  refine ⟨bs₁, a, bs₂, g1, by simp only [Time, Delta, ms] at *; omega, ?_⟩
  have e2 : (Streams.init).run (p ++ ⟨t₀, .subscribe x⟩ :: as ++ bs₁) = s.run bs₁ := by rw [happ, hs]
  have e3 : (Streams.init).run (p ++ ⟨t₀, .subscribe x⟩ :: as ++ bs₁ ++ [a]) = ((s.run bs₁).step a.now a.act).2 := by
    rw [happ, e2]; rfl
  rw [e2, e3]
  rw [h2] at g3
  exact g3

/-- A stream made at `0` goes to sleep; at 1 s a job is enqueued, due at 7 s, and wakes it. -/
def promptStart : List TStAct :=
  [⟨0, .stream 0 false⟩, ⟨ms, .stream 0 false⟩, ⟨2 * ms, .stream 0 false⟩,
   ⟨1 * sec, .client (.start { sampleEnq with scheduledAt := 7 * sec })⟩,
   ⟨1 * sec, .client (.advance 0)⟩, ⟨1 * sec, .client (.advance 0)⟩, ⟨1 * sec, .client (.advance 0)⟩]

/-- It looks again, sleeps until the job is due, returns it and sleeps again, each step 1 ms after
the one before or after the timer ran out. -/
def promptRest : List TStAct :=
  [⟨1 * sec + ms, .stream 0 false⟩, ⟨1 * sec + 2 * ms, .stream 0 false⟩, ⟨1 * sec + 3 * ms, .stream 0 false⟩,
   ⟨1 * sec + 4 * ms, .stream 0 false⟩, ⟨7 * sec + 2 * ms, .stream 0 true⟩, ⟨7 * sec + 3 * ms, .stream 0 false⟩,
   ⟨7 * sec + 4 * ms, .stream 0 false⟩, ⟨7 * sec + 5 * ms, .stream 0 false⟩, ⟨7 * sec + 6 * ms, .stream 0 false⟩,
   ⟨7 * sec + 7 * ms, .stream 0 false⟩, ⟨7 * sec + 8 * ms, .stream 0 false⟩, ⟨8 * sec, .client (.op (.query (.statusEqual .complete)))⟩]

/-- The hypotheses are met by a stream that is never more than 1 ms late; it returns the job 5 ms
after it is due. -/
example : ((0 : Time) :: (promptStart.map (·.now) ++ 1 * sec :: promptRest.map (·.now))).Pairwise (· ≤ ·) ∧
    PromptStream ms 0 0 ((Streams.init).run [⟨0, .subscribe "mail"⟩]) (promptStart ++ promptRest) ∧
    (∃ k ∈ ((Streams.init).run (⟨0, .subscribe "mail"⟩ :: promptStart)).conc.mem.jobs,
      k.job.status = .scheduled ∧ k.job.executor = "mail" ∧ k.job.scheduledAt = 7 * sec ∧
      ∃ b ∈ promptRest, max k.job.scheduledAt (1 * sec) + 15000000 + 6 * ms < b.now) := by
  decide +kernel

/-- The enqueue call has returned. -/
example (k : KeyedJob) : ¬ ((Streams.init).run (⟨0, .subscribe "mail"⟩ :: promptStart)).conc.enqueuing k.job := by
  rintro ⟨e, h, -⟩
  have hall : (((Streams.init).run (⟨0, .subscribe "mail"⟩ :: promptStart)).conc.calls.all fun p => match p with
    | .done _ => true
    | _ => false) = true := by decide +kernel
  exact absurd (List.all_eq_true.mp hall _ h) (by simp)

/-- The stream returns the job at 7.005 s. -/
example : ((((Streams.init).run (⟨0, .subscribe "mail"⟩ :: promptStart)).events promptRest).findIdx? fun e => e.2.handsOut 0) = some 7 ∧
    promptRest[7]?.map (·.now) = some (7 * sec + 5 * ms) := by decide +kernel

/-- A stream that is late is not prompt: a step made 6 ms after the one before. -/
example : ¬ PromptStream ms 0 0 ((Streams.init).run [⟨0, .subscribe "mail"⟩])
    [⟨0, .stream 0 false⟩, ⟨6 * ms, .stream 0 false⟩] := by decide

end Rexecutor
