import Verif.Lemmas.Live
import Verif.Props.Poll

/-!
# C124: a runner begins a due job on time

Real time, for runners with their streams: every step of the runner's stream is made within `ε` of
the moment it can be made, and the runner is never without a free place for longer than `D`.
-/

namespace Rexecutor

/-- Runner `r` has room for another execution: its limit is not reached (0 means no limit). -/
def Live.room (defs : List Runner) (s : Live) (r : Nat) : Bool :=
  match defs[r]?, s.runners[r]? with
  | some d, some q =>
    match d.maxConcurrency with
    | some (l + 1) => decide (q.state.flights.length < l + 1)
    | _ => true
  | _, _ => false

/-- From when on the stream of runner `r` can make its next step, as of an action at `now`. -/
def Live.movesFrom (s : Live) (r : Nat) (now : Time) : Time :=
  match s.runners[r]? with
  | some { stream := some n, .. } => s.streams.movesFrom n now
  | _ => now

/-- The stream of runner `r` can make its next step from `m` on, and whether there is room has not
changed since `f`. As long as there is room, the stream makes that step, and every later one, within
`ε` of when it first can and there is room: nothing at all happens later than that without it. There
is never no room for longer than `D`. -/
def PromptRunner (ε D : Delta) (defs : List Runner) (r : Nat) : Time → Time → Live → List TLvAct → Prop
  | _, _, _, [] => True
  | m, f, s, a :: as =>
    (if s.room defs r then a.now ≤ max m f + ε else a.now ≤ f + D) ∧
    PromptRunner ε D defs r
      (if (s.act defs a.now a.act).1.isMove r then (s.act defs a.now a.act).2.movesFrom r a.now
       else min m ((s.act defs a.now a.act).2.movesFrom r a.now))
      (if (s.act defs a.now a.act).2.room defs r = s.room defs r then f else a.now)
      (s.act defs a.now a.act).2 as

instance PromptRunner.dec (ε D : Delta) (defs : List Runner) (r : Nat) : ∀ (m f : Time) (s : Live) (as : List TLvAct),
    Decidable (PromptRunner ε D defs r m f s as)
  | _, _, _, [] => .isTrue trivial
  | _, _, s, a :: as =>
    @instDecidableAnd _ _ inferInstance (PromptRunner.dec ε D defs r _ _ (s.act defs a.now a.act).2 as)

theorem live_room_eq {defs : List Runner} {s : Live} {r : Nat} {d : Runner} {q : LiveRunner} (hd : defs[r]? = some d)
    (hq : s.runners[r]? = some q) : s.room defs r = belowLimit d.maxConcurrency q.state.flights.length := by
  simp only [Live.room, hd, hq, belowLimit]
  cases d.maxConcurrency with
  | none => rfl
  | some l =>
    cases l with
    | zero => rfl
    | succ l => simp

theorem live_below_mono {l : Option Nat} {a b : Nat} (h : a ≤ b) (hb : belowLimit l b = true) : belowLimit l a = true := by
  cases l with
  | none => rfl
  | some l =>
    simp only [belowLimit, Bool.or_eq_true, decide_eq_true_eq] at hb ⊢
    rcases hb with h' | h'
    · exact .inl h'
    · exact .inr (by omega)

/-- What an action is for runner `r`, whose stream is the `i`-th: somebody else's, or a step of its
stream, which may return a job. -/
theorem live_kind {defs : List Runner} {now : Time} {s : Live} (H : LiveInv s) (a : LvAct) {r i : Nat} {d : Runner}
    {q : LiveRunner} (hd : defs[r]? = some d) (hq : s.runners[r]? = some q) (hs : q.stream = some i) :
    ∃ q', (s.act defs now a).2.runners[r]? = some q' ∧ q'.stream = some i ∧
      (((s.act defs now a).1.isMove r = false ∧
        (∀ sa, liveView defs s a = some sa → sa.isStream i = true → (s.streams.step now sa).2 = s.streams) ∧
        q'.state.flights.length ≤ q.state.flights.length ∧
        (q'.inPoll = true → q.inPoll = true ∨ belowLimit d.maxConcurrency q'.state.flights.length = true)) ∨
      ∃ b, liveView defs s a = some (.stream i b) ∧ q.inPoll = true ∧ (s.act defs now a).1.isMove r = true ∧
        (s.streams.step now (.stream i b)).1.isSomething = true ∧
        ((q' = q ∧ ∀ j k, (s.streams.step now (.stream i b)).1 ≠ .returned k j) ∨
         (q'.inPoll = false ∧ ∃ j k, (s.streams.step now (.stream i b)).1 = .returned k j))) := by
  have easy : (∀ n b, a ≠ .step n b) → (∀ sa, liveView defs s a = some sa → sa.isStream i = false) →
      ∃ q', (s.act defs now a).2.runners[r]? = some q' ∧ q'.stream = some i ∧
      (s.act defs now a).1.isMove r = false ∧
        (∀ sa, liveView defs s a = some sa → sa.isStream i = true → (s.streams.step now sa).2 = s.streams) ∧
        q'.state.flights.length ≤ q.state.flights.length ∧
        (q'.inPoll = true → q.inPoll = true ∨ belowLimit d.maxConcurrency q'.state.flights.length = true) := by
    intro hne hv
    have hmove : (s.act defs now a).1.isMove r = false := by
      cases a with
      | step n b => exact (hne n b rfl).elim
      | client a => rfl
      | shutdown => rfl
      | begin n => simp only [Live.act]; split <;> rfl
      | poll n =>
        simp only [Live.act]
        split
        · split
          · split <;> rfl
          · rfl
        · rfl
      | finish n k b =>
        simp only [Live.act]
        split
        · split
          · split
            · rfl
            · split <;> rfl
          · rfl
        · rfl
      | report n k =>
        simp only [Live.act]
        split
        · split <;> rfl
        · rfl
    obtain ⟨q', h1, hm⟩ := live_moves defs now s a r q hq
    have hv' : ∀ sa, liveView defs s a = some sa → sa.isStream i = true → (s.streams.step now sa).2 = s.streams := by
      intro sa h h'; rw [hv sa h] at h'; cases h'
    cases hm with
    | same h => exact ⟨q', h1, by rw [h, hs], hmove, hv', by rw [h]; exact Nat.le_refl _, fun hp => .inl (by rw [← h]; exact hp)⟩
    | begun hn => rw [hs] at hn; cases hn
    | polls n d' hn hd' h hi hp hc hb he =>
      rw [hd, Option.some.injEq] at hd'
      subst hd'
      exact ⟨q', h1, by rw [h]; exact hs, hmove, hv', by rw [h]; exact Nat.le_refl _, fun _ => .inr (by rw [h]; exact hb)⟩
    | stops n hn hi h he => exact ⟨q', h1, by rw [h]; exact hs, hmove, hv', by rw [h]; exact Nat.le_refl _,
        fun hp => .inl (by rw [h] at hp; exact hp)⟩
    | pends n hn hi h he => exact ⟨q', h1, by rw [h]; exact hs, hmove, hv', by rw [h]; exact Nat.le_refl _,
        fun hp => by rw [h] at hp; cases hp⟩
    | takes n k d j hn hi hd' h he => rw [he] at hmove; simp [LvEv.isMove] at hmove
    | ends t jn o hi hn h he =>
      rcases h with ⟨x, fl, -, h⟩ | h
      · exact ⟨q', h1, by rw [h]; exact hs, hmove, hv', by rw [h]; simp, fun hp => by rw [h] at hp; exact .inl hp⟩
      · exact ⟨q', h1, by rw [h]; exact hs, hmove, hv', by rw [h]; exact Nat.zero_le _, fun hp => by rw [h] at hp; exact .inl hp⟩
    | reports t e x hi hn h he =>
      exact ⟨q', h1, by rw [h]; exact hs, hmove, hv', by rw [h]; exact (List.eraseIdx_sublist ..).length_le,
        fun hp => by rw [h] at hp; exact .inl hp⟩
  cases a with
  | step n b =>
    by_cases hn : n = r
    · subst hn
      obtain ⟨st, ip, rs⟩ := q
      cases hs
      cases ip with
      | false =>
        refine ⟨_, ?_, rfl, .inl ⟨?_, ?_, Nat.le_refl _, .inl⟩⟩
        · simp only [Live.act, hd, hq]
        · simp only [Live.act, hd, hq]; rfl
        · simp [liveView, hd, hq]
      | true =>
        have hv : liveView defs s (.step n b) = some (.stream i b) := by simp [liveView, hd, hq]
        obtain ⟨rd, hrd⟩ : ∃ rd, s.streams.readers[i]? = some rd := ⟨_, List.getElem?_eq_getElem (H.bound _ _ i hq rfl)⟩
        have hsn := @stream_nothing s.streams now i b
        simp only [hv]
        simp only [Live.act, hd, hq]
        generalize hz : s.streams.step now (.stream i b) = z at hsn
        obtain ⟨ev, st'⟩ := z
        have hlt := (List.getElem?_eq_some_iff.mp hq).1
        cases ev with
        | nothing =>
          refine ⟨⟨some i, false, rs⟩, by simp [hlt], rfl, .inl ⟨rfl, ?_, Nat.le_refl _, fun h => by cases h⟩⟩
          intro sa h _
          cases h
          rw [hz]
          exact hsn rfl
        | returned k j =>
          refine ⟨_, by simp [hlt]; rfl, ?_, .inr ⟨b, rfl, trivial, by simp [LvEv.isMove], by rw [hz]; rfl, .inr ⟨?_, j, k, by rw [hz]⟩⟩⟩
          · unfold LiveRunner.take; split <;> rfl
          · unfold LiveRunner.take; split <;> rfl
        | _ =>
          refine ⟨_, hq, rfl, .inr ⟨b, rfl, trivial, by simp [LvEv.isMove], by rw [hz]; rfl, .inl ⟨rfl, ?_⟩⟩⟩
          intro j k h
          rw [hz] at h
          cases h
    · have hmove : (s.act defs now (.step n b)).1.isMove r = false := by
        simp only [Live.act]
        split
        · split
          · simpa [LvEv.isMove] using hn
          · rfl
          · simpa [LvEv.isMove] using hn
        · rfl
      have hq' : (s.act defs now (.step n b)).2.runners[r]? = some q := by
        simp only [Live.act]
        split
        · split
          · simp [hn, hq]
          · simp [hn, hq]
          · exact hq
        · exact hq
      refine ⟨q, hq', hs, .inl ⟨hmove, ?_, Nat.le_refl _, .inl⟩⟩
      intro sa h h'
      exfalso
      simp only [liveView] at h
      cases hd' : defs[n]? with
      | none => rw [hd'] at h; cases h
      | some d' =>
        cases hq₂ : s.runners[n]? with
        | none => rw [hd', hq₂] at h; cases h
        | some p =>
          rw [hd', hq₂] at h
          obtain ⟨st, ip, rs⟩ := p
          cases st with
          | none => cases h
          | some x =>
            cases ip with
            | false => cases h
            | true =>
              cases h
              have : x = i := by simpa [StAct.isStream] using h'
              subst this
              exact hn (H.distinct n r _ q x hq₂ hq rfl hs)
  | client a =>
    obtain ⟨q', h1, h2, h3⟩ := easy (by simp) (by intro sa h; cases h; rfl)
    exact ⟨q', h1, h2, .inl h3⟩
  | begin n =>
    obtain ⟨q', h1, h2, h3⟩ := easy (by simp) (by intro sa h; simp only [liveView] at h; split at h <;> cases h; rfl)
    exact ⟨q', h1, h2, .inl h3⟩
  | poll n =>
    obtain ⟨q', h1, h2, h3⟩ := easy (by simp) (by intro sa h; cases h)
    exact ⟨q', h1, h2, .inl h3⟩
  | finish n k b =>
    obtain ⟨q', h1, h2, h3⟩ := easy (by simp) (by intro sa h; cases h)
    exact ⟨q', h1, h2, .inl h3⟩
  | report n k =>
    obtain ⟨q', h1, h2, h3⟩ := easy (by simp) (by
      intro sa h
      simp only [liveView] at h
      split at h
      · split at h <;> cases h; rfl
      · cases h)
    exact ⟨q', h1, h2, .inl h3⟩
  | shutdown =>
    obtain ⟨q', h1, h2, h3⟩ := easy (by simp) (by intro sa h; cases h)
    exact ⟨q', h1, h2, .inl h3⟩

/-- What an action lets pass stays where it is, and a job that is returned instead was ahead of it. -/
private theorem stream_pass {s : Streams} {now : Time} {sa : StAct} {k : KeyedJob} (hk : k ∈ s.conc.mem.jobs)
    (hw : k.job.status = .scheduled ∨ k.job.status = .retryable) (hpass : (s.step now sa).1.LetsPass k.job now)
    (hno : (s.step now sa).1.handsOut k.job.id = false) :
    k ∈ (s.step now sa).2.conc.mem.jobs ∧
    (s.step now sa).2.conc.mem.jobs.countP (aheadOf k.job) ≤ s.conc.mem.jobs.countP (aheadOf k.job) ∧
    (∀ i j, (s.step now sa).1 = .returned i j → j.executor = k.job.executor →
      (s.step now sa).2.conc.mem.jobs.countP (aheadOf k.job) < s.conc.mem.jobs.countP (aheadOf k.job)) := by
  cases sa with
  | client a =>
    simp only [Streams.step, StEv.LetsPass, StEv.handsOut] at hpass hno ⊢
    obtain ⟨h1, h2, h3, h4⟩ := hpass
    refine ⟨waiting_stays hk hw ?_ h3, ahead_step_le h4, by simp⟩
    simp only [Ev.touches, hno, h1, h2]; rfl
  | subscribe x => exact ⟨hk, Nat.le_refl _, by simp [Streams.step]⟩
  | stream n timer =>
    simp only [Streams.step] at hno ⊢
    cases hq : s.readers[n]? with
    | none => exact ⟨hk, Nat.le_refl _, by simp⟩
    | some q =>
      simp only [hq] at hno ⊢
      simp only [Streams.streamStep] at hno ⊢
      cases hwt : q.wait with
      | ready => exact ⟨hk, Nat.le_refl _, by simp⟩
      | looked f => exact ⟨hk, Nat.le_refl _, by simp⟩
      | asleep clock since delay =>
        simp only
        split
        · exact ⟨hk, Nat.le_refl _, by simp⟩
        · split
          · exact ⟨hk, Nat.le_refl _, by simp⟩
          · exact ⟨hk, Nat.le_refl _, by simp⟩
      | decided clock delay =>
        simp only [hwt] at hno ⊢
        by_cases hd : delay ≤ pollDelta
        · rw [if_pos hd] at hno ⊢
          have hst := @waiting_stays s.conc now (.op (.load q.executor)) k hk hw
          have hah := @ahead_step_le k.job s.conc now (.op (.load q.executor))
          simp only [Conc.step, Mem.step] at hst hah
          rcases load_cases now q.executor s.conc.mem with ⟨h, h'⟩ | ⟨l, k', rr, h1, h2, h3, h4, h5⟩
          · rw [h']
            exact ⟨hk, Nat.le_refl _, by simp⟩
          · rw [h5] at hst hah hno ⊢
            simp only [StEv.handsOut] at hno
            have hh : (Ev.op (.load q.executor) (.job (some (k'.job.markExecuting now)))).handsOut k.job.id = false := hno
            refine ⟨hst ?_ trivial, hah trivial, ?_⟩
            · simp [Ev.touches, hh, Ev.finishes, Ev.putsBack, Ev.retries, Ev.snoozes, Ev.reruns, Ev.updates, Ev.conflicts]
            · intro i j hj hjx
              cases hj
              have hkx : k'.job.executor = k.job.executor := hjx
              obtain ⟨g1, g2, g3⟩ := readyFor_iff.mp h2
              by_cases hr : readyFor now q.executor k.job = true
              · obtain ⟨e1, e2, -⟩ := readyFor_iff.mp hr
                have := @asking_takes s.conc now (.op (.load q.executor)) k hk hw (by simp only [Time, ms] at *; omega)
                simp only [Conc.step, Mem.step, h5] at this
                exact this (by simp [Ev.asks, e1]) hh
              · have hlate : 100 * ms ≤ k.job.scheduledAt - now := Classical.byContradiction fun h' =>
                  hr (readyFor_iff.mpr ⟨hkx.symm.trans g1, Int.not_le.mp h', hw⟩)
                have ha : aheadOf k.job k' = true := by
                  refine decide_eq_true ⟨?_, hkx, g3, .inl ?_⟩
                  · simpa [Job.markExecuting] using hno
                  · simp only [Time, ms] at *; omega
                have hb : aheadOf k.job { k' with job := k'.job.markExecuting now } = false := by
                  refine decide_eq_false fun h => ?_
                  have := h.2.2.1
                  simp [Job.markExecuting] at this
                show List.countP _ (l ++ _ :: rr) < _
                rw [h1]
                simp [List.countP_append, List.countP_cons, ha, hb]
        · rw [if_neg hd]
          exact ⟨hk, Nat.le_refl _, by simp⟩

/-- A waiting job that is let pass and is not handed out stays where it is. -/
theorem passed_stays {defs : List Runner} {s : Live} {a : TLvAct} {k : KeyedJob} (hk : k ∈ s.streams.conc.mem.jobs)
    (hw : k.job.status = .scheduled ∨ k.job.status = .retryable) (hpass : (s.act defs a.now a.act).1.LetsPass k.job a.now)
    (hno : (s.act defs a.now a.act).1.handsOut k.job.id = false) : k ∈ (s.act defs a.now a.act).2.streams.conc.mem.jobs := by
  obtain ⟨v1, v2, v3⟩ := live_view defs a.now s a.act
  rw [v1]
  have v2' := v2 k.job.id
  have v3' := v3 k.job hpass
  rw [hno] at v2'
  cases hv : liveView defs s a.act with
  | none => exact hk
  | some sa =>
    rw [hv] at v2'
    exact (stream_pass (sa := sa) hk hw (v3' sa hv) v2'.symm).1

/-- Since the runner has had room. -/
def liveSinceRoom (f : Time) : Wait → Prop
  | .decided c _ => f ≤ c
  | .asleep _ since d => f ≤ since ∧ 0 ≤ d
  | _ => True

/-- A runner and its stream, along a schedule. -/
structure LiveTrack (ε : Delta) (defs : List Runner) (r i : Nat) (s : Live) (q : LiveRunner) (rd : Reader) (m f t : Time) : Prop where
  hq : s.runners[r]? = some q
  hs : q.stream = some i
  hrd : s.streams.readers[i]? = some rd
  poll : q.inPoll = true → s.room defs r = true
  full : s.room defs r = false → rd.wait = .ready ∧ m ≤ f
  ft : f ≤ t
  since : liveSinceRoom f rd.wait
  lag : onTimeLag ε (max m f) t (s.streams.conc.mem.hasMessage rd.sub) rd.wait

/-- From when on the stream can move for sure. -/
def liveFrom (D : Delta) (room : Bool) (m f : Time) : Time := if room then max m f else f + D

def liveNextM (defs : List Runner) (r : Nat) (m : Time) (s : Live) (a : TLvAct) : Time :=
  if (s.act defs a.now a.act).1.isMove r then (s.act defs a.now a.act).2.movesFrom r a.now
  else min m ((s.act defs a.now a.act).2.movesFrom r a.now)

def liveNextF (defs : List Runner) (r : Nat) (f : Time) (s : Live) (a : TLvAct) : Time :=
  if (s.act defs a.now a.act).2.room defs r = s.room defs r then f else a.now

theorem liveMoves_eq {s : Live} {r i : Nat} {q : LiveRunner} (hq : s.runners[r]? = some q) (hs : q.stream = some i) (now : Time) :
    s.movesFrom r now = s.streams.movesFrom i now := by
  obtain ⟨st, ip, rs⟩ := q
  cases hs
  simp [Live.movesFrom, hq]

theorem live_track_step {ε D : Delta} (hD : 0 ≤ D) {defs : List Runner} {r i : Nat} {d : Runner} {s : Live} {q : LiveRunner}
    {rd : Reader} {m f t : Time} {a : TLvAct} (H : LiveInv s) (hd : defs[r]? = some d) (T : LiveTrack ε defs r i s q rd m f t)
    (ht : t ≤ a.now) (hp : if s.room defs r then a.now ≤ max m f + ε else a.now ≤ f + D) :
    ∃ q' rd', LiveTrack ε defs r i (s.act defs a.now a.act).2 q' rd' (liveNextM defs r m s a) (liveNextF defs r f s a) a.now ∧
      rd'.sub = rd.sub ∧ rd'.executor = rd.executor ∧
      ((rd' = rd ∧ (s.streams.conc.mem.hasMessage rd.sub = true → (s.act defs a.now a.act).2.streams.conc.mem.hasMessage rd.sub = true) ∧
        liveFrom D ((s.act defs a.now a.act).2.room defs r) (liveNextM defs r m s a) (liveNextF defs r f s a) ≤
          liveFrom D (s.room defs r) m f) ∨
      (∃ b, liveView defs s a.act = some (.stream i b) ∧ s.room defs r = true ∧
        (∀ j n, (s.streams.step a.now (.stream i b)).1 ≠ .returned n j) ∧
        liveFrom D ((s.act defs a.now a.act).2.room defs r) (liveNextM defs r m s a) (liveNextF defs r f s a) =
          onTimeNext i (max m f) s.streams ⟨a.now, .stream i b⟩) ∨
      (∃ b j n, liveView defs s a.act = some (.stream i b) ∧ (s.streams.step a.now (.stream i b)).1 = .returned n j ∧
        s.room defs r = true ∧ rd'.wait = .ready ∧ j.executor = rd.executor ∧
        liveFrom D ((s.act defs a.now a.act).2.room defs r) (liveNextM defs r m s a) (liveNextF defs r f s a) ≤ a.now + D)) := by
  obtain ⟨now, a⟩ := a
  simp only at ht hp ⊢
  obtain ⟨hq, hs, hrd, hpoll, hfull, hft, hsince, hlag⟩ := T
  obtain ⟨q', h1, h2, h3⟩ := live_kind (now := now) H a hd hq hs
  have hv := (live_view defs now s a).1
  have hroom := live_room_eq hd hq
  have hroom' := live_room_eq hd h1
  rcases h3 with ⟨k1, k2, k3, k4⟩ | ⟨b, k1, k2, k3, k4, k5⟩
  · -- somebody else's action
    have hr' : (s.act defs now a).2.streams.readers[i]? = some rd := by
      rw [hv]
      cases hw : liveView defs s a with
      | none => exact hrd
      | some sa =>
        simp only
        cases hsa : sa.isStream i with
        | true => rw [k2 sa hw hsa]; exact hrd
        | false => exact stream_unmoved hrd hsa
    have hmsg : s.streams.conc.mem.hasMessage rd.sub = true → (s.act defs now a).2.streams.conc.mem.hasMessage rd.sub = true := by
      rw [hv]
      cases hw : liveView defs s a with
      | none => exact id
      | some sa =>
        simp only
        cases hsa : sa.isStream i with
        | true => rw [k2 sa hw hsa]; exact id
        | false => exact onTime_message_stays H.inv hrd hsa
    have hmv := (liveMoves_eq h1 h2 now).trans (onTime_movesFrom_eq hr' now)
    generalize hmsg' : (s.act defs now a).2.streams.conc.mem.hasMessage rd.sub = msg' at hmsg hmv
    have hm' : liveNextM defs r m s ⟨now, a⟩ = min m ((s.act defs now a).2.movesFrom r now) := by
      simp [liveNextM, k1]
    have hmono : s.room defs r = true → (s.act defs now a).2.room defs r = true := by
      rw [hroom, hroom']; exact live_below_mono k3
    have hpoll' : q'.inPoll = true → (s.act defs now a).2.room defs r = true := by
      intro h
      rcases k4 h with h | h
      · exact hmono (hpoll h)
      · rw [hroom']; exact h
    generalize (s.act defs now a).2.movesFrom r now = mv at hmv hm'
    by_cases hrr : (s.act defs now a).2.room defs r = s.room defs r
    · have hf' : liveNextF defs r f s ⟨now, a⟩ = f := by simp [liveNextF, hrr]
      rw [hm', hf']
      refine ⟨q', rd, ⟨h1, h2, hr', hpoll', ?_, Int.le_trans hft ht, hsince, ?_⟩, rfl, rfl, .inl ⟨rfl, hmsg' ▸ hmsg, ?_⟩⟩
      · intro h
        rw [hrr] at h
        obtain ⟨e1, e2⟩ := hfull h
        exact ⟨e1, Int.le_trans (Int.min_le_left _ _) e2⟩
      · rw [hmsg']
        cases hw : rd.wait with
        | ready => rw [hw] at hlag; simp only [onTimeLag, Time, Delta] at *; omega
        | looked g => rw [hw] at hlag; simp only [onTimeLag, Time, Delta] at *; omega
        | decided c d => rw [hw] at hlag; simp only [onTimeLag, Time, Delta] at *; omega
        | asleep c si d =>
          rw [hw] at hlag hmv
          simp only [onTimeLag] at *
          refine ⟨hlag.1, Int.le_trans hlag.2.1 ht, ?_, ?_⟩
          · have := hlag.2.2.1
            simp only [Time, Delta] at *; omega
          · intro h
            rw [h, if_pos rfl] at hmv
            simp only [Time, Delta] at *; omega
      · rw [hrr]
        unfold liveFrom
        split <;> simp only [Time, Delta] at * <;> omega
    · have hno : s.room defs r = false := by
        cases h : s.room defs r with
        | false => rfl
        | true => exact (hrr ((hmono h).trans h.symm)).elim
      have hyes : (s.act defs now a).2.room defs r = true := by
        cases h : (s.act defs now a).2.room defs r with
        | true => rfl
        | false => exact (hrr (h.trans hno.symm)).elim
      have hf' : liveNextF defs r f s ⟨now, a⟩ = now := by simp [liveNextF, hrr]
      obtain ⟨e1, e2⟩ := hfull hno
      rw [hno] at hp
      simp only [Bool.false_eq_true, if_false] at hp
      rw [hm', hf']
      refine ⟨q', rd, ⟨h1, h2, hr', hpoll', ?_, Int.le_refl _, ?_, ?_⟩, rfl, rfl, .inl ⟨rfl, hmsg' ▸ hmsg, ?_⟩⟩
      · intro h; rw [hyes] at h; cases h
      · rw [e1]; trivial
      · rw [e1]
        simp only [onTimeLag, Time, Delta] at *; omega
      · rw [hyes, hno]
        simp only [liveFrom, if_true, Bool.false_eq_true, if_false, Time, Delta] at *; omega
  · -- a step of its stream
    have hyes := hpoll k2
    rw [hyes] at hp
    simp only [if_true] at hp
    have hst : (s.act defs now a).2.streams = (s.streams.step now (.stream i b)).2 := by rw [hv, k1]
    have hown := onTime_own_cases (now := now) (b := b) hrd
    have hlag' := onTimeLag_step (a := ⟨now, .stream i b⟩) hrd hlag ht hp
    have hnext : onTimeNext i (max m f) s.streams ⟨now, .stream i b⟩ = (s.streams.step now (.stream i b)).2.movesFrom i now := by
      simp [onTimeNext, StAct.isStream, k4]
    have hm' : liveNextM defs r m s ⟨now, a⟩ = onTimeNext i (max m f) s.streams ⟨now, .stream i b⟩ := by
      rw [hnext, ← hst, ← liveMoves_eq h1 h2]
      simp [liveNextM, k3]
    obtain ⟨rd', g1, g2, g3, g4⟩ := hlag'
    simp only at g1 g4
    rw [← hst] at g1 g4
    rw [hnext, ← hst] at hm'
    have hmv := onTime_movesFrom_eq g1 now
    rcases k5 with ⟨k5, k6⟩ | ⟨k5, j, n, k6⟩
    · subst k5
      have hrr : (s.act defs now a).2.room defs r = true := by rw [hroom', ← hroom]; exact hyes
      have hf' : liveNextF defs r f s ⟨now, a⟩ = f := by simp [liveNextF, hrr, hyes]
      have hwait : liveSinceRoom f rd'.wait := by
        rcases hown with ⟨-, h⟩ | ⟨h, -⟩
        · rcases h with ⟨j, h, -⟩ | ⟨w, h, hw⟩
          · exact (k6 _ _ h).elim
          · rw [← hst, g1, Option.some.injEq] at h
            subst h
            cases hr' : rd.wait with
            | ready => rw [hr'] at hw; rw [hw.1]; trivial
            | looked g => rw [hr'] at hw; rw [hw.1]; exact Int.le_trans hft ht
            | decided c d =>
              rw [hr'] at hw hlag; rw [hw.1]
              exact ⟨Int.le_trans hft ht, hlag.2.2⟩
            | asleep c si d => rw [hr'] at hw; simp only at hw; rw [hw]; trivial
        · rw [k4] at h; cases h
      have hle : f ≤ (s.act defs now a).2.streams.movesFrom i now := by
        rw [hmv]
        have := Int.le_trans hft ht
        cases hw : rd'.wait with
        | asleep c si d =>
          rw [hw] at hwait
          simp only [liveSinceRoom] at hwait ⊢
          split <;> simp only [Time, Delta] at * <;> omega
        | _ => exact this
      have hmax : max ((s.act defs now a).2.streams.movesFrom i now) f = (s.act defs now a).2.streams.movesFrom i now := by
        simp only [Time] at *; omega
      refine ⟨q', rd', ⟨h1, h2, g1, fun _ => hrr, ?_, ?_, ?_, ?_⟩, g2, g3, .inr (.inl ⟨b, k1, hyes, k6, ?_⟩)⟩
      · intro h; rw [hrr] at h; cases h
      · rw [hf']; exact Int.le_trans hft ht
      · rw [hf']; exact hwait
      · rw [hf', hm', hmax]
        rw [hnext, ← hst] at g4
        exact g4
      · rw [hrr, hf', hm', hnext, ← hst]
        simp only [liveFrom, if_true]
        exact hmax
    · have hwt : rd'.wait = .ready ∧ j.executor = rd.executor := by
        rcases hown with ⟨-, h⟩ | ⟨h, -⟩
        · rcases h with ⟨j', h, hx, h'⟩ | ⟨w, h, hw⟩
          · rw [← hst, g1, Option.some.injEq] at h'
            rw [k6] at h
            cases h
            exact ⟨by rw [h'], hx⟩
          · exfalso
            cases hr' : rd.wait with
            | ready => simp [Streams.step, hrd, Streams.streamStep, hr'] at k6
            | looked g => simp [Streams.step, hrd, Streams.streamStep, hr'] at k6
            | asleep c si d =>
              simp only [Streams.step, hrd, Streams.streamStep, hr'] at k6
              split at k6
              · cases k6
              · split at k6 <;> cases k6
            | decided c d =>
              rw [hr'] at hw
              obtain ⟨-, -, hw⟩ := hw
              simp only [Streams.step, hrd, Streams.streamStep, hr'] at k6
              by_cases hdl : d ≤ pollDelta
              · rw [if_pos hdl] at k6
                rcases load_cases now rd.executor s.streams.conc.mem with ⟨h, h'⟩ | ⟨l, k', rr, e1, e2, e3, e4, e5⟩
                · rw [h'] at k6; cases k6
                · have := hw hdl k' (by rw [e1]; simp)
                  rw [e2] at this; cases this
              · rw [if_neg hdl] at k6; cases k6
        · rw [k4] at h; cases h
      have hmn : liveNextM defs r m s ⟨now, a⟩ = now := by rw [hm', hmv, hwt.1]
      have hfn : liveNextF defs r f s ⟨now, a⟩ ≤ now := by
        unfold liveNextF
        split
        · exact Int.le_trans hft ht
        · exact Int.le_refl _
      refine ⟨q', rd', ⟨h1, h2, g1, ?_, ?_, hfn, ?_, ?_⟩, g2, g3, .inr (.inr ⟨b, j, n, k1, k6, hyes, hwt.1, hwt.2, ?_⟩)⟩
      · intro h; rw [k5] at h; cases h
      · intro h
        refine ⟨hwt.1, ?_⟩
        rw [hmn]
        have : liveNextF defs r f s ⟨now, a⟩ = now := by simp [liveNextF, h, hyes]
        rw [this]; exact Int.le_refl _
      · rw [hwt.1]; trivial
      · rw [hwt.1, hmn]
        simp only [onTimeLag, Time] at *; omega
      · rw [hmn]
        unfold liveFrom
        split <;> simp only [Time, Delta] at * <;> omega

private theorem times_less {x : Delta} (hx : 0 ≤ x) {a b : Nat} (h : a < b) : (a : Int) * x + x ≤ (b : Int) * x := by
  have h1 : ((a + 1 : Nat) : Int) * x ≤ (b : Int) * x := Int.mul_le_mul_of_nonneg_right (by omega) hx
  have h2 : ((a + 1 : Nat) : Int) * x = (a : Int) * x + x := by
    rw [Int.natCast_add, Int.add_mul]; simp
  exact h2 ▸ h1

private theorem live_on_time {ε D : Delta} (hε : 0 ≤ ε) (hD : 0 ≤ D) {defs : List Runner} {r i : Nat} {d : Runner} {s : Live}
    {q : LiveRunner} {rd : Reader} {m f t t₁ T' : Time} {k : KeyedJob} {n : Nat} (as : List TLvAct) (H : LiveInv s)
    (hd : defs[r]? = some d) (T : LiveTrack ε defs r i s q rd m f t) (hx : k.job.executor = rd.executor)
    (hn : (dozing ε t₁ (liveFrom D (s.room defs r) m f) rd.wait ∧ t₁ + 30000000000 + 2 * ε ≤ T') ∨ onTimeNear ε k.job.scheduledAt T' (liveFrom D (s.room defs r) m f) (s.streams.conc.mem.hasMessage rd.sub) rd.wait)
    (hT : k.job.scheduledAt ≤ T') (hc : (t :: as.map (·.now)).Pairwise (· ≤ ·)) (hp : PromptRunner ε D defs r m f s as)
    (hk : k ∈ s.streams.conc.mem.jobs) (hw : k.job.status = .scheduled ∨ k.job.status = .retryable)
    (hpass : ∀ e ∈ s.trace defs as, e.ev.LetsPass k.job e.now)
    (hcount : s.streams.conc.mem.jobs.countP (aheadOf k.job) ≤ n)
    {b : TLvAct} (hb : b ∈ as) (hlate : T' + 15 * ms + 6 * ε + n * (3 * ε + D) < b.now) :
    ∃ as₁ a as₂, as = as₁ ++ a :: as₂ ∧ a.now ≤ T' + 15 * ms + 6 * ε + n * (3 * ε + D) ∧
      ((s.run defs as₁).act defs a.now a.act).1.handsOut k.job.id = true := by
  have hx0 : 0 ≤ 3 * ε + D := by simp only [Delta] at *; omega
  induction as generalizing s q rd m f t T' n with
  | nil => simp at hb
  | cons a as ih =>
    have hpos : 0 ≤ (n : Int) * (3 * ε + D) := Int.mul_nonneg (by omega) hx0
    obtain ⟨hp1, hp2⟩ := hp
    have hD1 : a.now ≤ T' + 15 * ms + 6 * ε := by
      have : liveFrom D (s.room defs r) m f ≤ T' + 15 * ms + 5 * ε := by
        rcases hn with ⟨hn, h'⟩ | hn
        · have := dozing_le hε hn
          simp only [Time, Delta, ms] at *; omega
        · exact onTimeNear_le hε hn
      unfold liveFrom at this
      cases hr : s.room defs r with
      | true => rw [hr] at hp1 this; simp only [if_true, Time, Delta, ms] at *; omega
      | false => rw [hr] at hp1 this; simp only [Bool.false_eq_true, if_false, Time, Delta, ms] at *; omega
    have hD2 : a.now ≤ T' + 15 * ms + 6 * ε + n * (3 * ε + D) := by
      generalize (n : Int) * (3 * ε + D) = z at *
      simp only [Time, Delta, ms] at *; omega
    rw [List.map_cons] at hc
    have hta : t ≤ a.now := List.rel_of_pairwise_cons hc (by simp)
    cases hh : (s.act defs a.now a.act).1.handsOut k.job.id with
    | true => exact ⟨[], a, as, rfl, hD2, hh⟩
    | false =>
      have hb' : b ∈ as := by
        rcases List.mem_cons.mp hb with h' | h'
        · subst h'; exact (Int.not_le.mpr hlate hD2).elim
        · exact h'
      obtain ⟨v1, v2, v3⟩ := live_view defs a.now s a.act
      have hpa : (s.act defs a.now a.act).1.LetsPass k.job a.now := hpass _ List.mem_cons_self
      have hjobs : k ∈ (s.act defs a.now a.act).2.streams.conc.mem.jobs ∧
          (s.act defs a.now a.act).2.streams.conc.mem.jobs.countP (aheadOf k.job) ≤ s.streams.conc.mem.jobs.countP (aheadOf k.job) ∧
          (∀ sa n' j, liveView defs s a.act = some sa → (s.streams.step a.now sa).1 = .returned n' j → j.executor = k.job.executor →
            (s.act defs a.now a.act).2.streams.conc.mem.jobs.countP (aheadOf k.job) < s.streams.conc.mem.jobs.countP (aheadOf k.job)) := by
        rw [v1]
        have v2' := v2 k.job.id
        have v3' := v3 k.job hpa
        rw [hh] at v2'
        cases hv : liveView defs s a.act with
        | none => exact ⟨hk, Nat.le_refl _, fun sa _ _ h => by cases h⟩
        | some sa =>
          rw [hv] at v2'
          obtain ⟨e1, e2, e3⟩ := stream_pass (sa := sa) hk hw (v3' sa hv) v2'.symm
          exact ⟨e1, e2, fun sa' n' j h => by cases h; exact e3 n' j⟩
      obtain ⟨hk', hle, hlt⟩ := hjobs
      obtain ⟨q', rd', T₂, e1, e2, hcase⟩ := live_track_step hD H hd T hta hp1
      have go : ∀ (T₁ : Time) (n' : Nat), k.job.scheduledAt ≤ T₁ →
          ((dozing ε t₁ (liveFrom D ((s.act defs a.now a.act).2.room defs r) (liveNextM defs r m s a) (liveNextF defs r f s a)) rd'.wait ∧
            t₁ + 30000000000 + 2 * ε ≤ T₁) ∨
          onTimeNear ε k.job.scheduledAt T₁ (liveFrom D ((s.act defs a.now a.act).2.room defs r) (liveNextM defs r m s a) (liveNextF defs r f s a))
            ((s.act defs a.now a.act).2.streams.conc.mem.hasMessage rd'.sub) rd'.wait) →
          (s.act defs a.now a.act).2.streams.conc.mem.jobs.countP (aheadOf k.job) ≤ n' →
          T₁ + (n' : Int) * (3 * ε + D) ≤ T' + (n : Int) * (3 * ε + D) →
          ∃ as₁ a' as₂, a :: as = as₁ ++ a' :: as₂ ∧ a'.now ≤ T' + 15 * ms + 6 * ε + n * (3 * ε + D) ∧
            ((s.run defs as₁).act defs a'.now a'.act).1.handsOut k.job.id = true := by
        intro T₁ n' h1 h2 h3 h4
        have hle' : T₁ + 15 * ms + 6 * ε + n' * (3 * ε + D) ≤ T' + 15 * ms + 6 * ε + n * (3 * ε + D) := by
          generalize (n : Int) * (3 * ε + D) = z at *
          generalize (n' : Int) * (3 * ε + D) = z' at *
          simp only [Time, Delta, ms] at *; omega
        obtain ⟨as₁, c, as₂, g1, g2, g3⟩ := ih (liveInv_act H a.now a.act) T₂ (hx.trans e2.symm) h2 h1 (List.Pairwise.of_cons hc)
          hp2 hk' (fun e he => hpass e (List.mem_cons_of_mem _ he)) h3 hb' (Int.lt_of_le_of_lt hle' hlate)
        exact ⟨a :: as₁, c, as₂, by rw [g1]; rfl, Int.le_trans g2 hle', g3⟩
      rcases hcase with ⟨c1, c2, c3⟩ | ⟨b', c1, c2, c3, c4⟩ | ⟨b', j, n', c1, c2, c3, c4, c5, c6⟩
      · subst c1
        exact go T' n hT (hn.imp (fun h => ⟨dozing_mono h.1 c3, h.2⟩) fun h => onTimeNear_mono h c3 c2) (Nat.le_trans hle hcount) (Int.le_refl _)
      · refine go T' n hT ?_ (Nat.le_trans hle hcount) (Int.le_refl _)
        have hnow : a.now ≤ max m f + ε := by rw [c2] at hp1; exact hp1
        have hn' : (dozing ε t₁ (max m f) rd.wait ∧ t₁ + 30000000000 + 2 * ε ≤ T') ∨
            onTimeNear ε k.job.scheduledAt T' (max m f) (s.streams.conc.mem.hasMessage rd.sub) rd.wait := by
          rw [c2] at hn; exact hn
        have hst : (s.act defs a.now a.act).2.streams = (s.streams.step a.now (.stream i b')).2 := by rw [v1, c1]
        rw [c4, e1, hst]
        rcases hn' with ⟨hn', h'⟩ | hn'
        · rcases dozing_step (T := k.job.scheduledAt) hε (a := ⟨a.now, .stream i b'⟩) T.hrd (r' := rd') (by rw [← hst]; exact T₂.hrd) hn' hnow h'
            with ⟨j, h, -⟩ | h | h
          · exact (c3 _ _ h).elim
          · exact .inl ⟨h, h'⟩
          · exact .inr h
        · rcases onTimeNear_step hε (a := ⟨a.now, .stream i b'⟩) H.inv T.hrd T.lag hn' hT hnow hk hw hx with ⟨j, h, -⟩ | h
          · exact (c3 _ _ h).elim
          · exact .inr (h rd' (by rw [← hst]; exact T₂.hrd))
      · have hl := hlt _ n' j c1 c2 (c5.trans hx.symm)
        have hn1 : s.streams.conc.mem.jobs.countP (aheadOf k.job) - 1 < n := by omega
        have htl := times_less hx0 hn1
        refine go (T' + 3 * ε + D) (s.streams.conc.mem.jobs.countP (aheadOf k.job) - 1) ?_ ?_ (by omega) ?_
        · simp only [Time, Delta] at *; omega
        · rw [c4]
          right
          clear hn
          simp only [onTimeNear, Time, Delta, ms] at *; omega
        · generalize (n : Int) * (3 * ε + D) = z at *
          generalize ((List.countP (aheadOf k.job) s.streams.conc.mem.jobs - 1 : Nat) : Int) * (3 * ε + D) = z' at *
          simp only [Time, Delta] at *; omega

private theorem liveTrack_run {ε D : Delta} (hD : 0 ≤ D) {defs : List Runner} {r i : Nat} {d : Runner} {s : Live} {q : LiveRunner}
    {rd : Reader} {m f t u : Time} (as bs : List TLvAct) (H : LiveInv s) (hd : defs[r]? = some d) (T : LiveTrack ε defs r i s q rd m f t)
    (hc : (t :: (as.map (·.now) ++ u :: bs.map (·.now))).Pairwise (· ≤ ·)) (hp : PromptRunner ε D defs r m f s (as ++ bs)) :
    ∃ q' rd' m' f' t', LiveTrack ε defs r i (s.run defs as) q' rd' m' f' t' ∧ rd'.executor = rd.executor ∧
      (t' :: u :: bs.map (·.now)).Pairwise (· ≤ ·) ∧ PromptRunner ε D defs r m' f' (s.run defs as) bs := by
  induction as generalizing s q rd m f t with
  | nil => exact ⟨q, rd, m, f, t, T, rfl, hc, hp⟩
  | cons a as ih =>
    rw [List.map_cons, List.cons_append] at hc
    obtain ⟨q₁, rd₁, T₁, -, e2, -⟩ := live_track_step hD H hd T (List.rel_of_pairwise_cons hc (by simp)) hp.1
    obtain ⟨q', rd', m', f', t', g1, g2, g3⟩ := ih (liveInv_act H a.now a.act) T₁ (List.Pairwise.of_cons hc) hp.2
    exact ⟨q', rd', m', f', t', g1, g2.trans e2, g3⟩

private theorem prompt_prefix {ε D : Delta} {defs : List Runner} {r : Nat} {m f : Time} {s : Live} {as bs : List TLvAct}
    (h : PromptRunner ε D defs r m f s (as ++ bs)) : PromptRunner ε D defs r m f s as := by
  induction as generalizing s m f with
  | nil => trivial
  | cons a as ih => exact ⟨h.1, ih h.2⟩

theorem live_trace_append (defs : List Runner) (s : Live) (as bs : List TLvAct) :
    s.trace defs (as ++ bs) = s.trace defs as ++ (s.run defs as).trace defs bs := by
  induction as generalizing s with
  | nil => rfl
  | cons a as ih => exact congrArg _ (ih _)

/-- The first event that hands the job out. -/
private theorem first_handout (defs : List Runner) (s : Live) (id : Int) (as : List TLvAct) :
    (∀ e ∈ s.trace defs as, e.ev.handsOut id = false) ∨
    ∃ as₁ a as₂, as = as₁ ++ a :: as₂ ∧ (∀ e ∈ s.trace defs as₁, e.ev.handsOut id = false) ∧
      ((s.run defs as₁).act defs a.now a.act).1.handsOut id = true := by
  induction as generalizing s with
  | nil => exact .inl (by simp [Live.trace])
  | cons a as ih =>
    cases h : (s.act defs a.now a.act).1.handsOut id with
    | true => exact .inr ⟨[], a, as, rfl, by simp [Live.trace], h⟩
    | false =>
      rcases ih (s.act defs a.now a.act).2 with g | ⟨as₁, b, as₂, g1, g2, g3⟩
      · left
        intro e he
        rcases List.mem_cons.mp he with rfl | he
        · exact h
        · exact g e he
      · refine .inr ⟨a :: as₁, b, as₂, by rw [g1]; rfl, ?_, g3⟩
        intro e he
        rcases List.mem_cons.mp he with rfl | he
        · exact h
        · exact g2 e he

private theorem mem_live_trace {defs : List Runner} {s : Live} {as₁ as₂ : List TLvAct} {a : TLvAct} :
    (⟨a.now, ((s.run defs as₁).act defs a.now a.act).1⟩ : TLvEv) ∈ s.trace defs (as₁ ++ a :: as₂) := by
  rw [live_trace_append]
  exact List.mem_append_right _ List.mem_cons_self

/-- What the streams go through is a schedule of streams. -/
theorem live_projects (defs : List Runner) (s : Live) (as : List TLvAct) :
    ∃ l : List TStAct, (s.run defs as).streams = s.streams.run l := by
  induction as generalizing s with
  | nil => exact ⟨[], rfl⟩
  | cons a as ih =>
    obtain ⟨l, hl⟩ := ih (s.act defs a.now a.act).2
    have hv := (live_view defs a.now s a.act).1
    cases h : liveView defs s a.act with
    | none => exact ⟨l, by
      rw [h] at hv
      exact hl.trans (by rw [hv])⟩
    | some sa => exact ⟨⟨a.now, sa⟩ :: l, by
      rw [h] at hv
      exact hl.trans (by rw [hv]; rfl)⟩

/-- What hands out a job, other than another client, is the stream of a runner. -/
theorem handsOut_moved {defs : List Runner} {s : Live} (H : LiveInv s) {a : TLvAct} {id : Int}
    (u3 : (s.act defs a.now a.act).1.handsOut id = true)
    (hclient : ∀ ev, (s.act defs a.now a.act).1 = .client ev → ev.handsOut id = false) :
    ∃ r' d' i j, (s.act defs a.now a.act).1 = .moved r' (.returned i j) (some (d'.start j)) ∧ defs[r']? = some d' ∧ j.id = id := by
  obtain ⟨now, a⟩ := a
  simp only at *
  cases a with
  | client a =>
    have := hclient _ rfl
    rw [show (s.act defs now (.client a)).1.handsOut id = ((s.streams.conc.step now a).1).handsOut id from rfl] at u3
    rw [show ((s.streams.conc.step now a).1).handsOut id = false from this] at u3
    cases u3
  | shutdown => cases u3
  | begin x =>
    simp only [Live.act] at u3
    split at u3 <;> cases u3
  | poll x =>
    simp only [Live.act] at u3
    split at u3
    · split at u3
      · split at u3 <;> cases u3
      · cases u3
    · cases u3
  | finish x y z =>
    simp only [Live.act] at u3
    split at u3
    · split at u3
      · split at u3
        · cases u3
        · split at u3 <;> cases u3
      · cases u3
    · cases u3
  | report x y =>
    exfalso
    cases hq₁ : s.runners[x]? with
    | none => simp only [Live.act, hq₁] at u3; cases u3
    | some q₁ =>
      have hrep := H.reports x q₁ hq₁
      obtain ⟨st, ip, rs⟩ := q₁
      cases ip with
      | true => simp only [Live.act, hq₁] at u3; cases u3
      | false =>
        simp only [Live.act, hq₁] at u3
        cases hf : rs.flights[y]? with
        | none => rw [hf] at u3; cases u3
        | some fl =>
          obtain ⟨tk, ph⟩ := fl
          cases ph with
          | running => rw [hf] at u3; cases u3
          | reporting o =>
            rw [hf] at u3
            have := hrep _ (List.mem_of_getElem? hf) o
            simp only [LvEv.handsOut, Conc.step] at u3
            cases o with
            | load x => exact this x rfl rfl
            | _ => cases u3
  | step x b =>
    simp only [Live.act] at u3 ⊢
    cases hd' : defs[x]? with
    | none => rw [hd'] at u3; cases u3
    | some d' =>
      cases hq₁ : s.runners[x]? with
      | none => rw [hd', hq₁] at u3; cases u3
      | some q₁ =>
        rw [hd', hq₁] at u3
        obtain ⟨st, ip, rs⟩ := q₁
        cases st with
        | none => cases u3
        | some y =>
          cases ip with
          | false => cases u3
          | true =>
            simp only at u3 ⊢
            generalize s.streams.step now (.stream y b) = z at *
            obtain ⟨ev, st'⟩ := z
            cases ev with
            | returned i j => exact ⟨x, d', i, j, rfl, hd', by simpa [LvEv.handsOut] using u3⟩
            | _ => cases u3

theorem live_begun (ε : Delta) {defs : List Runner} {r : Nat} {d : Runner} (hd : defs[r]? = some d) (paused : Bool)
    (p : List TLvAct) (t₀ : Time) (hbegin : (((Live.init defs paused).run defs p).act defs t₀ (.begin r)).1 = .begun r) :
    ∃ q rd, LiveTrack ε defs r ((Live.init defs paused).run defs p).streams.readers.length
      ((Live.init defs paused).run defs (p ++ [⟨t₀, .begin r⟩])) q rd t₀ t₀ t₀ ∧ rd.executor = d.name ∧ rd.wait = .ready := by
  have H := liveInv_run (defs := defs) (liveInv_init defs paused) p
  rw [live_run_append]
  generalize (Live.init defs paused).run defs p = s at *
  simp only [Live.act, hd] at hbegin
  cases hq : s.runners[r]? with
  | none => rw [hq] at hbegin; cases hbegin
  | some q =>
    obtain ⟨st, ip, rs⟩ := q
    cases st with
    | some x => rw [hq] at hbegin; cases hbegin
    | none =>
      obtain ⟨i1, i2⟩ := H.idle r _ hq rfl
      simp only at i1 i2
      subst i1
      have hlt := (List.getElem?_eq_some_iff.mp hq).1
      have hq' : ((s.act defs t₀ (.begin r)).2).runners[r]? = some ⟨some s.streams.readers.length, false, rs⟩ := by
        simp only [Live.act, hd, hq]
        rw [List.getElem?_set_self hlt]
      have hroom : ((s.act defs t₀ (.begin r)).2).room defs r = true := by
        rw [live_room_eq hd hq']
        simp only [i2]
        cases d.maxConcurrency with
        | none => rfl
        | some l => cases l <;> simp [belowLimit]
      refine ⟨_, { sub := s.streams.conc.mem.subs.length, executor := d.name }, ⟨hq', rfl, ?_, by simp, ?_, Int.le_refl _, trivial, ?_⟩, rfl, rfl⟩
      · simp [Live.run, Live.act, hd, hq, Streams.step]
      · intro h
        have : ((s.act defs t₀ (.begin r)).2).room defs r = false := h
        rw [hroom] at this; cases this
      · simp [onTimeLag]

private theorem live_begins {ε D : Delta} (hε : 0 ≤ ε) (hD : 0 ≤ D) {defs : List Runner} {r i : Nat} {d : Runner} {s : Live}
    {q : LiveRunner} {rd : Reader} {m f t t₁ T' : Time} {k : KeyedJob} {n : Nat} {bs : List TLvAct} (H : LiveInv s)
    (hd : defs[r]? = some d) (T : LiveTrack ε defs r i s q rd m f t) (hx : k.job.executor = rd.executor)
    (hn : (dozing ε t₁ (liveFrom D (s.room defs r) m f) rd.wait ∧ t₁ + 30000000000 + 2 * ε ≤ T') ∨
      onTimeNear ε k.job.scheduledAt T' (liveFrom D (s.room defs r) m f) (s.streams.conc.mem.hasMessage rd.sub) rd.wait)
    (hT : k.job.scheduledAt ≤ T') (hc : (t :: bs.map (·.now)).Pairwise (· ≤ ·)) (hp : PromptRunner ε D defs r m f s bs)
    (hk : k ∈ s.streams.conc.mem.jobs) (hw : k.job.status = .scheduled ∨ k.job.status = .retryable)
    (hpass : ∀ es₁ e es₂, s.trace defs bs = es₁ ++ e :: es₂ → (∀ e' ∈ es₁, e'.ev.handsOut k.job.id = false) →
      e.ev.LetsPass k.job e.now ∧ ∀ ev, e.ev = .client ev → ev.handsOut k.job.id = false)
    (hcount : s.streams.conc.mem.jobs.countP (aheadOf k.job) ≤ n)
    (hlate : ∃ b ∈ bs, T' + 15000000 + 6 * ε + n * (3 * ε + D) < b.now) :
    ∃ bs₁ b bs₂, bs = bs₁ ++ b :: bs₂ ∧ b.now ≤ T' + 15000000 + 6 * ε + n * (3 * ε + D) ∧
      ∃ r' d' i j, ((s.run defs bs₁).act defs b.now b.act).1 = .moved r' (.returned i j) (some (d'.start j)) ∧
        defs[r']? = some d' ∧ j.id = k.job.id := by
  obtain ⟨b, hb, hlate⟩ := hlate
  have key : ∀ cs cs', bs = cs ++ cs' → (∀ e ∈ s.trace defs cs, e.ev.LetsPass k.job e.now) →
      (∃ c ∈ cs, T' + 15000000 + 6 * ε + n * (3 * ε + D) < c.now) →
      ∃ cs₁ a cs₂, cs = cs₁ ++ a :: cs₂ ∧ a.now ≤ T' + 15000000 + 6 * ε + n * (3 * ε + D) ∧
        ((s.run defs cs₁).act defs a.now a.act).1.handsOut k.job.id = true := by
    rintro cs cs' rfl hps ⟨c, hc1, hc2⟩
    clear hpass
    rw [List.map_append, ← List.cons_append] at hc
    obtain ⟨bs₁, a, bs₂, u1, u2, u3⟩ := live_on_time hε hD cs H hd T (hx) hn
      hT (List.pairwise_append.mp hc).1 (prompt_prefix hp) hk hw hps hcount hc1
      (by generalize (n : Int) * (3 * ε + D) = z at *; simp only [Time, Delta, ms] at *; omega)
    exact ⟨bs₁, a, bs₂, u1, by generalize (n : Int) * (3 * ε + D) = z at *; simp only [Time, Delta, ms] at *; omega, u3⟩
  have hsplit : ∀ cs c cs', bs = cs ++ c :: cs' → (∀ e ∈ s.trace defs cs, e.ev.handsOut k.job.id = false) →
      ∀ e, e ∈ s.trace defs cs ∨ e = ⟨c.now, ((s.run defs cs).act defs c.now c.act).1⟩ →
      e.ev.LetsPass k.job e.now ∧ ∀ ev, e.ev = .client ev → ev.handsOut k.job.id = false := by
    rintro cs c cs' rfl hno e he
    rcases he with he | rfl
    · obtain ⟨l₁, l₂, hl⟩ := List.append_of_mem he
      refine hpass l₁ e (l₂ ++ (s.run defs cs).trace defs (c :: cs')) (by rw [live_trace_append, hl]; simp) fun e' he' => hno e' ?_
      rw [hl]; exact List.mem_append_left _ he'
    · exact hpass _ _ _ (live_trace_append defs s cs (c :: cs')) hno
  rcases first_handout defs s k.job.id bs with hnone | ⟨bs₁, a, bs₂, u1, hno, u3⟩
  · exfalso
    obtain ⟨cs₁, c, cs₂, v1, -, v3⟩ := key bs [] (by simp) (fun e he => by
      obtain ⟨l₁, l₂, hl⟩ := List.append_of_mem he
      exact (hpass l₁ e l₂ hl fun e' he' => hnone e' (by rw [hl]; exact List.mem_append_left _ he')).1) ⟨b, hb, hlate⟩
    have := hnone _ (v1 ▸ mem_live_trace)
    rw [v3] at this; cases this
  have hclient := (hsplit bs₁ a bs₂ u1 hno _ (.inr rfl)).2
  refine ⟨bs₁, a, bs₂, u1, ?_, ?_⟩
  · apply Int.not_lt.mp
    intro hlt
    obtain ⟨cs₁, c, cs₂, v1, v2, v3⟩ := key (bs₁ ++ [a]) bs₂ (by simp [u1]) (fun e he => by
      rw [live_trace_append] at he
      exact (hsplit bs₁ a bs₂ u1 hno e ((List.mem_append.mp he).imp id (by simp [Live.trace]))).1) ⟨a, by simp, hlt⟩
    rcases List.eq_nil_or_concat cs₂ with rfl | ⟨l, x, rfl⟩
    · have := (List.append_inj' v1 rfl).2
      cases this
      exact absurd (Int.lt_of_lt_of_le hlt v2) (Int.lt_irrefl _)
    · have := (List.append_inj' (s₁ := bs₁) (s₂ := cs₁ ++ c :: l) (t₁ := [a]) (t₂ := [x]) (by simpa using v1) rfl).1
      have := hno _ (this ▸ mem_live_trace)
      rw [v3] at this; cases this
  have H₁ := liveInv_run (defs := defs) H bs₁
  generalize s.run defs bs₁ = s₁ at *
  exact handsOut_moved H₁ u3 hclient

/-- **C124, in memory.** Runner `r` subscribes at `t₀`, and from then on its stream makes each of its
steps within `ε` of when it first can and the runner has room; the runner is never without room for
longer than `D`; clocks do not run backwards. At `t₁` a job of its executor waits, whose enqueueing is
over, and from then on it is left alone and nothing is put in front of it. Then a runner has begun
with the job by 15 ms + 6 `ε` + `D`, and another 3 `ε` + `D` for every job that was ahead of it, after the
job is due – or after `t₁`, if that is later. -/
theorem C124_in_memory {ε D : Delta} (hε : 0 ≤ ε) (hD : 0 ≤ D) (defs : List Runner) (r : Nat) (d : Runner) (hd : defs[r]? = some d)
    (p as bs : List TLvAct) (t₀ t₁ : Time) (k : KeyedJob)
    (hbegin : (((Live.init defs).run defs p).act defs t₀ (.begin r)).1 = .begun r)
    (hc : (t₀ :: (as.map (·.now) ++ t₁ :: bs.map (·.now))).Pairwise (· ≤ ·))
    (hp : PromptRunner ε D defs r t₀ t₀ ((Live.init defs).run defs (p ++ [⟨t₀, .begin r⟩])) (as ++ bs))
    (hk : k ∈ ((Live.init defs).run defs (p ++ ⟨t₀, .begin r⟩ :: as)).streams.conc.mem.jobs)
    (hw : k.job.status = .scheduled ∨ k.job.status = .retryable) (hx : k.job.executor = d.name)
    (hen : ¬ ((Live.init defs).run defs (p ++ ⟨t₀, .begin r⟩ :: as)).streams.conc.enqueuing k.job)
    (hpass : ∀ es₁ e es₂, ((Live.init defs).run defs (p ++ ⟨t₀, .begin r⟩ :: as)).trace defs bs = es₁ ++ e :: es₂ →
      (∀ e' ∈ es₁, e'.ev.handsOut k.job.id = false) →
      e.ev.LetsPass k.job e.now ∧ ∀ ev, e.ev = .client ev → ev.handsOut k.job.id = false)
    (n : Nat) (hcount : ((Live.init defs).run defs (p ++ ⟨t₀, .begin r⟩ :: as)).streams.conc.mem.jobs.countP
      (fun a => decide (Ahead k.job a.job)) = n)
    (hlate : ∃ b ∈ bs, max k.job.scheduledAt t₁ + 15000000 + 6 * ε + D + n * (3 * ε + D) < b.now) :
    ∃ bs₁ b bs₂, bs = bs₁ ++ b :: bs₂ ∧ b.now ≤ max k.job.scheduledAt t₁ + 15000000 + 6 * ε + D + n * (3 * ε + D) ∧
      ∃ r' d' i j, (((Live.init defs).run defs (p ++ ⟨t₀, .begin r⟩ :: as ++ bs₁)).act defs b.now b.act).1 =
        .moved r' (.returned i j) (some (d'.start j)) ∧ defs[r']? = some d' ∧ j.id = k.job.id := by
  have e1 : (Live.init defs).run defs (p ++ ⟨t₀, .begin r⟩ :: as) =
      ((Live.init defs).run defs (p ++ [⟨t₀, .begin r⟩])).run defs as := by rw [← live_run_append]; simp
  have H0 := liveInv_run (defs := defs) (liveInv_init defs false) (p ++ [⟨t₀, .begin r⟩])
  obtain ⟨q₀, rd₀, T₀, hrd₀, -⟩ := live_begun ε hd false p t₀ hbegin
  obtain ⟨q, rd, m, f, t, T, g2, g3, g4⟩ := liveTrack_run hD as bs H0 hd T₀ hc hp
  rw [← e1] at T g4
  rw [hrd₀] at g2
  have hpaused : ((Live.init defs).run defs (p ++ ⟨t₀, .begin r⟩ :: as)).streams.conc.mem.paused = false := by
    obtain ⟨l, hl⟩ := live_projects defs (Live.init defs) (p ++ ⟨t₀, .begin r⟩ :: as)
    rw [hl]
    exact streams_run_paused _ _
  have H := liveInv_run (defs := defs) (liveInv_init defs false) (p ++ ⟨t₀, .begin r⟩ :: as)
  generalize hs : (Live.init defs).run defs (p ++ ⟨t₀, .begin r⟩ :: as) = s at *
  have ht : t ≤ t₁ := List.rel_of_pairwise_cons g3 (by simp)
  have hcov : s.streams.conc.mem.hasMessage rd.sub = true ∨ rd.wait.covers k.job.scheduledAt := by
    obtain ⟨sb, h1, h2⟩ := H.inv.bound rd (List.mem_of_getElem? T.hrd)
    by_cases hq : sb.queue = []
    · exact .inr (H.inv.covers hpaused rd (List.mem_of_getElem? T.hrd) sb h1 hq k hk hw (hx.trans g2.symm) hen)
    · left
      simp [Mem.hasMessage, h1, hq]
  have hmax1 : k.job.scheduledAt ≤ max k.job.scheduledAt t₁ := Int.le_max_left _ _
  have hmax2 : t₁ ≤ max k.job.scheduledAt t₁ := Int.le_max_right _ _
  generalize max k.job.scheduledAt t₁ = T' at *
  have hn : onTimeNear ε k.job.scheduledAt (T' + D) (liveFrom D (s.room defs r) m f) (s.streams.conc.mem.hasMessage rd.sub) rd.wait := by
    have hft := T.ft
    have hlag := T.lag
    unfold liveFrom
    cases hr : s.room defs r with
    | false =>
      obtain ⟨hwt, -⟩ := T.full hr
      rw [hwt]
      simp only [onTimeNear, Bool.false_eq_true, if_false, Time, Delta, ms] at *; omega
    | true =>
      simp only [if_true]
      generalize max m f = e at *
      cases hwt : rd.wait with
      | ready =>
        rw [hwt] at hlag
        simp only [onTimeNear, onTimeLag, Time, Delta, ms] at *; omega
      | looked g =>
        rw [hwt] at hlag hcov
        refine ⟨?_, hcov.symm.imp id fun h => ⟨?_, h⟩⟩ <;> simp only [onTimeLag, Time, Delta, ms] at * <;> omega
      | decided c dl =>
        rw [hwt] at hlag hcov
        obtain ⟨h3, h3', -⟩ := hlag
        refine ⟨?_, hcov.symm.imp id fun h => ⟨?_, h⟩⟩ <;> simp only [Time, Delta, ms] at * <;> omega
      | asleep c since dl =>
        rw [hwt] at hlag hcov
        simp only [onTimeLag, onTimeNear] at *
        obtain ⟨l1, l2, l3, l4⟩ := hlag
        rcases hcov with h | h
        · have := l4 h
          simp only [Time, Delta, ms] at *; omega
        · simp only [Wait.covers, pollDelta, Time, Delta, ms] at *; omega
  have hc' : (t :: bs.map (·.now)).Pairwise (· ≤ ·) := by
    rw [List.pairwise_cons] at g3 ⊢
    exact ⟨fun a ha => g3.1 a (List.mem_cons_of_mem _ ha), List.Pairwise.of_cons g3.2⟩
  obtain ⟨b, hb, hlate⟩ := hlate
  have hle : k.job.scheduledAt ≤ T' + D := by simp only [Time, Delta] at *; omega
  have heq : T' + 15000000 + 6 * ε + D + n * (3 * ε + D) = T' + D + 15000000 + 6 * ε + n * (3 * ε + D) := by
    generalize (n : Int) * (3 * ε + D) = z
    simp only [Time, Delta]; omega
  rw [heq] at hlate ⊢
  obtain ⟨bs₁, a, bs₂, u1, u2, u3⟩ := live_begins (t₁ := t₁) hε hD H hd T (hx.trans g2.symm) (.inr hn) hle hc' g4 hk hw hpass
    (Nat.le_of_eq hcount) ⟨b, hb, hlate⟩
  refine ⟨bs₁, a, bs₂, u1, u2, ?_⟩
  rw [show (Live.init defs).run defs (p ++ ⟨t₀, .begin r⟩ :: as ++ bs₁) = s.run defs bs₁ by rw [live_run_append, hs]]
  exact u3

/-- A runner with room for one execution finds nothing and sleeps. Then two jobs are enqueued, due at
5 s and at 7 s. -/
def liveStart : List TLvAct :=
  [⟨0, .poll 0⟩, ⟨0, .step 0 false⟩, ⟨ms, .step 0 false⟩, ⟨2 * ms, .step 0 false⟩, ⟨3 * ms, .step 0 false⟩,
   ⟨1 * sec, .client (.start { sampleEnq with scheduledAt := 5 * sec })⟩,
   ⟨1 * sec, .client (.advance 0)⟩, ⟨1 * sec, .client (.advance 0)⟩, ⟨1 * sec, .client (.advance 0)⟩,
   ⟨1 * sec, .client (.start { sampleEnq with scheduledAt := 7 * sec })⟩,
   ⟨1 * sec, .client (.advance 1)⟩, ⟨1 * sec, .client (.advance 1)⟩, ⟨1 * sec, .client (.advance 1)⟩]

/-- It executes the first job from 5.004 s to 9 s, then the second from 9.003 s to 14 s. -/
def liveRest : List TLvAct :=
  [⟨1 * sec + ms, .poll 0⟩, ⟨1 * sec + ms, .step 0 false⟩, ⟨1 * sec + 2 * ms, .step 0 false⟩, ⟨1 * sec + 3 * ms, .step 0 false⟩,
   ⟨1 * sec + 4 * ms, .step 0 false⟩, ⟨1 * sec + 5 * ms, .step 0 false⟩, ⟨1 * sec + 6 * ms, .step 0 false⟩, ⟨1 * sec + 7 * ms, .step 0 false⟩,
   ⟨1 * sec + 8 * ms, .step 0 false⟩, ⟨1 * sec + 9 * ms, .step 0 false⟩,
   ⟨5 * sec + ms, .poll 0⟩, ⟨5 * sec + ms, .step 0 true⟩, ⟨5 * sec + 2 * ms, .step 0 false⟩, ⟨5 * sec + 3 * ms, .step 0 false⟩,
   ⟨5 * sec + 4 * ms, .step 0 false⟩,
   ⟨9 * sec, .finish 0 0 { ending := .returns .done }⟩, ⟨9 * sec, .report 0 0⟩,
   ⟨9 * sec + ms, .poll 0⟩, ⟨9 * sec + ms, .step 0 false⟩, ⟨9 * sec + 2 * ms, .step 0 false⟩, ⟨9 * sec + 3 * ms, .step 0 false⟩,
   ⟨12 * sec, .client (.op (.query (.statusEqual .complete)))⟩,
   ⟨14 * sec, .finish 0 0 { ending := .returns .done }⟩, ⟨14 * sec, .report 0 0⟩,
   ⟨14 * sec + ms, .poll 0⟩, ⟨14 * sec + ms, .step 0 false⟩, ⟨14 * sec + 2 * ms, .step 0 false⟩, ⟨14 * sec + 3 * ms, .step 0 false⟩,
   ⟨14 * sec + 4 * ms, .step 0 false⟩, ⟨18 * sec, .client (.op (.query (.statusEqual .complete)))⟩]

/-- The hypotheses are met by a runner that is never more than 1 ms late and never without room for
more than 5 s; one job is ahead of the one due at 7 s. That job is handed out by the 21st action. -/
example : ((0 : Time) :: (liveStart.map (·.now) ++ 1 * sec :: liveRest.map (·.now))).Pairwise (· ≤ ·) ∧
    PromptRunner ms (5 * sec) [eagerRunner (some 1)] 0 0 0 ((Live.init [eagerRunner (some 1)]).run [eagerRunner (some 1)] [⟨0, .begin 0⟩])
      (liveStart ++ liveRest) ∧
    (∃ k ∈ ((Live.init [eagerRunner (some 1)]).run [eagerRunner (some 1)] (⟨0, .begin 0⟩ :: liveStart)).streams.conc.mem.jobs,
      k.job.status = .scheduled ∧ k.job.executor = "mail" ∧ k.job.scheduledAt = 7 * sec ∧
      (((Live.init [eagerRunner (some 1)]).run [eagerRunner (some 1)] (⟨0, .begin 0⟩ :: liveStart)).streams.conc.mem.jobs.countP
        fun a => decide (Ahead k.job a.job)) = 1 ∧
      (∀ e ∈ ((Live.init [eagerRunner (some 1)]).run [eagerRunner (some 1)] (⟨0, .begin 0⟩ :: liveStart)).trace [eagerRunner (some 1)]
          (liveRest.take 21),
        e.ev.LetsPass k.job e.now ∧ (match e.ev with
          | .client ev => !ev.handsOut k.job.id
          | _ => true) = true) ∧
      ∃ b ∈ liveRest, max k.job.scheduledAt (1 * sec) + 15000000 + 6 * ms + 5 * sec + 1 * (3 * ms + 5 * sec) < b.now) := by
  decide +kernel

/-- The enqueue calls have returned. -/
example (k : KeyedJob) : ¬ ((Live.init [eagerRunner (some 1)]).run [eagerRunner (some 1)] (⟨0, .begin 0⟩ :: liveStart)).streams.conc.enqueuing k.job := by
  rintro ⟨e, h, -⟩
  have hall : (((Live.init [eagerRunner (some 1)]).run [eagerRunner (some 1)] (⟨0, .begin 0⟩ :: liveStart)).streams.conc.calls.all fun p => match p with
    | .done _ => true
    | _ => false) = true := by decide +kernel
  exact absurd (List.all_eq_true.mp hall _ h) (by simp)

/-- The runner begins with the jobs at 5.004 s and at 9.003 s. -/
example : ((((Live.init [eagerRunner (some 1)]).run [eagerRunner (some 1)] (⟨0, .begin 0⟩ :: liveStart)).trace [eagerRunner (some 1)] liveRest).filterMap
    fun e => match e.ev with
      | .moved r (.returned _ j) (some (.running _)) => some (e.now, r, j.id)
      | _ => none) = [(5 * sec + 4 * ms, 0, 0), (9 * sec + 3 * ms, 0, 1)] := by decide +kernel

/-- A runner with room that does not poll its stream is not prompt. -/
example : ¬ PromptRunner ms (5 * sec) [eagerRunner (some 1)] 0 0 0
    ((Live.init [eagerRunner (some 1)]).run [eagerRunner (some 1)] [⟨0, .begin 0⟩])
    [⟨2 * ms, .client (.op (.query (.statusEqual .complete)))⟩] := by decide +kernel

/-- **C138, in memory.** The backend may be paused. Runner `r` subscribes at `t₀`, and from then on its
stream makes each of its steps within `ε` of when it first can and the runner has room; the runner is
never without room for longer than `D`; clocks do not run backwards. At `t₁` a job of its executor waits,
whether or not anybody has been told, and from then on it is left alone and nothing is put in front of
it. Then a runner has begun with the job by 15 ms + 6 `ε` + `D`, and another 3 `ε` + `D` for every job that
was ahead of it, after the job is due – or after 30 s + 2 `ε` from `t₁`, if that is later. -/
theorem C138_in_memory {ε D : Delta} (hε : 0 ≤ ε) (hD : 0 ≤ D) (paused : Bool) (defs : List Runner) (r : Nat) (d : Runner)
    (hd : defs[r]? = some d) (p as bs : List TLvAct) (t₀ t₁ : Time) (k : KeyedJob)
    (hbegin : (((Live.init defs paused).run defs p).act defs t₀ (.begin r)).1 = .begun r)
    (hc : (t₀ :: (as.map (·.now) ++ t₁ :: bs.map (·.now))).Pairwise (· ≤ ·))
    (hp : PromptRunner ε D defs r t₀ t₀ ((Live.init defs paused).run defs (p ++ [⟨t₀, .begin r⟩])) (as ++ bs))
    (hk : k ∈ ((Live.init defs paused).run defs (p ++ ⟨t₀, .begin r⟩ :: as)).streams.conc.mem.jobs)
    (hw : k.job.status = .scheduled ∨ k.job.status = .retryable) (hx : k.job.executor = d.name)
    (hpass : ∀ es₁ e es₂, ((Live.init defs paused).run defs (p ++ ⟨t₀, .begin r⟩ :: as)).trace defs bs = es₁ ++ e :: es₂ →
      (∀ e' ∈ es₁, e'.ev.handsOut k.job.id = false) →
      e.ev.LetsPass k.job e.now ∧ ∀ ev, e.ev = .client ev → ev.handsOut k.job.id = false)
    (n : Nat) (hcount : ((Live.init defs paused).run defs (p ++ ⟨t₀, .begin r⟩ :: as)).streams.conc.mem.jobs.countP
      (fun a => decide (Ahead k.job a.job)) = n)
    (hlate : ∃ b ∈ bs, max k.job.scheduledAt (t₁ + 30000000000 + 2 * ε) + 15000000 + 6 * ε + D + n * (3 * ε + D) < b.now) :
    ∃ bs₁ b bs₂, bs = bs₁ ++ b :: bs₂ ∧
      b.now ≤ max k.job.scheduledAt (t₁ + 30000000000 + 2 * ε) + 15000000 + 6 * ε + D + n * (3 * ε + D) ∧
      ∃ r' d' i j, (((Live.init defs paused).run defs (p ++ ⟨t₀, .begin r⟩ :: as ++ bs₁)).act defs b.now b.act).1 =
        .moved r' (.returned i j) (some (d'.start j)) ∧ defs[r']? = some d' ∧ j.id = k.job.id := by
  have e1 : (Live.init defs paused).run defs (p ++ ⟨t₀, .begin r⟩ :: as) =
      ((Live.init defs paused).run defs (p ++ [⟨t₀, .begin r⟩])).run defs as := by rw [← live_run_append]; simp
  have H0 := liveInv_run (defs := defs) (liveInv_init defs paused) (p ++ [⟨t₀, .begin r⟩])
  obtain ⟨q₀, rd₀, T₀, hrd₀, -⟩ := live_begun ε hd paused p t₀ hbegin
  obtain ⟨q, rd, m, f, t, T, g2, g3, g4⟩ := liveTrack_run hD as bs H0 hd T₀ hc hp
  rw [← e1] at T g4
  rw [hrd₀] at g2
  have hshort : waitsShort rd.wait := by
    obtain ⟨l, hl⟩ := live_projects defs (Live.init defs paused) (p ++ ⟨t₀, .begin r⟩ :: as)
    have := T.hrd
    rw [hl] at this
    exact waitsShort_run paused l this
  have H := liveInv_run (defs := defs) (liveInv_init defs paused) (p ++ ⟨t₀, .begin r⟩ :: as)
  generalize hs : (Live.init defs paused).run defs (p ++ ⟨t₀, .begin r⟩ :: as) = s at *
  have ht : t ≤ t₁ := List.rel_of_pairwise_cons g3 (by simp)
  have hmax1 : k.job.scheduledAt ≤ max k.job.scheduledAt (t₁ + 30000000000 + 2 * ε) := Int.le_max_left _ _
  have hmax2 : t₁ + 30000000000 + 2 * ε ≤ max k.job.scheduledAt (t₁ + 30000000000 + 2 * ε) := Int.le_max_right _ _
  generalize max k.job.scheduledAt (t₁ + 30000000000 + 2 * ε) = T' at *
  have hle2 : t₁ + 30000000000 + 2 * ε ≤ T' + D := by simp only [Time, Delta] at *; omega
  have hn : (dozing ε t₁ (liveFrom D (s.room defs r) m f) rd.wait ∧ t₁ + 30000000000 + 2 * ε ≤ T' + D) ∨
      onTimeNear ε k.job.scheduledAt (T' + D) (liveFrom D (s.room defs r) m f) (s.streams.conc.mem.hasMessage rd.sub) rd.wait := by
    have hft := T.ft
    have hlag := T.lag
    unfold liveFrom
    cases hr : s.room defs r with
    | false =>
      obtain ⟨hwt, -⟩ := T.full hr
      rw [hwt]
      right
      simp only [onTimeNear, Bool.false_eq_true, if_false, Time, Delta, ms] at *; omega
    | true =>
      simp only [if_true]
      generalize max m f = e at *
      cases hwt : rd.wait with
      | ready =>
        rw [hwt] at hlag
        right
        simp only [onTimeNear, onTimeLag, Time, Delta, ms] at *; omega
      | looked g =>
        rw [hwt] at hlag
        exact .inl ⟨Int.le_trans hlag ht, hle2⟩
      | decided c dl =>
        rw [hwt] at hlag hshort
        refine .inl ⟨⟨?_, hshort⟩, hle2⟩
        simp only [onTimeLag, Time, Delta] at *; omega
      | asleep c since dl =>
        rw [hwt] at hlag hshort
        right
        simp only [onTimeLag, onTimeNear, waitsShort] at *
        obtain ⟨l1, l2, l3, -⟩ := hlag
        simp only [Time, Delta, ms] at *; omega
  have hc' : (t :: bs.map (·.now)).Pairwise (· ≤ ·) := by
    rw [List.pairwise_cons] at g3 ⊢
    exact ⟨fun a ha => g3.1 a (List.mem_cons_of_mem _ ha), List.Pairwise.of_cons g3.2⟩
  obtain ⟨b, hb, hlate⟩ := hlate
  have hle : k.job.scheduledAt ≤ T' + D := by simp only [Time, Delta] at *; omega
  have heq : T' + 15000000 + 6 * ε + D + n * (3 * ε + D) = T' + D + 15000000 + 6 * ε + n * (3 * ε + D) := by
    generalize (n : Int) * (3 * ε + D) = z
    simp only [Time, Delta]; omega
  rw [heq] at hlate ⊢
  obtain ⟨bs₁, a, bs₂, u1, u2, u3⟩ := live_begins (t₁ := t₁) hε hD H hd T (hx.trans g2.symm) hn hle hc' g4 hk hw hpass
    (Nat.le_of_eq hcount) ⟨b, hb, hlate⟩
  refine ⟨bs₁, a, bs₂, u1, u2, ?_⟩
  rw [show (Live.init defs paused).run defs (p ++ ⟨t₀, .begin r⟩ :: as ++ bs₁) = s.run defs bs₁ by rw [live_run_append, hs]]
  exact u3

/-- The backend is paused. A runner finds nothing and sleeps. Then a job due at 7 s is enqueued. -/
def mutedStart : List TLvAct :=
  [⟨0, .poll 0⟩, ⟨0, .step 0 false⟩, ⟨ms, .step 0 false⟩, ⟨2 * ms, .step 0 false⟩,
   ⟨1 * sec, .client (.start { sampleEnq with scheduledAt := 7 * sec })⟩,
   ⟨1 * sec, .client (.advance 0)⟩, ⟨1 * sec, .client (.advance 0)⟩, ⟨1 * sec, .client (.advance 0)⟩]

/-- The runner wakes after half a minute and executes the job. -/
def mutedRest : List TLvAct :=
  [⟨30 * sec + 2 * ms, .poll 0⟩, ⟨30 * sec + 3 * ms, .step 0 false⟩, ⟨30 * sec + 4 * ms, .step 0 false⟩, ⟨30 * sec + 5 * ms, .step 0 false⟩,
   ⟨30 * sec + 6 * ms, .step 0 false⟩,
   ⟨34 * sec, .finish 0 0 { ending := .returns .done }⟩, ⟨34 * sec, .report 0 0⟩,
   ⟨34 * sec + ms, .poll 0⟩, ⟨34 * sec + ms, .step 0 false⟩, ⟨34 * sec + 2 * ms, .step 0 false⟩, ⟨34 * sec + 3 * ms, .step 0 false⟩,
   ⟨40 * sec, .client (.op (.query (.statusEqual .complete)))⟩]

/-- The hypotheses are met, and the runner begins with the job at 30.006 s. -/
example : ((0 : Time) :: (mutedStart.map (·.now) ++ 1 * sec :: mutedRest.map (·.now))).Pairwise (· ≤ ·) ∧
    PromptRunner ms (5 * sec) [eagerRunner (some 1)] 0 0 0
      ((Live.init [eagerRunner (some 1)] true).run [eagerRunner (some 1)] [⟨0, .begin 0⟩]) (mutedStart ++ mutedRest) ∧
    (∃ k ∈ ((Live.init [eagerRunner (some 1)] true).run [eagerRunner (some 1)] (⟨0, .begin 0⟩ :: mutedStart)).streams.conc.mem.jobs,
      k.job.status = .scheduled ∧ k.job.executor = "mail" ∧ k.job.scheduledAt = 7 * sec ∧
      (((Live.init [eagerRunner (some 1)] true).run [eagerRunner (some 1)] (⟨0, .begin 0⟩ :: mutedStart)).streams.conc.mem.jobs.countP
        fun a => decide (Ahead k.job a.job)) = 0 ∧
      (∀ e ∈ ((Live.init [eagerRunner (some 1)] true).run [eagerRunner (some 1)] (⟨0, .begin 0⟩ :: mutedStart)).trace [eagerRunner (some 1)]
          (mutedRest.take 5),
        e.ev.LetsPass k.job e.now ∧ (match e.ev with
          | .client ev => !ev.handsOut k.job.id
          | _ => true) = true) ∧
      ∃ b ∈ mutedRest, max k.job.scheduledAt (1 * sec + 30000000000 + 2 * ms) + 15000000 + 6 * ms + 5 * sec < b.now) ∧
    ((((Live.init [eagerRunner (some 1)] true).run [eagerRunner (some 1)] (⟨0, .begin 0⟩ :: mutedStart)).trace [eagerRunner (some 1)]
        mutedRest).filterMap fun e => match e.ev with
      | .moved r (.returned _ j) (some (.running _)) => some (e.now, r, j.id)
      | _ => none) = [(30 * sec + 6 * ms, 0, 0)] := by
  decide +kernel

end Rexecutor
