import Verif.Props.NeverStuck
import Verif.Props.Live

/-!
# C139 for runners: a runner is never stuck

C124 and C138 speak of runners whose streams make each of their steps within `ε` of when they first
can and there is room, and that are never without room for longer than `D`. Here: whatever has
happened, a runner that polls its stream can always go on like that, as long as its executions end.
-/

namespace Rexecutor

/-! ## In memory -/

/-- The next step is not overdue; while there is room, it can be made when it is awaited. -/
private def liveCanMove (ε D : Delta) (room : Bool) (m f t : Time) (msg : Bool) (w : Wait) : Prop :=
  if room then canMove ε (max m f) t msg w else t ≤ f + D

/-- What is waited for. -/
private def liveDue (room : Bool) (m f : Time) : Time := if room then max m f else f

private theorem liveCanMove_step {ε D : Delta} (hε : 0 ≤ ε) (hD : 0 ≤ D) {defs : List Runner} {r i : Nat} {d : Runner} {s : Live}
    {q : LiveRunner} {rd : Reader} {m f t : Time} {a : TLvAct} (H : LiveInv s) (hd : defs[r]? = some d)
    (T : LiveTrack ε defs r i s q rd m f t)
    (h : liveCanMove ε D (s.room defs r) m f t (s.streams.conc.mem.hasMessage rd.sub) rd.wait)
    (ht : t ≤ a.now) (hp : if s.room defs r then a.now ≤ max m f + ε else a.now ≤ f + D) :
    ∃ q' rd', LiveTrack ε defs r i (s.act defs a.now a.act).2 q' rd' (liveNextM defs r m s a) (liveNextF defs r f s a) a.now ∧
      liveCanMove ε D ((s.act defs a.now a.act).2.room defs r) (liveNextM defs r m s a) (liveNextF defs r f s a) a.now
        ((s.act defs a.now a.act).2.streams.conc.mem.hasMessage rd'.sub) rd'.wait ∧
      (liveDue (s.room defs r) m f ≤ a.now →
        liveDue (s.room defs r) m f ≤ liveDue ((s.act defs a.now a.act).2.room defs r) (liveNextM defs r m s a) (liveNextF defs r f s a)) ∧
      ((s.act defs a.now a.act).1.isMove r = true →
        a.now ≤ liveDue ((s.act defs a.now a.act).2.room defs r) (liveNextM defs r m s a) (liveNextF defs r f s a)) := by
  obtain ⟨q', rd', T', -⟩ := live_track_step hD H hd T ht hp
  refine ⟨q', rd', T', ?_⟩
  obtain ⟨now, a⟩ := a
  simp only at ht hp T' ⊢
  obtain ⟨hq, hs, hrd, hpoll, hfull, hft, hsince, hlag⟩ := T
  obtain ⟨q'', h1, h2, h3⟩ := live_kind (now := now) H a hd hq hs
  have hqq : q'' = q' := by
    have := T'.hq
    rw [h1, Option.some.injEq] at this
    exact this
  subst hqq
  have hv := (live_view defs now s a).1
  have hroom := live_room_eq hd hq
  have hroom' := live_room_eq hd h1
  rcases h3 with ⟨k1, k2, k3, k4⟩ | ⟨b, k1, k2, k3, k4, k5⟩
  · -- somebody else's action
    have hr' : (s.act defs now a).2.streams.readers[i]? = some rd := by
      rw [hv]
      cases hw : liveView defs s a with
      | none => exact hrd
      | some sa =>
        simp only
        cases hsa : sa.isStream i with
        | true => rw [k2 sa hw hsa]; exact hrd
        | false => exact stream_unmoved hrd hsa
    have hrr' : rd' = rd := by
      have := T'.hrd
      rw [hr', Option.some.injEq] at this
      exact this.symm
    subst hrr'
    have hmsg : s.streams.conc.mem.hasMessage rd'.sub = true → (s.act defs now a).2.streams.conc.mem.hasMessage rd'.sub = true := by
      rw [hv]
      cases hw : liveView defs s a with
      | none => exact id
      | some sa =>
        simp only
        cases hsa : sa.isStream i with
        | true => rw [k2 sa hw hsa]; exact id
        | false => exact onTime_message_stays H.inv hrd hsa
    have hmv := (liveMoves_eq h1 h2 now).trans (onTime_movesFrom_eq hr' now)
    generalize (s.act defs now a).2.streams.conc.mem.hasMessage rd'.sub = msg' at hmsg hmv ⊢
    generalize s.streams.conc.mem.hasMessage rd'.sub = msg at hmsg hlag h
    have hm' : liveNextM defs r m s ⟨now, a⟩ = min m ((s.act defs now a).2.movesFrom r now) := by
      simp [liveNextM, k1]
    have hmono : s.room defs r = true → (s.act defs now a).2.room defs r = true := by
      rw [hroom, hroom']; exact live_below_mono k3
    generalize (s.act defs now a).2.movesFrom r now = mv at hmv hm'
    refine ⟨?_, ?_, by rw [k1]; nofun⟩
    all_goals by_cases hrr : (s.act defs now a).2.room defs r = s.room defs r
    · have hf' : liveNextF defs r f s ⟨now, a⟩ = f := by simp [liveNextF, hrr]
      rw [hm', hf', hrr]
      cases hyes : s.room defs r with
      | false => rw [hyes] at hp; exact hp
      | true =>
        rw [hyes] at hp h
        simp only [if_true, liveCanMove] at hp h ⊢
        cases hw : rd'.wait with
        | asleep c since dl =>
          rw [hw] at h hlag hmv
          simp only [canMove, onTimeLag] at h hlag hmv ⊢
          have h1 := hlag.2.2.1
          cases hms : msg' with
          | true =>
            rw [hms] at hmv
            simp only [if_true, true_or, and_true] at hmv ⊢
            simp only [Time, Delta] at *; omega
          | false =>
            rw [hms] at hmv
            have h2 : since + dl ≤ max m f := h.2.resolve_left fun e => by rw [hmsg e] at hms; cases hms
            simp only [Bool.false_eq_true, if_false, false_or] at hmv ⊢
            simp only [Time, Delta] at *; omega
        | _ =>
          rw [hw] at h hmv
          simp only [canMove, Time, Delta] at *; omega
    · have hno : s.room defs r = false := by
        cases h : s.room defs r with
        | false => rfl
        | true => exact (hrr ((hmono h).trans h.symm)).elim
      have hyes : (s.act defs now a).2.room defs r = true := by
        cases h : (s.act defs now a).2.room defs r with
        | true => rfl
        | false => exact (hrr (h.trans hno.symm)).elim
      have hf' : liveNextF defs r f s ⟨now, a⟩ = now := by simp [liveNextF, hrr]
      rw [hf', hyes, (hfull hno).1]
      simp only [liveCanMove, canMove, if_true, Time, Delta] at *; omega
    · have hf' : liveNextF defs r f s ⟨now, a⟩ = f := by simp [liveNextF, hrr]
      rw [hm', hf', hrr]
      intro hdue
      cases hyes : s.room defs r with
      | false => exact Int.le_refl _
      | true =>
        rw [hyes] at hdue
        simp only [liveDue, if_true] at hdue ⊢
        have : max m f ≤ mv ∨ now ≤ mv := by
          rw [hmv]
          cases hw : rd'.wait with
          | asleep c since dl =>
            rw [hw] at hlag
            have h1 := hlag.2.2.1
            cases msg' with
            | true => exact .inr (Int.le_refl _)
            | false => exact .inl h1
          | _ => exact .inr (Int.le_refl _)
        simp only [Time, Delta] at *; omega
    · have hf' : liveNextF defs r f s ⟨now, a⟩ = now := by simp [liveNextF, hrr]
      rw [hf']
      intro hdue
      refine Int.le_trans hdue ?_
      unfold liveDue
      split <;> simp only [Time, Delta] at * <;> omega
  · -- a step of its stream
    have hyes := hpoll k2
    rw [hyes] at hp
    simp only [if_true] at hp
    have hst : (s.act defs now a).2.streams = (s.streams.step now (.stream i b)).2 := by rw [hv, k1]
    have hrd' := T'.hrd
    rw [hst] at hrd'
    obtain ⟨o1, o2⟩ := canMove_own (ε := ε) hε hrd hlag hrd' k4
    have hm' : liveNextM defs r m s ⟨now, a⟩ = (s.streams.step now (.stream i b)).2.movesFrom i now := by
      rw [← hst, ← liveMoves_eq h1 h2]
      simp [liveNextM, k3]
    rw [hst, hm']
    generalize (s.streams.step now (.stream i b)).2.movesFrom i now = mf at *
    generalize (s.streams.step now (.stream i b)).2.conc.mem.hasMessage rd'.sub = msg' at *
    have hfm : f ≤ mf := Int.le_trans (Int.le_trans hft ht) o1
    cases hroom2 : (s.act defs now a).2.room defs r with
    | true =>
      have hf' : liveNextF defs r f s ⟨now, a⟩ = f := by simp [liveNextF, hroom2, hyes]
      have hmax : max mf f = mf := by simp only [Time] at *; omega
      rw [hf', hyes]
      simp only [liveCanMove, liveDue, if_true, hmax]
      exact ⟨o2, fun h => Int.le_trans h o1, fun _ => o1⟩
    | false =>
      have hf' : liveNextF defs r f s ⟨now, a⟩ = now := by simp [liveNextF, hroom2, hyes]
      rw [hf', hyes]
      simp only [liveCanMove, liveDue, if_true, Bool.false_eq_true, if_false]
      refine ⟨?_, id, fun _ => Int.le_refl _⟩
      simp only [Time, Delta] at *; omega

/-- Runner `r` polls its stream, the stream makes a step, the oldest execution ends, or it reports. -/
def LvAct.OfRunner (r : Nat) (timer : Bool) (a : LvAct) : Prop :=
  a = .poll r ∨ a = .step r timer ∨ a = .finish r 0 { ending := .returns .done } ∨ a = .report r 0

/-- Everything about a runner that goes on. -/
private structure LiveGood (ε D : Delta) (defs : List Runner) (r i : Nat) (s : Live) (q : LiveRunner) (rd : Reader) (m f t : Time) : Prop where
  inv : LiveInv s
  track : LiveTrack ε defs r i s q rd m f t
  can : liveCanMove ε D (s.room defs r) m f t (s.streams.conc.mem.hasMessage rd.sub) rd.wait
  polling : q.state.polling = true
  calm : s.cancelled = false

/-- Over a job that its stream returns the runner itself panics (C86). -/
def LvEv.Panics (r : Nat) (ev : LvEv) : Prop := ∃ i j, ev = .moved r (.returned i j) (some .runnerPanics)

private theorem Task.join_done (t : Task) : t.join { ending := .returns .done } = some (.result .done) := by
  unfold Task.join
  cases t.timeout <;> simp

/-- How far it is to the next step of the stream. -/
private def toStep (room : Bool) (q : LiveRunner) : Nat :=
  if room then (if q.inPoll then 0 else 1)
  else 2 + 2 * q.state.flights.length + (match q.state.flights with | { phase := .running, .. } :: _ => 1 | _ => 0)

private theorem liveGood_next {ε D : Delta} (hε : 0 ≤ ε) (hD : 0 ≤ D) {defs : List Runner} {r i : Nat} {d : Runner} (c : Bool)
    {s : Live} {q : LiveRunner} {rd : Reader} {m f t : Time} (hd : defs[r]? = some d)
    (G : LiveGood ε D defs r i s q rd m f t) :
    ∃ a : TLvAct, a.act.OfRunner r c ∧ t ≤ a.now ∧
      (if s.room defs r then a.now ≤ max m f + ε else a.now ≤ f + D) ∧
      liveDue (s.room defs r) m f ≤ a.now ∧
      ((s.act defs a.now a.act).1.Panics r ∨ ∃ (q' : LiveRunner) (rd' : Reader),
      LiveGood ε D defs r i (s.act defs a.now a.act).2 q' rd' (liveNextM defs r m s a) (liveNextF defs r f s a) a.now ∧
      liveDue (s.room defs r) m f ≤ liveDue ((s.act defs a.now a.act).2.room defs r) (liveNextM defs r m s a) (liveNextF defs r f s a) ∧
      (toStep ((s.act defs a.now a.act).2.room defs r) q' < toStep (s.room defs r) q ∨
        (liveDue (s.room defs r) m f + ε ≤ a.now ∧
          a.now ≤ liveDue ((s.act defs a.now a.act).2.room defs r) (liveNextM defs r m s a) (liveNextF defs r f s a)))) := by
  obtain ⟨H, T, C, hpol, hcalm⟩ := G
  have hq := T.hq
  have hs := T.hs
  have hroom := live_room_eq hd hq
  have hpoll := T.poll
  obtain ⟨st, ip, ⟨pol, fls⟩⟩ := q
  simp only at hs hpol hpoll hroom
  subst hs hpol
  cases hr : s.room defs r with
  | false =>
    have hip : ip = false := by
      cases ip with
      | false => rfl
      | true => rw [hpoll rfl] at hr; cases hr
    subst hip
    have hne : fls ≠ [] := by
      rintro rfl
      rw [hr] at hroom
      unfold belowLimit at hroom
      split at hroom <;> simp at hroom
    have hC := C
    rw [hr] at hC
    have hC' : t ≤ f + D := hC
    have hff : liveDue false m f ≤ f + D := by
      simp only [liveDue, Bool.false_eq_true, if_false, Time, Delta] at *; omega
    obtain ⟨fl, rest, rfl⟩ : ∃ fl rest, fls = fl :: rest := by
      cases fls with
      | nil => exact absurd rfl hne
      | cons fl rest => exact ⟨fl, rest, rfl⟩
    obtain ⟨tk, ph⟩ := fl
    cases ph with
    | running =>
      have hp : if s.room defs r then f + D ≤ max m f + ε else f + D ≤ f + D := by rw [hr]; exact Int.le_refl _
      obtain ⟨q', rd', T', C', hdue, -⟩ := liveCanMove_step (a := ⟨f + D, .finish r 0 { ending := .returns .done }⟩) hε hD H hd T C hC' hp
      rw [hr] at hdue
      have e : s.act defs (f + D) (.finish r 0 { ending := .returns .done }) =
          (.ended r tk (.result .done) (some (.complete tk.id)), { s with
            runners := s.runners.set r { stream := some i, inPoll := false, state := { polling := true, flights := { task := tk, phase := .reporting (.complete tk.id) } :: rest } } }) := by
        simp [Live.act, hd, hq, Task.join_done, Runner.report]
      have hq' : q' = { stream := some i, inPoll := false, state := { polling := true, flights := { task := tk, phase := .reporting (.complete tk.id) } :: rest } } := by
        have := T'.hq
        simp only [e, List.getElem?_set_self (List.getElem?_eq_some_iff.mp hq).1, Option.some.injEq] at this
        exact this.symm
      have hroom' : (s.act defs (f + D) (.finish r 0 { ending := .returns .done })).2.room defs r = false := by
        rw [live_room_eq hd T'.hq, hq', ← hr, hroom]
        rfl
      refine ⟨_, .inr (.inr (.inl rfl)), hC', by simp, hff, .inr ⟨q', rd', ⟨liveInv_act H _ _, T', C', by rw [hq'], by rw [e]; exact hcalm⟩,
        hdue hff, .inl ?_⟩⟩
      simp only [hroom', hq']
      simp [toStep]
    | reporting o =>
      have hp : if s.room defs r then f + D ≤ max m f + ε else f + D ≤ f + D := by rw [hr]; exact Int.le_refl _
      obtain ⟨q', rd', T', C', hdue, -⟩ := liveCanMove_step (a := ⟨f + D, .report r 0⟩) hε hD H hd T C hC' hp
      rw [hr] at hdue
      have e : s.act defs (f + D) (.report r 0) =
          (.reported r tk (s.streams.conc.step (f + D) (.op o)).1,
            { s with
              streams := { s.streams with conc := (s.streams.conc.step (f + D) (.op o)).2 }
              runners := s.runners.set r { stream := some i, inPoll := false, state := { polling := true, flights := rest } } }) := by
        simp [Live.act, hq]
      have hq' : q' = { stream := some i, inPoll := false, state := { polling := true, flights := rest } } := by
        have := T'.hq
        simp only [e, List.getElem?_set_self (List.getElem?_eq_some_iff.mp hq).1, Option.some.injEq] at this
        exact this.symm
      refine ⟨_, .inr (.inr (.inr rfl)), hC', by simp, hff, .inr ⟨q', rd', ⟨liveInv_act H _ _, T', C', by rw [hq'], by rw [e]; exact hcalm⟩,
        hdue hff, .inl ?_⟩⟩
      rw [hq']
      unfold toStep
      split
      · simp; omega
      · simp only [List.length_cons]
        split <;> simp <;> omega
  | true =>
    have hC := C
    rw [hr] at hC
    simp only [liveCanMove, if_true] at hC
    have hC' : t ≤ max m f + ε := canMove_soon hC
    have hp : if s.room defs r then max m f + ε ≤ max m f + ε else max m f + ε ≤ f + D := by rw [hr]; exact Int.le_refl _
    have hff : liveDue true m f ≤ max m f + ε := by
      simp only [liveDue, if_true, Time, Delta] at *; omega
    cases ip with
    | false =>
      obtain ⟨q', rd', T', C', hdue, -⟩ := liveCanMove_step (a := ⟨max m f + ε, .poll r⟩) hε hD H hd T C hC' hp
      rw [hr] at hdue
      have hb : belowLimit d.maxConcurrency fls.length = true := by rw [← hroom]; exact hr
      have e : s.act defs (max m f + ε) (.poll r) =
          (.polling r, { s with runners := s.runners.set r { stream := some i, inPoll := true, state := { polling := true, flights := fls } } }) := by
        simp [Live.act, hd, hq, hb, hcalm]
      have hq' : q' = { stream := some i, inPoll := true, state := { polling := true, flights := fls } } := by
        have := T'.hq
        simp only [e, List.getElem?_set_self (List.getElem?_eq_some_iff.mp hq).1, Option.some.injEq] at this
        exact this.symm
      have hroom' : (s.act defs (max m f + ε) (.poll r)).2.room defs r = true := by
        rw [live_room_eq hd T'.hq, hq']; exact hb
      refine ⟨_, .inl rfl, hC', by simp, hff, .inr ⟨q', rd', ⟨liveInv_act H _ _, T', C', by rw [hq'], by rw [e]; exact hcalm⟩,
        hdue hff, .inl ?_⟩⟩
      simp only [hroom', hq']
      simp [toStep]
    | true =>
      obtain ⟨q', rd', T', C', hdue, hmv⟩ := liveCanMove_step (a := ⟨max m f + ε, .step r c⟩) hε hD H hd T C hC' hp
      rw [hr] at hdue
      have hsome := canMove_moves hε c T.hrd hC
      have hkeys : (s.act defs (max m f + ε) (.step r c)).1.Panics r ∨
          (s.act defs (max m f + ε) (.step r c)).1.isMove r = true ∧
          (s.act defs (max m f + ε) (.step r c)).2.cancelled = false ∧
          ∀ q', (s.act defs (max m f + ε) (.step r c)).2.runners[r]? = some q' → q'.state.polling = true := by
        simp only [Live.act, hd, hq]
        generalize s.streams.step (max m f + ε) (.stream i c) = y at hsome
        obtain ⟨ev, y⟩ := y
        cases ev with
        | nothing => cases hsome
        | returned k j =>
          by_cases hpan : d.start j = .runnerPanics
          · exact .inl ⟨k, j, by simp only [hpan]⟩
          · refine .inr ⟨by simp [LvEv.isMove], hcalm, fun q' h => ?_⟩
            simp only [List.getElem?_set_self (List.getElem?_eq_some_iff.mp hq).1, Option.some.injEq] at h
            rw [← h]
            unfold LiveRunner.take
            split
            · rfl
            · rfl
            · rename_i e; exact absurd e hpan
        | _ =>
          refine .inr ⟨by simp [LvEv.isMove], hcalm, fun q' h => ?_⟩
          simp only [hq, Option.some.injEq] at h
          rw [← h]
      refine ⟨⟨max m f + ε, .step r c⟩, .inr (.inl rfl), hC', by simp, hff, ?_⟩
      rcases hkeys with hkeys | hkeys
      · exact .inl hkeys
      · refine .inr ⟨q', rd', ⟨liveInv_act H _ _, T', C', hkeys.2.2 _ T'.hq, hkeys.2.1⟩, hdue hff, .inr ⟨?_, hmv hkeys.1⟩⟩
        simp only [liveDue, if_true]
        exact Int.le_refl _

/-- A continuation that the runner alone makes, until `X` or a panic. -/
private def LiveOn (ε D : Delta) (defs : List Runner) (r : Nat) (c : Bool) (s : Live) (m f t X : Time) : Prop :=
  ∃ bs : List TLvAct, (∀ b ∈ bs, b.act.OfRunner r c) ∧
    ((∃ b ∈ bs, X ≤ b.now) ∨ ∃ e ∈ s.trace defs bs, e.ev.Panics r) ∧
    (t :: bs.map (·.now)).Pairwise (· ≤ ·) ∧ PromptRunner ε D defs r m f s bs

private theorem LiveOn.last {ε D : Delta} {defs : List Runner} {r : Nat} {c : Bool} {s : Live} {m f t X : Time} {a : TLvAct}
    (h1 : a.act.OfRunner r c) (h2 : t ≤ a.now) (h3 : if s.room defs r then a.now ≤ max m f + ε else a.now ≤ f + D)
    (h : X ≤ a.now ∨ (s.act defs a.now a.act).1.Panics r) : LiveOn ε D defs r c s m f t X :=
  ⟨[a], by simpa using h1, h.imp (fun h => ⟨a, by simp, h⟩) (fun h => ⟨_, by simp only [Live.trace]; exact List.mem_cons_self, h⟩),
    by simpa using h2, h3, trivial⟩

private theorem LiveOn.cons {ε D : Delta} {defs : List Runner} {r : Nat} {c : Bool} {s : Live} {m f t X Y : Time} {a : TLvAct}
    (h1 : a.act.OfRunner r c) (h2 : t ≤ a.now) (h3 : if s.room defs r then a.now ≤ max m f + ε else a.now ≤ f + D)
    (hX : X ≤ Y)
    (h : LiveOn ε D defs r c (s.act defs a.now a.act).2 (liveNextM defs r m s a) (liveNextF defs r f s a) a.now Y) :
    LiveOn ε D defs r c s m f t X := by
  obtain ⟨bs, g1, g2, g3, g4⟩ := h
  refine ⟨a :: bs, ?_, ?_, ?_, h3, g4⟩
  · intro b hb
    rcases List.mem_cons.mp hb with e | hb
    · rw [e]; exact h1
    · exact g1 b hb
  · rcases g2 with ⟨b, hb, g2⟩ | ⟨e, he, g2⟩
    · exact .inl ⟨b, List.mem_cons_of_mem _ hb, Int.le_trans hX g2⟩
    · exact .inr ⟨e, List.mem_cons_of_mem _ he, g2⟩
  · rw [List.map_cons, List.pairwise_cons]
    refine ⟨fun u hu => ?_, g3⟩
    rcases List.mem_cons.mp hu with e | hu
    · rw [e]; exact h2
    · exact Int.le_trans h2 (List.rel_of_pairwise_cons g3 hu)

private theorem live_goes_on {ε D : Delta} (hε : 0 ≤ ε) (hD : 0 ≤ D) {defs : List Runner} {r i : Nat} {d : Runner} (c : Bool)
    (hd : defs[r]? = some d) (n : Nat) :
    ∀ (k : Nat) (s : Live) (q : LiveRunner) (rd : Reader) (m f t : Time), toStep (s.room defs r) q ≤ k →
    LiveGood ε D defs r i s q rd m f t → LiveOn ε D defs r c s m f t (liveDue (s.room defs r) m f + n * ε) := by
  induction n with
  | zero =>
    intro k s q rd m f t _ G
    obtain ⟨a, h1, h2, h3, h4, -⟩ := liveGood_next hε hD c hd G
    exact .last h1 h2 h3 (.inl (by simp only [Time, Delta] at *; omega))
  | succ n ihn =>
    intro k
    have sum : ((n + 1 : Nat) : Int) * ε = (n : Int) * ε + ε := by
      rw [Int.natCast_add, Int.add_mul]; simp
    induction k with
    | zero =>
      intro s q rd m f t hk G
      obtain ⟨a, h1, h2, h3, -, h4 | ⟨q', rd', h4, h5, h6⟩⟩ := liveGood_next hε hD c hd G
      · exact .last h1 h2 h3 (.inr h4)
      rcases h6 with h6 | ⟨h6, h7⟩
      · omega
      · refine .cons h1 h2 h3 ?_ (ihn _ _ q' rd' _ _ _ (Nat.le_refl _) h4)
        rw [sum]
        simp only [Time, Delta] at *; omega
    | succ k ih =>
      intro s q rd m f t hk G
      obtain ⟨a, h1, h2, h3, -, h4 | ⟨q', rd', h4, h5, h6⟩⟩ := liveGood_next hε hD c hd G
      · exact .last h1 h2 h3 (.inr h4)
      rcases h6 with h6 | ⟨h6, h7⟩
      · exact .cons h1 h2 h3 (Int.add_le_add_right h5 _) (ih _ q' rd' _ _ _ (by omega) h4)
      · refine .cons h1 h2 h3 ?_ (ihn _ _ q' rd' _ _ _ (Nat.le_refl _) h4)
        rw [sum]
        simp only [Time, Delta] at *; omega

/-- The part before. -/
private theorem live_good_run {ε D : Delta} (hε : 0 ≤ ε) (hD : 0 ≤ D) {defs : List Runner} {r i : Nat} {d : Runner} {s : Live}
    {q : LiveRunner} {rd : Reader} {m f t : Time} (as : List TLvAct) (H : LiveInv s) (hd : defs[r]? = some d)
    (T : LiveTrack ε defs r i s q rd m f t)
    (C : liveCanMove ε D (s.room defs r) m f t (s.streams.conc.mem.hasMessage rd.sub) rd.wait)
    (hc : (t :: as.map (·.now)).Pairwise (· ≤ ·)) (hp : PromptRunner ε D defs r m f s as) :
    ∃ q' rd' m' f', LiveTrack ε defs r i (s.run defs as) q' rd' m' f' ((as.map (·.now)).getLastD t) ∧
      liveCanMove ε D ((s.run defs as).room defs r) m' f' ((as.map (·.now)).getLastD t)
        ((s.run defs as).streams.conc.mem.hasMessage rd'.sub) rd'.wait ∧
      ∀ bs, PromptRunner ε D defs r m' f' (s.run defs as) bs → PromptRunner ε D defs r m f s (as ++ bs) := by
  induction as generalizing s q rd m f t with
  | nil => exact ⟨q, rd, m, f, T, C, fun _ h => h⟩
  | cons a as ih =>
    rw [List.map_cons] at hc
    obtain ⟨q₁, rd₁, T₁, C₁, -⟩ := liveCanMove_step hε hD H hd T C (List.rel_of_pairwise_cons hc (by simp)) hp.1
    obtain ⟨q', rd', m', f', g1, g2, g3⟩ := ih (liveInv_act H a.now a.act) T₁ C₁ (List.Pairwise.of_cons hc) hp.2
    refine ⟨q', rd', m', f', ?_, ?_, fun bs h => ⟨hp.1, g3 bs h⟩⟩
    · rw [List.map_cons, List.getLastD_cons]; exact g1
    · rw [List.map_cons, List.getLastD_cons]; exact g2

/-- **C139, runners in memory.** Runner `r` subscribes at `t₀`; whatever then happens up to `t₁`, its
stream makes each of its steps within `ε` of when it first can and there is room, and the runner is
never without room for longer than `D`. At `t₁` the runner still takes jobs and the token is not
cancelled. Then it can go on so until after any time `T`, with nobody doing anything but this runner:
polling, making steps of its stream, and, when it has no room, an execution ending and reporting –
unless it panics over a job its stream returns. -/
theorem C139_runner_in_memory {ε D : Delta} (hε : 0 < ε) (hD : 0 ≤ D) (paused c : Bool) (defs : List Runner) (r : Nat) (d : Runner)
    (hd : defs[r]? = some d) (p as : List TLvAct) (t₀ t₁ T : Time)
    (hbegin : (((Live.init defs paused).run defs p).act defs t₀ (.begin r)).1 = .begun r)
    (hc : (t₀ :: as.map (·.now)).Pairwise (· ≤ ·)) (ht : (as.map (·.now)).getLastD t₀ = t₁)
    (hp : PromptRunner ε D defs r t₀ t₀ ((Live.init defs paused).run defs (p ++ [⟨t₀, .begin r⟩])) as)
    (hcalm : ((Live.init defs paused).run defs (p ++ ⟨t₀, .begin r⟩ :: as)).cancelled = false)
    (hpol : ∀ q, ((Live.init defs paused).run defs (p ++ ⟨t₀, .begin r⟩ :: as)).runners[r]? = some q → q.state.polling = true) :
    ∃ bs : List TLvAct, (∀ b ∈ bs, b.act.OfRunner r c) ∧
      ((∃ b ∈ bs, T < b.now) ∨
        ∃ e ∈ ((Live.init defs paused).run defs (p ++ ⟨t₀, .begin r⟩ :: as)).trace defs bs, e.ev.Panics r) ∧
      (t₀ :: (as.map (·.now) ++ t₁ :: bs.map (·.now))).Pairwise (· ≤ ·) ∧
      PromptRunner ε D defs r t₀ t₀ ((Live.init defs paused).run defs (p ++ [⟨t₀, .begin r⟩])) (as ++ bs) := by
  have hε' : 0 ≤ ε := Int.le_of_lt hε
  have e1 : (Live.init defs paused).run defs (p ++ ⟨t₀, .begin r⟩ :: as) =
      ((Live.init defs paused).run defs (p ++ [⟨t₀, .begin r⟩])).run defs as := by rw [← live_run_append]; simp
  have H0 := liveInv_run (defs := defs) (liveInv_init defs paused) (p ++ [⟨t₀, .begin r⟩])
  obtain ⟨q₀, rd₀, T₀, -, hw₀⟩ := live_begun ε hd paused p t₀ hbegin
  have C₀ : liveCanMove ε D (((Live.init defs paused).run defs (p ++ [⟨t₀, .begin r⟩])).room defs r) t₀ t₀ t₀
      (((Live.init defs paused).run defs (p ++ [⟨t₀, .begin r⟩])).streams.conc.mem.hasMessage rd₀.sub) rd₀.wait := by
    rw [hw₀]
    unfold liveCanMove
    split <;> simp only [canMove, Time, Delta] at * <;> omega
  obtain ⟨q, rd, m, f, T1, C1, g⟩ := live_good_run hε' hD as H0 hd T₀ C₀ hc hp
  rw [ht, ← e1] at T1 C1
  obtain ⟨n, hn⟩ := far_enough hε
    (liveDue (((Live.init defs paused).run defs (p ++ ⟨t₀, .begin r⟩ :: as)).room defs r) m f) T
  have H := liveInv_run (defs := defs) (liveInv_init defs paused) (p ++ ⟨t₀, .begin r⟩ :: as)
  obtain ⟨bs, g1, g2, g3, g4⟩ := live_goes_on hε' hD c hd (n + 1) _ _ q rd m f t₁ (Nat.le_refl _)
    ⟨H, T1, C1, hpol q T1.hq, hcalm⟩
  rw [e1] at g4
  exact ⟨bs, g1, g2.imp (fun ⟨b, hb, g2⟩ => ⟨b, hb, Int.lt_of_lt_of_le hn g2⟩) id, sorted_both hc ht g3, g bs g4⟩

/-! ## Left alone -/

/-- The executions in flight are of other jobs, and end with nothing but a `complete`. -/
def LiveRunner.Elsewhere (id : Int) (q : LiveRunner) : Prop :=
  ∀ fl ∈ q.state.flights, fl.task.id ≠ id ∧ (fl.phase = .running ∨ fl.phase = .reporting (.complete fl.task.id))

private theorem start_id {d : Runner} {j : Job} {t : Task} (h : d.start j = .running t) : t.id = j.id := by
  unfold Runner.start at h
  split at h
  · cases h
  · cases h
  · rename_i job hj
    split at h
    · cases h
    · split at h
      · cases h
      · cases h
        unfold decodeJob at hj
        split at hj
        · cases hj
        · split at hj
          · cases hj
          · split at hj
            · cases hj; rfl
            · cases hj

private theorem elsewhere_act {defs : List Runner} {r : Nat} {c : Bool} {s : Live} {id : Int} {a : TLvAct}
    (ha : a.act.OfRunner r c) (hs : ∀ q, s.runners[r]? = some q → q.Elsewhere id) :
    (∀ j : Job, j.id = id → (s.act defs a.now a.act).1.LetsPass j a.now) ∧
    (∀ ev, (s.act defs a.now a.act).1 ≠ .client ev) ∧
    (∀ r' se st, (s.act defs a.now a.act).1 = .moved r' se st → r' = r) ∧
    ((s.act defs a.now a.act).1.handsOut id = false →
      ∀ q, (s.act defs a.now a.act).2.runners[r]? = some q → q.Elsewhere id) := by
  obtain ⟨now, a⟩ := a
  simp only at ha ⊢
  rcases ha with rfl | rfl | rfl | rfl
  · -- poll
    cases hd : defs[r]? with
    | none => simp only [Live.act, hd]; exact ⟨fun _ _ => trivial, fun _ => nofun, fun _ _ _ => nofun, fun _ => hs⟩
    | some d =>
      cases hq : s.runners[r]? with
      | none => simp only [Live.act, hd, hq]; exact ⟨fun _ _ => trivial, fun _ => nofun, fun _ _ _ => nofun, fun _ q h => by cases h⟩
      | some q =>
        have hE := hs q hq
        have hlt := (List.getElem?_eq_some_iff.mp hq).1
        obtain ⟨st, ip, state⟩ := q
        cases st with
        | none => simp only [Live.act, hd, hq]; exact ⟨fun _ _ => trivial, fun _ => nofun, fun _ _ _ => nofun, fun _ q h => hs q (hq.trans h)⟩
        | some n =>
          cases ip with
          | true => simp only [Live.act, hd, hq]; exact ⟨fun _ _ => trivial, fun _ => nofun, fun _ _ _ => nofun, fun _ q h => hs q (hq.trans h)⟩
          | false =>
            simp only [Live.act, hd, hq]
            split
            · split
              · refine ⟨fun _ _ => trivial, fun _ => nofun, fun _ _ _ => nofun, fun _ q h => ?_⟩
                simp only [List.getElem?_set_self hlt, Option.some.injEq] at h
                subst h; exact hE
              · refine ⟨fun _ _ => trivial, fun _ => nofun, fun _ _ _ => nofun, fun _ q h => ?_⟩
                simp only [List.getElem?_set_self hlt, Option.some.injEq] at h
                subst h; exact hE
            · exact ⟨fun _ _ => trivial, fun _ => nofun, fun _ _ _ => nofun, fun _ q h => hs q h⟩
  · -- a step of the stream
    cases hd : defs[r]? with
    | none => simp only [Live.act, hd]; exact ⟨fun _ _ => trivial, fun _ => nofun, fun _ _ _ => nofun, fun _ => hs⟩
    | some d =>
      cases hq : s.runners[r]? with
      | none => simp only [Live.act, hd, hq]; exact ⟨fun _ _ => trivial, fun _ => nofun, fun _ _ _ => nofun, fun _ q h => by cases h⟩
      | some q =>
        have hE := hs q hq
        have hlt := (List.getElem?_eq_some_iff.mp hq).1
        obtain ⟨st, ip, state⟩ := q
        cases st with
        | none => simp only [Live.act, hd, hq]; exact ⟨fun _ _ => trivial, fun _ => nofun, fun _ _ _ => nofun, fun _ q h => hs q (hq.trans h)⟩
        | some n =>
          cases ip with
          | false => simp only [Live.act, hd, hq]; exact ⟨fun _ _ => trivial, fun _ => nofun, fun _ _ _ => nofun, fun _ q h => hs q (hq.trans h)⟩
          | true =>
            simp only [Live.act, hd, hq]
            generalize s.streams.step now (.stream n c) = y
            obtain ⟨ev, y⟩ := y
            cases ev with
            | nothing =>
              refine ⟨fun _ _ => trivial, fun _ => nofun, fun _ _ _ => nofun, fun _ q h => ?_⟩
              simp only [List.getElem?_set_self hlt, Option.some.injEq] at h
              subst h; exact hE
            | returned k j =>
              refine ⟨fun _ _ => trivial, fun _ => nofun, fun _ _ _ h => by simp only [LvEv.moved.injEq] at h; exact h.1.symm, fun hno q h => ?_⟩
              simp only [LvEv.handsOut, beq_eq_false_iff_ne, ne_eq] at hno
              simp only [List.getElem?_set_self hlt, Option.some.injEq] at h
              subst h
              unfold LiveRunner.take
              split
              · rename_i t ht
                intro fl hfl
                rcases List.mem_append.mp hfl with hfl | hfl
                · exact hE fl hfl
                · rw [List.mem_singleton] at hfl
                  subst hfl
                  exact ⟨by rw [start_id ht]; exact hno, .inl rfl⟩
              · exact hE
              · intro fl hfl; cases hfl
            | _ =>
              refine ⟨fun _ _ => trivial, fun _ => nofun, fun _ _ _ h => by simp only [LvEv.moved.injEq] at h; exact h.1.symm, fun _ q h => hs q h⟩
  · -- an execution ends
    cases hd : defs[r]? with
    | none => simp only [Live.act, hd]; exact ⟨fun _ _ => trivial, fun _ => nofun, fun _ _ _ => nofun, fun _ => hs⟩
    | some d =>
      cases hq : s.runners[r]? with
      | none => simp only [Live.act, hd, hq]; exact ⟨fun _ _ => trivial, fun _ => nofun, fun _ _ _ => nofun, fun _ q h => by cases h⟩
      | some q =>
        have hE := hs q hq
        have hlt := (List.getElem?_eq_some_iff.mp hq).1
        obtain ⟨st, ip, pol, fls⟩ := q
        cases ip with
        | true => simp only [Live.act, hd, hq]; exact ⟨fun _ _ => trivial, fun _ => nofun, fun _ _ _ => nofun, fun _ q h => hs q (hq.trans h)⟩
        | false =>
          cases fls with
          | nil => simp only [Live.act, hd, hq, List.getElem?_nil]; exact ⟨fun _ _ => trivial, fun _ => nofun, fun _ _ _ => nofun, fun _ q h => hs q (hq.trans h)⟩
          | cons fl rest =>
            obtain ⟨t, ph⟩ := fl
            cases ph with
            | reporting o => simp only [Live.act, hd, hq, List.getElem?_cons_zero]; exact ⟨fun _ _ => trivial, fun _ => nofun, fun _ _ _ => nofun, fun _ q h => hs q (hq.trans h)⟩
            | running =>
              simp only [Live.act, hd, hq, List.getElem?_cons_zero, Task.join_done, Runner.report, List.set_cons_zero]
              refine ⟨fun _ _ => trivial, fun _ => nofun, fun _ _ _ => nofun, fun _ q h => ?_⟩
              simp only [List.getElem?_set_self hlt, Option.some.injEq] at h
              subst h
              intro fl hfl
              rcases List.mem_cons.mp hfl with e | hfl
              · subst e; exact ⟨(hE _ List.mem_cons_self).1, .inr rfl⟩
              · exact hE fl (List.mem_cons_of_mem _ hfl)
  · -- it reports
    cases hq : s.runners[r]? with
    | none => simp only [Live.act, hq]; exact ⟨fun _ _ => trivial, fun _ => nofun, fun _ _ _ => nofun, fun _ q h => by cases h⟩
    | some q =>
      have hE := hs q hq
      have hlt := (List.getElem?_eq_some_iff.mp hq).1
      obtain ⟨st, ip, pol, fls⟩ := q
      cases ip with
      | true => simp only [Live.act, hq]; exact ⟨fun _ _ => trivial, fun _ => nofun, fun _ _ _ => nofun, fun _ q h => hs q (hq.trans h)⟩
      | false =>
        cases fls with
        | nil => simp only [Live.act, hq, List.getElem?_nil]; exact ⟨fun _ _ => trivial, fun _ => nofun, fun _ _ _ => nofun, fun _ q h => hs q (hq.trans h)⟩
        | cons fl rest =>
          obtain ⟨t, ph⟩ := fl
          have h1 := hE _ List.mem_cons_self
          simp only at h1
          cases ph with
          | running => simp only [Live.act, hq, List.getElem?_cons_zero]; exact ⟨fun _ _ => trivial, fun _ => nofun, fun _ _ _ => nofun, fun _ q h => hs q (hq.trans h)⟩
          | reporting o =>
            obtain ⟨h2, h3 | h3⟩ := h1
            · cases h3
            simp only [Phase.reporting.injEq] at h3
            subst h3
            simp only [Live.act, hq, List.getElem?_cons_zero, Conc.step]
            refine ⟨fun j hj => ?_, fun _ => nofun, fun _ _ _ => nofun, fun _ q h => ?_⟩
            · subst hj
              simp only [LvEv.LetsPass, Ev.KeepsWaiting, Ev.QueuesBehind, Ev.putsBack, Ev.retries, Ev.snoozes, Ev.reruns, Ev.updates, Ev.conflicts]
              refine ⟨?_, by simp, trivial, trivial⟩
              unfold Ev.finishes
              split <;> simp_all
            · simp only [List.getElem?_set_self hlt, Option.some.injEq] at h
              subst h
              exact fun fl hfl => hE fl (List.mem_cons_of_mem _ hfl)

private theorem elsewhere_run {defs : List Runner} {r : Nat} {c : Bool} {id : Int} (bs : List TLvAct) {s : Live}
    (hb : ∀ b ∈ bs, b.act.OfRunner r c) (hs : ∀ q, s.runners[r]? = some q → q.Elsewhere id)
    {es₁ : List TLvEv} {e : TLvEv} {es₂ : List TLvEv} (h : s.trace defs bs = es₁ ++ e :: es₂)
    (hno : ∀ e' ∈ es₁, e'.ev.handsOut id = false) :
    (∀ j : Job, j.id = id → e.ev.LetsPass j e.now) ∧ (∀ ev, e.ev ≠ .client ev) ∧ ∀ r' se st, e.ev = .moved r' se st → r' = r := by
  induction bs generalizing s es₁ with
  | nil => simp [Live.trace] at h
  | cons b bs ih =>
    obtain ⟨g1, g2, g3, g4⟩ := elsewhere_act (defs := defs) (hb b List.mem_cons_self) hs
    cases es₁ with
    | nil =>
      simp only [Live.trace, List.nil_append, List.cons.injEq] at h
      rw [← h.1]
      exact ⟨g1, g2, g3⟩
    | cons e' es₁ =>
      simp only [Live.trace, List.cons_append, List.cons.injEq] at h
      have hn := hno e' List.mem_cons_self
      rw [← h.1] at hn
      exact ih (fun b h => hb b (List.mem_cons_of_mem _ h)) (g4 hn) h.2 (fun e' h => hno e' (List.mem_cons_of_mem _ h))

/-- **C139, a runner left alone, in memory.** As before; at `t₁` a job of the executor waits, with `n` jobs
ahead of it, and the runner's executions in flight are of other jobs and go well. If from then on nobody but the
runner does anything, its steps can be timed so that it has begun with the job by 15 ms + 6 `ε` + `D`, and another
3 `ε` + `D` for each of the `n`, after the job is due – or after 30 s + 2 `ε` from `t₁`, if that is later –
unless it panics over a job. -/
theorem C139_runner_alone {ε D : Delta} (hε : 0 < ε) (hD : 0 ≤ D) (paused c : Bool) (defs : List Runner) (r : Nat) (d : Runner)
    (hd : defs[r]? = some d) (p as : List TLvAct) (t₀ t₁ : Time) (k : KeyedJob)
    (hbegin : (((Live.init defs paused).run defs p).act defs t₀ (.begin r)).1 = .begun r)
    (hc : (t₀ :: as.map (·.now)).Pairwise (· ≤ ·)) (ht : (as.map (·.now)).getLastD t₀ = t₁)
    (hp : PromptRunner ε D defs r t₀ t₀ ((Live.init defs paused).run defs (p ++ [⟨t₀, .begin r⟩])) as)
    (hcalm : ((Live.init defs paused).run defs (p ++ ⟨t₀, .begin r⟩ :: as)).cancelled = false)
    (hpol : ∀ q, ((Live.init defs paused).run defs (p ++ ⟨t₀, .begin r⟩ :: as)).runners[r]? = some q →
      q.state.polling = true ∧ q.Elsewhere k.job.id)
    (hk : k ∈ ((Live.init defs paused).run defs (p ++ ⟨t₀, .begin r⟩ :: as)).streams.conc.mem.jobs)
    (hw : k.job.status = .scheduled ∨ k.job.status = .retryable) (hx : k.job.executor = d.name)
    (n : Nat) (hcount : ((Live.init defs paused).run defs (p ++ ⟨t₀, .begin r⟩ :: as)).streams.conc.mem.jobs.countP
      (fun a => decide (Ahead k.job a.job)) = n) :
    ∃ bs : List TLvAct, (∀ b ∈ bs, b.act.OfRunner r c) ∧ (t₁ :: bs.map (·.now)).Pairwise (· ≤ ·) ∧
      ((∃ e ∈ ((Live.init defs paused).run defs (p ++ ⟨t₀, .begin r⟩ :: as)).trace defs bs, e.ev.Panics r) ∨
        ∃ e ∈ ((Live.init defs paused).run defs (p ++ ⟨t₀, .begin r⟩ :: as)).trace defs bs,
          e.now ≤ max k.job.scheduledAt (t₁ + 30000000000 + 2 * ε) + 15000000 + 6 * ε + D + n * (3 * ε + D) ∧
          ∃ i j, e.ev = .moved r (.returned i j) (some (d.start j)) ∧ j.id = k.job.id) := by
  obtain ⟨bs, h1, h2, h3, h4⟩ := C139_runner_in_memory hε hD paused c defs r d hd p as t₀ t₁
    (max k.job.scheduledAt (t₁ + 30000000000 + 2 * ε) + 15000000 + 6 * ε + D + n * (3 * ε + D)) hbegin hc ht hp hcalm
    (fun q h => (hpol q h).1)
  have hsort : (t₁ :: bs.map (·.now)).Pairwise (· ≤ ·) := (List.pairwise_append.mp (List.Pairwise.of_cons h3)).2.1
  refine ⟨bs, h1, hsort, ?_⟩
  refine h2.elim (fun h2 => .inr ?_) .inl
  obtain ⟨bs₁, b, bs₂, e, g1, r', d', i, j, g2, g3, g4⟩ := C138_in_memory (Int.le_of_lt hε) hD paused defs r d hd p as bs t₀ t₁ k
    hbegin h3 h4 hk hw hx
    (fun es₁ e es₂ he hno => by
      obtain ⟨f1, f2, -⟩ := elsewhere_run bs h1 (fun q h => (hpol q h).2) he hno
      exact ⟨f1 _ rfl, fun ev hev => absurd hev (f2 ev)⟩)
    n hcount h2
  rw [show p ++ ⟨t₀, .begin r⟩ :: as ++ bs₁ = (p ++ ⟨t₀, .begin r⟩ :: as) ++ bs₁ from rfl, live_run_append] at g2
  have hr : r' = r := by
    have hb := h1 b (by rw [e]; simp)
    have hq : ∀ (s : Live), (s.act defs b.now b.act).1 = .moved r' (.returned i j) (some (d'.start j)) → r' = r := by
      intro s hs
      rcases hb with hb | hb | hb | hb <;> rw [hb] at hs <;> unfold Live.act at hs <;> simp only at hs <;>
        (repeat' split at hs) <;> simp_all
    exact hq _ g2
  subst hr
  rw [hd, Option.some.injEq] at g3
  subst g3
  refine ⟨⟨b.now, _⟩, ?_, g1, i, j, g2, g4⟩
  rw [e, live_trace_append]
  exact List.mem_append_right _ List.mem_cons_self

/-! ## Examples -/

/-- The hypotheses of `C139_runner_in_memory` are met by a runner with two jobs ahead of it. -/
example : (((Live.init [eagerRunner (some 1)]).run [eagerRunner (some 1)] []).act [eagerRunner (some 1)] 0 (.begin 0)).1 = .begun 0 ∧
    ((0 : Time) :: liveStart.map (·.now)).Pairwise (· ≤ ·) ∧ (liveStart.map (·.now)).getLastD 0 = 1 * sec ∧
    PromptRunner ms (5 * sec) [eagerRunner (some 1)] 0 0 0
      ((Live.init [eagerRunner (some 1)]).run [eagerRunner (some 1)] [⟨0, .begin 0⟩]) liveStart ∧
    ((Live.init [eagerRunner (some 1)]).run [eagerRunner (some 1)] (⟨0, .begin 0⟩ :: liveStart)).cancelled = false ∧
    ((Live.init [eagerRunner (some 1)]).run [eagerRunner (some 1)] (⟨0, .begin 0⟩ :: liveStart)).runners.map (·.state.polling) = [true] :=
  ⟨rfl, by decide +kernel, by decide +kernel, by decide +kernel, by decide +kernel, by decide +kernel⟩

/-- Those of `C139_runner_alone` by the second of the waiting jobs. -/
example : let s := (Live.init [eagerRunner (some 1)]).run [eagerRunner (some 1)] (⟨0, .begin 0⟩ :: liveStart)
    s.runners.map (·.state.flights.length) = [0] ∧
    s.streams.conc.mem.jobs.map (fun k => (k.job.id, k.job.status, k.job.executor,
      s.streams.conc.mem.jobs.countP (fun a => decide (Ahead k.job a.job)))) = [(0, .scheduled, "mail", 0), (1, .scheduled, "mail", 1)] := by
  decide +kernel

end Rexecutor
