import Verif.Props.NeverStuck
import Verif.Props.PgLiveOnTime

/-!
# C139 for runners on Postgres: a runner is never stuck

As `NeverStuckLive`: whatever has happened, a runner that polls its stream can always go on doing so
within `ε` of when the stream can move and there is room, as long as its executions end.
-/

namespace Rexecutor

/-- The next step is not overdue; while there is room, it can be made when it is awaited. -/
private def plCanMove (ε D : Delta) (room : Bool) (m f t : Time) (rd : PgReader) : Prop :=
  if room then pgCanMove ε (max m f) t rd else t ≤ f + D

/-- What is waited for. -/
private def plDue (room : Bool) (m f : Time) : Time := if room then max m f else f

/-- From when on the stream of the runner can make its next step, after one more action. -/
private def plNextM (hash : HashFn) (parses : Parses) (defs : List Runner) (r : Nat) (m : Time) (s : PgLive) (a : TPLAct) : Time :=
  if (s.act hash parses defs a.tie a.now a.act).1.isMove r then (s.act hash parses defs a.tie a.now a.act).2.movesFrom r a.now
  else min m ((s.act hash parses defs a.tie a.now a.act).2.movesFrom r a.now)

/-- Since when there is room, or none. -/
private def plNextF (hash : HashFn) (parses : Parses) (defs : List Runner) (r : Nat) (f : Time) (s : PgLive) (a : TPLAct) : Time :=
  if (s.act hash parses defs a.tie a.now a.act).2.room defs r = s.room defs r then f else a.now

/-- The stream of the runner, and that it goes on. -/
private structure PLGood (ε D : Delta) (defs : List Runner) (r i : Nat) (s : PgLive) (q : PgLiveRunner) (rd : PgReader) (m f t : Time) : Prop where
  inv : PgLiveInv defs s
  track : PLTrack defs r i s q rd m f t
  wake : ∀ c since d, rd.wait = .asleep c since d → m ≤ since + d
  can : plCanMove ε D (s.room defs r) m f t rd

private theorem PLGood.step {hash : HashFn} {parses : Parses} {ε D : Delta} (hε : 0 ≤ ε) (hD : 0 ≤ D) {defs : List Runner} {r i : Nat}
    {d : Runner} {s : PgLive} {q : PgLiveRunner} {rd : PgReader} {m f t : Time} (hd : defs[r]? = some d)
    (G : PLGood ε D defs r i s q rd m f t) (a : TPLAct) (ht : t ≤ a.now)
    (hp : if s.room defs r then a.now ≤ max m f + ε else a.now ≤ f + D) :
    ∃ q' rd', PLGood ε D defs r i (s.act hash parses defs a.tie a.now a.act).2 q' rd'
        (plNextM hash parses defs r m s a) (plNextF hash parses defs r f s a) a.now ∧
      (plDue (s.room defs r) m f ≤ a.now →
        plDue (s.room defs r) m f ≤ plDue ((s.act hash parses defs a.tie a.now a.act).2.room defs r)
          (plNextM hash parses defs r m s a) (plNextF hash parses defs r f s a)) ∧
      ((s.act hash parses defs a.tie a.now a.act).1.isMove r = true →
        a.now ≤ plDue ((s.act hash parses defs a.tie a.now a.act).2.room defs r)
          (plNextM hash parses defs r m s a) (plNextF hash parses defs r f s a)) := by
  obtain ⟨H, T, W, C⟩ := G
  obtain ⟨q', rd', T', -⟩ := T.step (hash := hash) (parses := parses) (ε := ε) hD H hd a ht hp
  obtain ⟨q'', k1, k2, k3, k4, -⟩ := plKind hash parses a.tie a.now H a.act hd T.hq T.hs
  obtain ⟨rd'', g1, g2⟩ := net_seen hash parses a.tie a.now (plView hash defs a.tie a.now s a.act) T.hr
  have hnet := (plView_step hash parses defs a.tie a.now s a.act).1
  rw [← hnet] at g1
  have e1 : q'' = q' := by
    have := T'.hq
    rw [k1, Option.some.injEq] at this
    exact this
  have e2 : rd'' = rd' := by
    have := T'.hr
    rw [g1, Option.some.injEq] at this
    exact this
  subst e1 e2
  have hmf : (s.act hash parses defs a.tie a.now a.act).2.movesFrom r a.now =
      (s.act hash parses defs a.tie a.now a.act).2.net.movesFrom i a.now := by
    simp only [PgLive.movesFrom, k1]
    obtain ⟨nd, st, tl, ip, po, fl⟩ := q''
    simp only at k2
    subst k2
    rfl
  have hmoves := pgMovesFrom_eq g1 a.now
  have hown : (s.act hash parses defs a.tie a.now a.act).1.isMove r = true → s.room defs r = true := by
    intro h
    rw [room_pg hd T.hq]
    exact (H.polls r q T.hq (k4 h)).2 d hd
  rw [← k3] at g2
  have hfa : f ≤ a.now := Int.le_trans T.hf ht
  -- with no room the stream stays where it is
  have rests : s.room defs r = false → rd''.wait = .ready := by
    intro hno
    have hw : rd.wait = .ready := Classical.byContradiction fun h => by rw [T.busy h] at hno; cases hno
    have no : ∀ {b}, (s.act hash parses defs a.tie a.now a.act).1.isMove r = b → b = true → False :=
      fun e e' => by rw [hown (e.trans e')] at hno; cases hno
    cases g2 with
    | still qu h' => subst h'; exact hw
    | failed h' => subst h'; rfl
    | returned jb h' => subst h'; rfl
    | ready hw h' ho => exact (no ho rfl).elim
    | looked fo hw h' ho => exact (no ho rfl).elim
    | opens clock dl hw hdl h' ho => exact (no ho rfl).elim
    | sleeps clock dl hw hdl h' ho => exact (no ho rfl).elim
    | goesOn clock dl k hw hk h' ho => exact (no ho rfl).elim
    | gotNone clock dl k hw hk h' ho => exact (no ho rfl).elim
    | wakes clock since dl qu hw h' ho => exact (no ho rfl).elim
  have hm' : plNextM hash parses defs r m s a ≤ (s.act hash parses defs a.tie a.now a.act).2.net.movesFrom i a.now := by
    simp only [plNextM, hmf]
    split
    · exact Int.le_refl _
    · exact Int.min_le_right _ _
  have wake' : ∀ c since dl, rd''.wait = .asleep c since dl → plNextM hash parses defs r m s a ≤ since + dl := by
    intro c since dl h
    have low : m ≤ since + dl → (s.act hash parses defs a.tie a.now a.act).1.isMove r = false →
        plNextM hash parses defs r m s a ≤ since + dl := by
      intro h1 h2
      simp only [plNextM, h2, Bool.false_eq_true, if_false]
      exact Int.le_trans (Int.min_le_left _ _) h1
    have late : a.now ≤ since + dl → plNextM hash parses defs r m s a ≤ since + dl := by
      intro h1
      refine Int.le_trans hm' ?_
      rw [hmoves, h]
      simp only
      split
      · exact Int.le_refl _
      · exact h1
    cases g2 with
    | still qu h' ho => subst h'; exact low (W c since dl h) ho
    | failed h' => subst h'; cases h
    | returned jb h' => subst h'; cases h
    | ready hw h' ho => subst h'; cases h
    | looked fo hw h' ho => subst h'; cases h
    | opens clock dl' hw hdl h' ho => subst h'; cases h
    | sleeps clock dl' hw hdl h' ho =>
      subst h'
      injection h with h1 h2 h3
      subst h2 h3
      have := T.decided clock dl' hw
      exact late (by simp only [Time, Delta] at *; omega)
    | goesOn clock dl' k hw hk h' ho => subst h'; rw [hw] at h; cases h
    | gotNone clock dl' k hw hk h' ho =>
      subst h'
      injection h with h1 h2 h3
      subst h2 h3
      have := T.loading clock dl' k hw
      exact late (by simp only [Time, Delta] at *; omega)
    | wakes clock since' dl' qu hw h' ho => subst h'; cases h
  refine ⟨q'', rd'', ⟨H.act hash parses a.tie a.now a.act, T', wake', ?_⟩, ?_⟩
  all_goals cases hr : s.room defs r with
  | false =>
    rw [hr] at hp C
    simp only [Bool.false_eq_true, if_false] at hp
    have hnm : (s.act hash parses defs a.tie a.now a.act).1.isMove r = false := by
      cases he : (s.act hash parses defs a.tie a.now a.act).1.isMove r with
      | false => rfl
      | true => rw [hown he] at hr; cases hr
    cases hr' : (s.act hash parses defs a.tie a.now a.act).2.room defs r with
    | false =>
      have hf' : plNextF hash parses defs r f s a = f := by simp [plNextF, hr, hr']
      rw [hf']
      first
        | exact hp
        | exact ⟨fun _ => Int.le_refl _, by rw [hnm]; nofun⟩
    | true =>
      have hf' : plNextF hash parses defs r f s a = a.now := by simp [plNextF, hr, hr']
      rw [hf']
      first
        | (simp only [plCanMove, if_true, pgCanMove, rests hr]
           simp only [Time, Delta] at *; omega)
        | (refine ⟨fun h => Int.le_trans h ?_, by rw [hnm]; nofun⟩
           simp only [plDue, if_true]
           exact Int.le_max_right _ _)
  | true =>
    rw [hr] at hp C
    simp only [if_true, plCanMove] at hp C
    have sl : (match rd.wait with
      | .asleep _ since d => max m f ≤ since + d
      | .decided _ d => 0 ≤ d
      | .loading _ d _ => 0 ≤ d
      | _ => True) := by
      split
      · rename_i h; exact Int.max_le.mpr ⟨W _ _ _ h, T.sleep _ _ _ h⟩
      · rename_i h; exact T.decided _ _ h
      · rename_i h; exact T.loading _ _ _ h
      · trivial
    obtain ⟨o1, o2⟩ := pgCanMove_step hε g2 g1 sl C hp
    cases hr' : (s.act hash parses defs a.tie a.now a.act).2.room defs r with
    | false =>
      have hf' : plNextF hash parses defs r f s a = a.now := by simp [plNextF, hr, hr']
      rw [hf']
      first
        | (simp only [plCanMove, Bool.false_eq_true, if_false, Time, Delta] at *; omega)
        | (simp only [plDue, Bool.false_eq_true, if_false]
           exact ⟨id, fun _ => Int.le_refl _⟩)
    | true =>
      have hf' : plNextF hash parses defs r f s a = f := by simp [plNextF, hr, hr']
      have hfm : f ≤ (s.act hash parses defs a.tie a.now a.act).2.net.movesFrom i a.now := by
        have hsl := T'.sleep
        simp only [hr, hr', if_true] at hsl
        rw [hmoves]
        split
        · rename_i h
          split
          · exact hsl _ _ _ h
          · exact hfa
        · exact hfa
      have hmax : max (plNextM hash parses defs r m s a) f =
          if (s.act hash parses defs a.tie a.now a.act).1.isMove r then (s.act hash parses defs a.tie a.now a.act).2.net.movesFrom i a.now
          else min (max m f) ((s.act hash parses defs a.tie a.now a.act).2.net.movesFrom i a.now) := by
        simp only [plNextM, hmf]
        split
        · simp only [Time] at *; omega
        · simp only [Time] at *; omega
      rw [hf']
      first
        | (simp only [plCanMove, if_true, hmax]
           exact o1)
        | (simp only [plDue, if_true, hmax]
           refine ⟨fun h => ?_, fun h => by rw [if_pos h]; exact o2 h⟩
           split
           · rename_i hm; exact Int.le_trans h (o2 hm)
           · refine Int.le_min.mpr ⟨Int.le_refl _, ?_⟩
             rw [hmoves]
             split
             · rename_i hw
               split
               · have h1 := T'.sleep _ _ _ hw
                 have h2 := wake' _ _ _ hw
                 cases g2 with
                 | still qu h' ho => subst h'; exact Int.max_le.mpr ⟨W _ _ _ hw, T.sleep _ _ _ hw⟩
                 | failed h' => subst h'; cases hw
                 | returned jb h' => subst h'; cases hw
                 | _ => simp_all
               · exact h
             · exact h)

/-- Runner `r` polls its stream, the stream makes a step, an execution ends, or it reports; if the row
is locked by another session its report fails. -/
def PLAct.OfRunner (hash : HashFn) (parses : Parses) (defs : List Runner) (tie : Int → Nat) (now : Time) (s : PgLive) (r : Nat) (timer : Bool)
    (a : PLAct) : Prop :=
  a = .poll r ∨ a = .step r timer ∨ (∃ k, a = .finish r k { ending := .returns .done }) ∨ (∃ k, a = .report r k) ∨
    ∃ k, a = .lose r k ∧ (s.act hash parses defs tie now (.report r k)).1 = .quiet

/-- All of a schedule is like that. -/
def OnlyRunner (hash : HashFn) (parses : Parses) (defs : List Runner) (tie : Int → Nat) (r : Nat) (timer : Bool) : PgLive → List TPLAct → Prop
  | _, [] => True
  | s, a :: as => a.tie = tie ∧ a.act.OfRunner hash parses defs tie a.now s r timer ∧
    OnlyRunner hash parses defs tie r timer (s.act hash parses defs a.tie a.now a.act).2 as

/-- Over a job that its stream returns the runner itself panics (C86). -/
def PLEv.Panics (r : Nat) (ev : PLEv) : Prop := ∃ w ans i j, ev = .moved r w ans (.returned i j) (some .runnerPanics)

private theorem plJoin_done (t : Task) : t.join { ending := .returns .done } = some (.result .done) := by
  unfold Task.join
  cases t.timeout <;> simp

/-- What an execution has before it. -/
private def plWeight : Option Flight → Nat
  | none => 0
  | some { phase := .running, .. } => 2
  | some { phase := .reporting _, .. } => 1

private theorem plWeight_set (l : List (Option Flight)) {k : Nat} {x : Option Flight} (y : Option Flight) (h : l[k]? = some x)
    (hw : plWeight y < plWeight x) : ((l.set k y).map plWeight).sum < (l.map plWeight).sum := by
  induction l generalizing k with
  | nil => simp at h
  | cons a l ih =>
    cases k with
    | zero =>
      simp only [List.getElem?_cons_zero, Option.some.injEq] at h
      subst h
      simp only [List.set_cons_zero, List.map_cons, List.sum_cons]
      omega
    | succ k =>
      have := ih (k := k) (by simpa using h)
      simp only [List.set_cons_succ, List.map_cons, List.sum_cons]
      omega

/-- How far it is to the next step of the stream. -/
private def plToStep (room : Bool) (q : PgLiveRunner) : Nat :=
  if room then (if q.inPoll then 0 else 1) else 2 + (q.flights.map plWeight).sum

private theorem plToStep_less (room : Bool) {q q' : PgLiveRunner} (hi : q'.inPoll = q.inPoll)
    (h : (q'.flights.map plWeight).sum < (q.flights.map plWeight).sum) : plToStep room q' < plToStep false q := by
  unfold plToStep
  cases room <;> simp <;> (try split) <;> omega

private theorem some_flight {l : List (Option Flight)} (h : (l.filterMap id).length ≠ 0) : ∃ (k : Nat) (fl : Flight), l[k]? = some (some fl) := by
  induction l with
  | nil => simp at h
  | cons a l ih =>
    cases a with
    | some fl => exact ⟨0, fl, rfl⟩
    | none =>
      obtain ⟨k, fl, e⟩ := ih (by simpa using h)
      exact ⟨k + 1, fl, by simpa using e⟩

private theorem PLGood.next {hash : HashFn} {parses : Parses} {ε D : Delta} (hε : 0 ≤ ε) (hD : 0 ≤ D) {defs : List Runner} {r i : Nat}
    {d : Runner} (c : Bool) (tie : Int → Nat) {s : PgLive} {q : PgLiveRunner} {rd : PgReader} {m f t : Time} (hd : defs[r]? = some d)
    (G : PLGood ε D defs r i s q rd m f t) (hpol : q.polling = true) (hcalm : q.told = false) :
    ∃ a : TPLAct, a.tie = tie ∧ a.act.OfRunner hash parses defs tie a.now s r c ∧ t ≤ a.now ∧
      (if s.room defs r then a.now ≤ max m f + ε else a.now ≤ f + D) ∧
      plDue (s.room defs r) m f ≤ a.now ∧
      ((s.act hash parses defs a.tie a.now a.act).1.Panics r ∨ ∃ (q' : PgLiveRunner) (rd' : PgReader),
      PLGood ε D defs r i (s.act hash parses defs a.tie a.now a.act).2 q' rd' (plNextM hash parses defs r m s a)
        (plNextF hash parses defs r f s a) a.now ∧ q'.polling = true ∧ q'.told = false ∧
      plDue (s.room defs r) m f ≤ plDue ((s.act hash parses defs a.tie a.now a.act).2.room defs r)
        (plNextM hash parses defs r m s a) (plNextF hash parses defs r f s a) ∧
      (plToStep ((s.act hash parses defs a.tie a.now a.act).2.room defs r) q' < plToStep (s.room defs r) q ∨
        (plDue (s.room defs r) m f + ε ≤ a.now ∧
          a.now ≤ plDue ((s.act hash parses defs a.tie a.now a.act).2.room defs r)
            (plNextM hash parses defs r m s a) (plNextF hash parses defs r f s a)))) := by
  have hq := G.track.hq
  have hlt := (List.getElem?_eq_some_iff.mp hq).1
  have hs := G.track.hs
  have hroom := room_pg hd hq
  have C := G.can
  cases hr : s.room defs r with
  | false =>
    rw [hr] at C hroom
    have C' : t ≤ f + D := C
    have hff : plDue false m f ≤ f + D := by
      simp only [plDue, Bool.false_eq_true, if_false, Time, Delta] at *; omega
    have hne : (q.flights.filterMap id).length ≠ 0 := by
      intro e
      simp only [PgLiveRunner.inFlight, e] at hroom
      unfold belowLimit at hroom
      split at hroom <;> simp at hroom
    obtain ⟨k, ⟨tk, ph⟩, hk⟩ := some_flight hne
    have hp : if s.room defs r then f + D ≤ max m f + ε else f + D ≤ f + D := by rw [hr]; exact Int.le_refl _
    -- an action that brings this execution further
    have further : ∀ (a : PLAct) (y : Option Flight), a.OfRunner hash parses defs tie (f + D) s r c →
        plWeight y < plWeight (some { task := tk, phase := ph }) →
        (s.act hash parses defs tie (f + D) a).2.runners = s.runners.set r { q with flights := q.flights.set k y } →
        ∃ a : TPLAct, a.tie = tie ∧ a.act.OfRunner hash parses defs tie a.now s r c ∧ t ≤ a.now ∧
          (if false = true then a.now ≤ max m f + ε else a.now ≤ f + D) ∧
          plDue false m f ≤ a.now ∧
          ((s.act hash parses defs a.tie a.now a.act).1.Panics r ∨ ∃ (q' : PgLiveRunner) (rd' : PgReader),
          PLGood ε D defs r i (s.act hash parses defs a.tie a.now a.act).2 q' rd' (plNextM hash parses defs r m s a)
            (plNextF hash parses defs r f s a) a.now ∧ q'.polling = true ∧ q'.told = false ∧
          plDue false m f ≤ plDue ((s.act hash parses defs a.tie a.now a.act).2.room defs r)
            (plNextM hash parses defs r m s a) (plNextF hash parses defs r f s a) ∧
          (plToStep ((s.act hash parses defs a.tie a.now a.act).2.room defs r) q' < plToStep false q ∨
            (plDue false m f + ε ≤ a.now ∧
              a.now ≤ plDue ((s.act hash parses defs a.tie a.now a.act).2.room defs r)
                (plNextM hash parses defs r m s a) (plNextF hash parses defs r f s a)))) := by
      intro a y h1 h2 h3
      obtain ⟨q', rd', G', hdue, -⟩ := G.step (hash := hash) (parses := parses) hε hD hd ⟨f + D, tie, a⟩ C' hp
      rw [hr] at hdue
      have hq' : q' = { q with flights := q.flights.set k y } := by
        have := G'.track.hq
        simp only [h3, List.getElem?_set_self hlt, Option.some.injEq] at this
        exact this.symm
      refine ⟨⟨f + D, tie, a⟩, rfl, h1, C', by simp, hff, .inr ⟨q', rd', G', by rw [hq']; exact hpol, by rw [hq']; exact hcalm, hdue hff, .inl ?_⟩⟩
      refine plToStep_less _ (by rw [hq']) ?_
      rw [hq']
      exact plWeight_set _ _ hk h2
    cases ph with
    | running =>
      refine further (.finish r k { ending := .returns .done }) (some { task := tk, phase := .reporting (.complete tk.id) })
        (.inr (.inr (.inl ⟨k, rfl⟩))) (by simp [plWeight]) ?_
      simp [PgLive.act, hd, hq, hk, plJoin_done, Runner.report]
    | reporting o =>
      by_cases hb : (s.net.conc.step hash tie (f + D) (.stmt o)).1 = .blocked
      · refine further (.lose r k) none (.inr (.inr (.inr (.inr ⟨k, rfl, ?_⟩)))) (by simp [plWeight]) ?_
        · simp [PgLive.act, hq, hk, hb]
        · simp [PgLive.act, hq, hk]
      · refine further (.report r k) none (.inr (.inr (.inr (.inl ⟨k, rfl⟩)))) (by simp [plWeight]) ?_
        simp only [PgLive.act, hq, hk]
  | true =>
    rw [hr] at C hroom
    simp only [plCanMove, if_true] at C
    have C' : t ≤ max m f + ε := pgCanMove_soon C
    have hp : if s.room defs r then max m f + ε ≤ max m f + ε else max m f + ε ≤ f + D := by rw [hr]; exact Int.le_refl _
    have hff : plDue true m f ≤ max m f + ε := by
      simp only [plDue, if_true, Time, Delta] at *; omega
    cases hip : q.inPoll with
    | false =>
      obtain ⟨q', rd', G', hdue, -⟩ := G.step (hash := hash) (parses := parses) hε hD hd ⟨max m f + ε, tie, .poll r⟩ C' hp
      rw [hr] at hdue
      have h3 : s.act hash parses defs tie (max m f + ε) (.poll r) = (.quiet, { s with runners := s.runners.set r { q with inPoll := true } }) := by
        simp [PgLive.act, hd, hq, hs, hip, hpol, ← hroom, hcalm]
      have hq' : q' = { q with inPoll := true } := by
        have := G'.track.hq
        simp only [h3, List.getElem?_set_self hlt, Option.some.injEq] at this
        exact this.symm
      have hroom' : (s.act hash parses defs tie (max m f + ε) (.poll r)).2.room defs r = true := by
        rw [room_pg hd G'.track.hq, hq']; exact hroom.symm
      refine ⟨⟨max m f + ε, tie, .poll r⟩, rfl, .inl rfl, C', by simp, hff,
        .inr ⟨q', rd', G', by rw [hq']; exact hpol, by rw [hq']; exact hcalm, hdue hff, .inl ?_⟩⟩
      simp only [hroom', hq', plToStep, hip]
      simp
    | true =>
      obtain ⟨q', rd', G', hdue, hmv⟩ := G.step (hash := hash) (parses := parses) hε hD hd ⟨max m f + ε, tie, .step r c⟩ C' hp
      rw [hr] at hdue
      have hsome := pgCanMove_moves (hash := hash) (parses := parses) (tie := tie) hε c G.track.hr C
      have hkeys : (s.act hash parses defs tie (max m f + ε) (.step r c)).1.Panics r ∨
          (s.act hash parses defs tie (max m f + ε) (.step r c)).1.isMove r = true ∧
          ∀ q', (s.act hash parses defs tie (max m f + ε) (.step r c)).2.runners[r]? = some q' → q'.polling = true ∧ q'.told = false := by
        simp only [PgLive.act, hd, hq, hs, G.track.hr, hip, if_true]
        split
        · rename_i k j he
          by_cases hpan : d.start j = .runnerPanics
          · exact .inl ⟨rd.wait, _, k, j, by rw [he, hpan]⟩
          · refine .inr ⟨by simp [PLEv.isMove, he, NetEv.isSomething], fun q' h => ?_⟩
            simp only [List.getElem?_set_self hlt, Option.some.injEq] at h
            rw [← h]
            unfold PgLiveRunner.take
            split
            · exact ⟨hpol, hcalm⟩
            · exact ⟨hpol, hcalm⟩
            · rename_i e; exact absurd e hpan
        · rename_i he
          refine .inr ⟨by simp [PLEv.isMove, he, NetEv.isSomething], fun q' h => ?_⟩
          simp only [List.getElem?_set_self hlt, Option.some.injEq] at h
          rw [← h]
          exact ⟨hpol, hcalm⟩
        · refine .inr ⟨by simp [PLEv.isMove, hsome], fun q' h => ?_⟩
          simp only [hq, Option.some.injEq] at h
          rw [← h]
          exact ⟨hpol, hcalm⟩
      refine ⟨⟨max m f + ε, tie, .step r c⟩, rfl, .inr (.inl rfl), C', by simp, hff, ?_⟩
      rcases hkeys with hkeys | hkeys
      · exact .inl hkeys
      · obtain ⟨g1, g2⟩ := hkeys.2 _ G'.track.hq
        refine .inr ⟨q', rd', G', g1, g2, hdue hff, .inr ⟨?_, hmv hkeys.1⟩⟩
        simp only [plDue, if_true]
        exact Int.le_refl _

/-- A continuation that the runner alone makes, until `X` or a panic. -/
private def PLOn (hash : HashFn) (parses : Parses) (ε D : Delta) (defs : List Runner) (r : Nat) (c : Bool) (tie : Int → Nat) (s : PgLive)
    (m f t X : Time) : Prop :=
  ∃ bs : List TPLAct, OnlyRunner hash parses defs tie r c s bs ∧
    ((∃ b ∈ bs, X ≤ b.now) ∨ ∃ e ∈ s.trace hash parses defs bs, e.ev.Panics r) ∧
    (t :: bs.map (·.now)).Pairwise (· ≤ ·) ∧ PollingPgRunner hash parses ε D defs r m f s bs

private theorem PLOn.last {hash : HashFn} {parses : Parses} {ε D : Delta} {defs : List Runner} {r : Nat} {c : Bool} {tie : Int → Nat} {s : PgLive}
    {m f t X : Time} {a : TPLAct} (h0 : a.tie = tie) (h1 : a.act.OfRunner hash parses defs tie a.now s r c) (h2 : t ≤ a.now)
    (h3 : if s.room defs r then a.now ≤ max m f + ε else a.now ≤ f + D)
    (h : X ≤ a.now ∨ (s.act hash parses defs a.tie a.now a.act).1.Panics r) : PLOn hash parses ε D defs r c tie s m f t X :=
  ⟨[a], ⟨h0, h1, trivial⟩, h.imp (fun h => ⟨a, by simp, h⟩) (fun h => ⟨_, by simp only [PgLive.trace]; exact List.mem_cons_self, h⟩),
    by simpa using h2, h3, trivial⟩

private theorem PLOn.cons {hash : HashFn} {parses : Parses} {ε D : Delta} {defs : List Runner} {r : Nat} {c : Bool} {tie : Int → Nat} {s : PgLive}
    {m f t X Y : Time} {a : TPLAct} (h0 : a.tie = tie) (h1 : a.act.OfRunner hash parses defs tie a.now s r c) (h2 : t ≤ a.now)
    (h3 : if s.room defs r then a.now ≤ max m f + ε else a.now ≤ f + D) (hX : X ≤ Y)
    (h : PLOn hash parses ε D defs r c tie (s.act hash parses defs a.tie a.now a.act).2 (plNextM hash parses defs r m s a)
      (plNextF hash parses defs r f s a) a.now Y) : PLOn hash parses ε D defs r c tie s m f t X := by
  obtain ⟨bs, g1, g2, g3, g4⟩ := h
  refine ⟨a :: bs, ⟨h0, h1, g1⟩, ?_, ?_, h3, g4⟩
  · rcases g2 with ⟨b, hb, g2⟩ | ⟨e, he, g2⟩
    · exact .inl ⟨b, List.mem_cons_of_mem _ hb, Int.le_trans hX g2⟩
    · exact .inr ⟨e, List.mem_cons_of_mem _ he, g2⟩
  · rw [List.map_cons, List.pairwise_cons]
    refine ⟨fun u hu => ?_, g3⟩
    rcases List.mem_cons.mp hu with e | hu
    · rw [e]; exact h2
    · exact Int.le_trans h2 (List.rel_of_pairwise_cons g3 hu)

private theorem pl_goes_on {hash : HashFn} {parses : Parses} {ε D : Delta} (hε : 0 ≤ ε) (hD : 0 ≤ D) {defs : List Runner} {r i : Nat} {d : Runner}
    (c : Bool) (tie : Int → Nat) (hd : defs[r]? = some d) (n : Nat) :
    ∀ (k : Nat) (s : PgLive) (q : PgLiveRunner) (rd : PgReader) (m f t : Time), plToStep (s.room defs r) q ≤ k →
    PLGood ε D defs r i s q rd m f t → q.polling = true → q.told = false →
    PLOn hash parses ε D defs r c tie s m f t (plDue (s.room defs r) m f + n * ε) := by
  induction n with
  | zero =>
    intro k s q rd m f t _ G g1 g2
    obtain ⟨a, h0, h1, h2, h3, h4, -⟩ := G.next (hash := hash) (parses := parses) hε hD c tie hd g1 g2
    exact .last h0 h1 h2 h3 (.inl (by simp only [Time, Delta] at *; omega))
  | succ n ihn =>
    intro k
    have sum : ((n + 1 : Nat) : Int) * ε = (n : Int) * ε + ε := by
      rw [Int.natCast_add, Int.add_mul]; simp
    induction k with
    | zero =>
      intro s q rd m f t hk G g1 g2
      obtain ⟨a, h0, h1, h2, h3, -, h4 | ⟨q', rd', h4, g1', g2', h5, h6⟩⟩ := G.next (hash := hash) (parses := parses) hε hD c tie hd g1 g2
      · exact .last h0 h1 h2 h3 (.inr h4)
      rcases h6 with h6 | ⟨h6, h7⟩
      · omega
      · refine .cons h0 h1 h2 h3 ?_ (ihn _ _ q' rd' _ _ _ (Nat.le_refl _) h4 g1' g2')
        rw [sum]
        simp only [Time, Delta] at *; omega
    | succ k ih =>
      intro s q rd m f t hk G g1 g2
      obtain ⟨a, h0, h1, h2, h3, -, h4 | ⟨q', rd', h4, g1', g2', h5, h6⟩⟩ := G.next (hash := hash) (parses := parses) hε hD c tie hd g1 g2
      · exact .last h0 h1 h2 h3 (.inr h4)
      rcases h6 with h6 | ⟨h6, h7⟩
      · exact .cons h0 h1 h2 h3 (Int.add_le_add_right h5 _) (ih _ q' rd' _ _ _ (by omega) h4 g1' g2')
      · refine .cons h0 h1 h2 h3 ?_ (ihn _ _ q' rd' _ _ _ (Nat.le_refl _) h4 g1' g2')
        rw [sum]
        simp only [Time, Delta] at *; omega

/-- The part before. -/
private theorem pl_good_run {hash : HashFn} {parses : Parses} {ε D : Delta} (hε : 0 ≤ ε) (hD : 0 ≤ D) {defs : List Runner} {r i : Nat} {d : Runner}
    {s : PgLive} {q : PgLiveRunner} {rd : PgReader} {m f t : Time} (as : List TPLAct) (hd : defs[r]? = some d)
    (G : PLGood ε D defs r i s q rd m f t) (hc : (t :: as.map (·.now)).Pairwise (· ≤ ·)) (hp : PollingPgRunner hash parses ε D defs r m f s as) :
    ∃ q' rd' m' f', PLGood ε D defs r i (s.run hash parses defs as) q' rd' m' f' ((as.map (·.now)).getLastD t) ∧
      ∀ bs, PollingPgRunner hash parses ε D defs r m' f' (s.run hash parses defs as) bs →
        PollingPgRunner hash parses ε D defs r m f s (as ++ bs) := by
  induction as generalizing s q rd m f t with
  | nil => exact ⟨q, rd, m, f, G, fun _ h => h⟩
  | cons a as ih =>
    rw [List.map_cons] at hc
    obtain ⟨q₁, rd₁, G₁, -⟩ := G.step (hash := hash) (parses := parses) hε hD hd a (List.rel_of_pairwise_cons hc (by simp)) hp.1
    obtain ⟨q', rd', m', f', g1, g2⟩ := ih G₁ (List.Pairwise.of_cons hc) hp.2
    refine ⟨q', rd', m', f', ?_, fun bs h => ⟨hp.1, g2 bs h⟩⟩
    rw [List.map_cons, List.getLastD_cons]; exact g1

/-- **C139, runners on Postgres.** Runner `r` subscribes at `t₀` on any node; its listener may not run,
and may fail. Whatever then happens up to `t₁`, its stream makes each of its steps within `ε` of when
it first can and there is room, and the runner is never without room for longer than `D`. At `t₁` the
runner still takes jobs and has not been told to stop. Then it can go on so until after any time `T`,
with nobody doing anything but this runner: polling, making steps of its stream, and, when it has no
room, an execution ending and reporting – or failing to, if another session has locked the row –
unless it panics over a job its stream returns. -/
theorem C139_runner_on_postgres (hash : HashFn) (parses : Parses) {ε D : Delta} (hε : 0 < ε) (hD : 0 ≤ D) (c : Bool) (tie tie' : Int → Nat)
    (defs : List Runner) (on : List Nat) (r : Nat) (d : Runner) (hd : defs[r]? = some d) (p as : List TPLAct) (t₀ t₁ T : Time)
    (hbegin : (((PgLive.init defs on).run hash parses defs p).act hash parses defs tie t₀ (.begin r)).1 = .begun r)
    (hc : (t₀ :: as.map (·.now)).Pairwise (· ≤ ·)) (ht : (as.map (·.now)).getLastD t₀ = t₁)
    (hp : PollingPgRunner hash parses ε D defs r t₀ t₀ ((PgLive.init defs on).run hash parses defs (p ++ [⟨t₀, tie, .begin r⟩])) as)
    (hgoes : ∀ q, ((PgLive.init defs on).run hash parses defs (p ++ ⟨t₀, tie, .begin r⟩ :: as)).runners[r]? = some q →
      q.polling = true ∧ q.told = false) :
    ∃ bs : List TPLAct,
      OnlyRunner hash parses defs tie' r c ((PgLive.init defs on).run hash parses defs (p ++ ⟨t₀, tie, .begin r⟩ :: as)) bs ∧
      ((∃ b ∈ bs, T < b.now) ∨
        ∃ e ∈ ((PgLive.init defs on).run hash parses defs (p ++ ⟨t₀, tie, .begin r⟩ :: as)).trace hash parses defs bs, e.ev.Panics r) ∧
      (t₀ :: (as.map (·.now) ++ t₁ :: bs.map (·.now))).Pairwise (· ≤ ·) ∧
      PollingPgRunner hash parses ε D defs r t₀ t₀ ((PgLive.init defs on).run hash parses defs (p ++ [⟨t₀, tie, .begin r⟩])) (as ++ bs) := by
  have hε' : 0 ≤ ε := Int.le_of_lt hε
  have e1 : (PgLive.init defs on).run hash parses defs (p ++ ⟨t₀, tie, .begin r⟩ :: as) =
      ((PgLive.init defs on).run hash parses defs (p ++ [⟨t₀, tie, .begin r⟩])).run hash parses defs as := by
    rw [← pgLive_run_append]; simp
  obtain ⟨q, hq⟩ : ∃ q, ((PgLive.init defs on).run hash parses defs p).runners[r]? = some q := by
    cases hq : ((PgLive.init defs on).run hash parses defs p).runners[r]? with
    | none => simp [PgLive.act, hd, hq] at hbegin
    | some q => exact ⟨q, rfl⟩
  obtain ⟨q₀, -, T₀⟩ := pl_begun hash parses defs on r q.node _ d hd p t₀ tie hbegin (by rw [hq]; rfl) rfl
  have G₀ : PLGood ε D defs r ((PgLive.init defs on).run hash parses defs p).net.readers.length
      ((PgLive.init defs on).run hash parses defs (p ++ [⟨t₀, tie, .begin r⟩])) q₀ { node := q.node, executor := d.name } t₀ t₀ t₀ := by
    refine ⟨pgLive_inv_run (pgLiveInv_init defs on) _, T₀, nofun, ?_⟩
    unfold plCanMove
    split <;> simp only [pgCanMove, Time, Delta] at * <;> omega
  obtain ⟨q, rd, m, f, G, g⟩ := pl_good_run hε' hD as hd G₀ hc hp
  rw [ht, ← e1] at G
  obtain ⟨n, hn⟩ := far_enough hε
    (plDue (((PgLive.init defs on).run hash parses defs (p ++ ⟨t₀, tie, .begin r⟩ :: as)).room defs r) m f) T
  obtain ⟨g0, g0'⟩ := hgoes q G.track.hq
  obtain ⟨bs, g1, g2, g3, g4⟩ := pl_goes_on (hash := hash) (parses := parses) hε' hD c tie' hd (n + 1) _ _ q rd m f t₁ (Nat.le_refl _) G g0 g0'
  rw [e1] at g4
  exact ⟨bs, g1, g2.imp (fun ⟨b, hb, g2⟩ => ⟨b, hb, Int.lt_of_lt_of_le hn g2⟩) id, sorted_both hc ht g3, g bs g4⟩

/-! ## Examples -/

/-- The hypotheses of `C139_runner_on_postgres` are met by a runner whose node's listener has ended and
that has a job ahead of it. -/
example : (((PgLive.init [eagerRunner (some 1)] [0]).run sampleHash sampleParses [eagerRunner (some 1)] [plAct 0 .connect]).act
      sampleHash sampleParses [eagerRunner (some 1)] (plAct 0 (.begin 0)).tie 0 (.begin 0)).1 = .begun 0 ∧
    ((0 : Time) :: unheardStart.map (·.now)).Pairwise (· ≤ ·) ∧ (unheardStart.map (·.now)).getLastD 0 = 1 * sec ∧
    PollingPgRunner sampleHash sampleParses ms (2 * sec) [eagerRunner (some 1)] 0 0 0
      ((PgLive.init [eagerRunner (some 1)] [0]).run sampleHash sampleParses [eagerRunner (some 1)] [plAct 0 .connect, plAct 0 (.begin 0)])
      unheardStart ∧
    ((PgLive.init [eagerRunner (some 1)] [0]).run sampleHash sampleParses [eagerRunner (some 1)]
      (plAct 0 .connect :: plAct 0 (.begin 0) :: unheardStart)).runners.map (fun q => (q.polling, q.told)) = [(true, false)] :=
  ⟨rfl, by decide +kernel, by decide +kernel, by decide +kernel, by decide +kernel⟩

end Rexecutor
