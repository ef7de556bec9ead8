import Verif.Props.NeverStuckPgLive

/-!
# C139: a runner left alone on Postgres begins with a waiting job

As `C139_runner_alone`, on Postgres. Left to itself, the only sessions that move are the hand-outs of the
runner's own stream, and the only calls are its reports; so nothing but the runner can take the row.
-/

namespace Rexecutor

/-- The executions in flight are of other jobs, and end with nothing but a `complete`. -/
def PgLiveRunner.Elsewhere (id : Int) (q : PgLiveRunner) : Prop :=
  ∀ fl, some fl ∈ q.flights → fl.task.id ≠ id ∧ (fl.phase = .running ∨ fl.phase = .reporting (.complete fl.task.id))

/-- The runner has begun with job `id`, which its stream returned. -/
def PLEv.Begins (r : Nat) (d : Runner) (id : Int) (ev : PLEv) : Prop :=
  ∃ w ans i j, ev = .moved r w ans (.returned i j) (some (d.start j)) ∧ j.id = id

/-! ## What the stream waits for is a hand-out -/

private def Loads (c : PgConc) (rd : PgReader) : Prop :=
  ∀ t d k, rd.wait = .loading t d k → ∃ ss, c.sessions[k]? = some ss ∧ ss.handsOutTo rd.executor

private theorem loads_moved {hash : HashFn} {tie : Int → Nat} {now : Time} {c c' : PgConc} {rd : PgReader}
    (h : DbMoved hash tie now c c') (hl : Loads c rd) : Loads c' rd := by
  rcases h with rfl | ⟨b, rfl⟩
  · exact hl
  · intro t d k hw
    obtain ⟨ss, h1, h2⟩ := hl t d k hw
    exact handsOutTo_step b h1 h2

private theorem loads_seen {hash : HashFn} {tie : Int → Nat} {now : Time} {i : Nat} {own : Bool} {c c' : PgConc} {ev : NetEv}
    {rd rd' : PgReader} (h : NetSeen hash tie now i own c c' ev rd rd') (hl : Loads c rd) : Loads c' rd' := by
  cases h with
  | still q h ho hc => subst h; exact loads_moved hc hl
  | goesOn t d k hw hk h ho hc => subst h; exact loads_moved (.inr ⟨_, hc⟩) hl
  | opens t d hw hd h ho hc =>
    subst h hc
    intro t' d' k' h
    cases h
    exact ⟨.handout rd.executor, by simp [PgConc.step], rfl⟩
  | failed h => subst h; intro _ _ _ h; cases h
  | returned j h => subst h; intro _ _ _ h; cases h
  | ready hw h => subst h; intro _ _ _ h; cases h
  | looked f hw h => subst h; intro _ _ _ h; cases h
  | sleeps t d hw hd h => subst h; intro _ _ _ h; cases h
  | gotNone t d k hw hk h => subst h; intro _ _ _ h; cases h
  | wakes t si d q hw h => subst h; intro _ _ _ h; cases h

/-- Runner `r` has stream `i`, which waits for nothing but a hand-out. -/
private structure Mine (defs : List Runner) (r i : Nat) (s : PgLive) (q : PgLiveRunner) (rd : PgReader) : Prop where
  inv : PgLiveInv defs s
  hq : s.runners[r]? = some q
  hs : q.stream = some i
  hr : s.net.readers[i]? = some rd
  loads : Loads s.net.conc rd

private theorem Mine.act {hash : HashFn} {parses : Parses} {defs : List Runner} {r i : Nat} {d : Runner} {s : PgLive} {q : PgLiveRunner}
    {rd : PgReader} (hd : defs[r]? = some d) (M : Mine defs r i s q rd) (tie : Int → Nat) (now : Time) (a : PLAct) :
    ∃ q' rd', Mine defs r i (s.act hash parses defs tie now a).2 q' rd' := by
  obtain ⟨q', k1, k2, -⟩ := plKind hash parses tie now M.inv a hd M.hq M.hs
  obtain ⟨rd', n1, n2⟩ := net_seen hash parses tie now (plView hash defs tie now s a) M.hr
  have e := (plView_step hash parses defs tie now s a).1
  rw [← e] at n1 n2
  exact ⟨q', rd', M.inv.act hash parses tie now a, k1, k2, n1, loads_seen n2 M.loads⟩

private theorem Mine.run {hash : HashFn} {parses : Parses} {defs : List Runner} {r i : Nat} {d : Runner} {s : PgLive} {q : PgLiveRunner}
    {rd : PgReader} (hd : defs[r]? = some d) (M : Mine defs r i s q rd) (as : List TPLAct) :
    ∃ q' rd', Mine defs r i (s.run hash parses defs as) q' rd' := by
  induction as generalizing s q rd with
  | nil => exact ⟨q, rd, M⟩
  | cons a as ih =>
    obtain ⟨q', rd', M'⟩ := M.act (hash := hash) (parses := parses) hd a.tie a.now a.act
    exact ih M'

/-! ## Nobody else has the row locked -/

/-- Only the hand-out of the stream may have the row locked. -/
private def Free (id : Int) (c : PgConc) (rd : PgReader) : Prop :=
  ∀ n ss, c.sessions[n]? = some ss → ss.rowLock = some id → ∃ t d, rd.wait = .loading t d n

private theorem free_iff {s : PgNet} {i : Nat} {id : Int} {rd : PgReader} (hr : s.readers[i]? = some rd) :
    ¬ s.otherHolds i id ↔ Free id s.conc rd := by
  constructor
  · intro h n ss h1 h2
    refine Classical.byContradiction fun h3 => h ⟨n, ss, h1, h2, fun r h4 t d h5 => h3 ⟨t, d, ?_⟩⟩
    rw [hr, Option.some.injEq] at h4
    subst h4; exact h5
  · rintro h ⟨n, ss, h1, h2, h3⟩
    obtain ⟨t, d, h4⟩ := h n ss h1 h2
    exact h3 rd hr t d h4

/-- A step of the stream takes no lock but its own, and does nothing to the row but hand it out. -/
private theorem own_step {hash : HashFn} {parses : Parses} {tie : Int → Nat} {now : Time} {timer : Bool} {s : PgNet} {i : Nat} {id : Int} {rd : PgReader}
    (hr : s.readers[i]? = some rd) (hl : Loads s.conc rd) (hf : Free id s.conc rd) :
    (∃ rd', (s.step hash parses tie now (.stream i timer)).2.readers[i]? = some rd' ∧
      Free id (s.step hash parses tie now (.stream i timer)).2.conc rd') ∧
    ∀ ev rows, (s.step hash parses tie now (.stream i timer)).1 = .db ev rows →
      (ev.touches id = true → ev.handsOut id = true) ∧ ∀ j rows', ev.QueuesBehind j now rows' := by
  have put : ∀ (s' : PgNet) (w : PgWait), s'.readers = s.readers → (s'.setWait i w).readers[i]? = some { rd with wait := w } := by
    intro s' w e
    rw [pgnet_setWait_wait (r := rd) (by rw [e, hr]), if_pos rfl]
  -- no session has the row locked
  have none' : (∀ t d k, rd.wait = .loading t d k → ∃ res, s.conc.sessions[k]? = some (.done res)) →
      ∀ (n : Nat) (ss : Session), s.conc.sessions[n]? = some ss → ss.rowLock ≠ some id := by
    intro h n ss h1 h2
    obtain ⟨t, d, h3⟩ := hf n ss h1 h2
    obtain ⟨res, h4⟩ := h t d n h3
    rw [h1, Option.some.injEq] at h4
    subst h4; cases h2
  have rests : (∀ t d k, rd.wait = .loading t d k → ∃ res, s.conc.sessions[k]? = some (.done res)) → ∀ w : PgWait,
      (∃ rd', (s.setWait i w).readers[i]? = some rd' ∧ Free id (s.setWait i w).conc rd') := by
    intro h w
    exact ⟨_, put s w rfl, fun n ss h1 h2 => absurd h2 (none' h n ss h1)⟩
  simp only [PgNet.step, hr, PgNet.streamStep]
  cases hw : rd.wait with
  | ready =>
    have idle : ∀ t d k, rd.wait = .loading t d k → ∃ res, s.conc.sessions[k]? = some (.done res) := fun _ _ _ h => by rw [hw] at h; cases h
    simp only
    exact ⟨rests idle _, fun _ _ h => by cases h⟩
  | looked f =>
    have idle : ∀ t d k, rd.wait = .loading t d k → ∃ res, s.conc.sessions[k]? = some (.done res) := fun _ _ _ h => by rw [hw] at h; cases h
    simp only
    exact ⟨rests idle _, fun _ _ h => by cases h⟩
  | decided t d =>
    have idle : ∀ t d k, rd.wait = .loading t d k → ∃ res, s.conc.sessions[k]? = some (.done res) := fun _ _ _ h => by rw [hw] at h; cases h
    simp only
    split
    · refine ⟨⟨_, put _ _ rfl, ?_⟩, ?_⟩
      · intro n ss h1 h2
        simp only [PgNet.setWait, PgNet.dbStep, PgConc.step] at h1
        by_cases hn : n < s.conc.sessions.length
        · rw [List.getElem?_append_left hn] at h1
          exact absurd h2 (none' idle n ss h1)
        · rw [List.getElem?_append_right (by omega)] at h1
          cases hm : n - s.conc.sessions.length with
          | zero => rw [hm] at h1; cases h1; cases h2
          | succ m => rw [hm] at h1; simp at h1
      · intro ev rows h
        simp only [PgNet.dbStep, PgConc.step, NetEv.db.injEq] at h
        obtain ⟨rfl, -⟩ := h
        exact ⟨fun h => (by cases h), fun _ _ => trivial⟩
    · exact ⟨rests idle _, fun _ _ h => by cases h⟩
  | asleep t si d =>
    have idle : ∀ t d k, rd.wait = .loading t d k → ∃ res, s.conc.sessions[k]? = some (.done res) := fun _ _ _ h => by rw [hw] at h; cases h
    simp only
    split
    · split
      · exact ⟨rests idle _, fun _ _ h => by cases h⟩
      · refine ⟨⟨{ rd with queue := _, wait := .ready }, by simp [hr]; rfl, ?_⟩, fun _ _ h => by cases h⟩
        exact fun n ss h1 h2 => absurd h2 (none' idle n ss h1)
    · split
      · exact ⟨rests idle _, fun _ _ h => by cases h⟩
      · exact ⟨⟨rd, hr, hf⟩, fun _ _ h => by cases h⟩
  | loading t d k =>
    obtain ⟨ss, h1, h2⟩ := hl t d k hw
    have fin : ∀ res, s.conc.sessions[k]? = some (.done res) →
        ∀ t' d' k', rd.wait = .loading t' d' k' → ∃ res, s.conc.sessions[k']? = some (.done res) := by
      intro res h t' d' k' h'
      rw [hw] at h'; cases h'
      exact ⟨res, h⟩
    have goes : (∃ rd', (s.dbStep hash tie now (.advance k)).2.readers[i]? = some rd' ∧
          Free id (s.dbStep hash tie now (.advance k)).2.conc rd') ∧
        ∀ ev rows, (s.dbStep hash tie now (.advance k)).1 = .db ev rows →
          (ev.touches id = true → ev.handsOut id = true) ∧ ∀ j rows', ev.QueuesBehind j now rows' := by
      refine ⟨⟨rd, hr, ?_⟩, ?_⟩
      · intro n ss' g1 g2
        simp only [PgNet.dbStep, PgConc.step, h1] at g1
        by_cases hn : k = n
        · subst hn; exact ⟨t, d, hw⟩
        · rw [List.getElem?_set_ne hn] at g1
          exact hf n ss' g1 g2
      · intro ev rows h
        simp only [PgNet.dbStep, PgConc.step, h1, NetEv.db.injEq] at h
        obtain ⟨rfl, -⟩ := h
        cases ss with
        | handout y => exact ⟨fun h => (by cases h), fun _ _ => trivial⟩
        | looking y t snap =>
          simp only [PgConc.advance]
          split <;> exact ⟨fun h => (by cases h), fun _ _ => trivial⟩
        | locked y t id' =>
          simp only [PgConc.advance]
          split
          · exact ⟨fun h => (by cases h), fun _ _ => trivial⟩
          · refine ⟨fun h => ?_, fun _ _ => trivial⟩
            simpa [PgEv.touches, PgEv.retries, PgEv.snoozes, PgEv.reruns, PgEv.edits, PgEv.finishes] using h
        | done res => exact ⟨fun h => (by cases h), fun _ _ => trivial⟩
        | _ => exact h2.elim
    simp only
    split
    · rename_i h; exact ⟨rests (fin _ h) _, fun _ _ h => by cases h⟩
    · rename_i h; exact ⟨rests (fin _ h) _, fun _ _ h => by cases h⟩
    · rename_i h; exact ⟨rests (fin _ h) _, fun _ _ h => by cases h⟩
    · exact goes

/-! ## An action of the runner -/

private theorem plStart_id {d : Runner} {j : Job} {t : Task} (h : d.start j = .running t) : t.id = j.id := by
  unfold Runner.start at h
  split at h
  · cases h
  · cases h
  · rename_i job hj
    split at h
    · cases h
    · split at h
      · cases h
      · cases h
        unfold decodeJob at hj
        split at hj
        · cases hj
        · split at hj
          · cases hj
          · split at hj
            · cases hj; rfl
            · cases hj

private theorem plDone_join (t : Task) : t.join { ending := .returns .done } = some (.result .done) := by
  unfold Task.join
  cases t.timeout <;> simp

private theorem stmt_complete (c : PgConc) (hash : HashFn) (tie : Int → Nat) (now : Time) (i : Int) :
    (c.step hash tie now (.stmt (.complete i))).2.sessions = c.sessions ∧
    ((c.step hash tie now (.stmt (.complete i))).1 = .blocked ∨ ∃ res, (c.step hash tie now (.stmt (.complete i))).1 = .stmt (.complete i) res) := by
  simp only [PgConc.step]
  split
  · exact ⟨rfl, .inl rfl⟩
  · exact ⟨rfl, .inr ⟨_, rfl⟩⟩

private theorem elsewhere_gone {id : Int} {q : PgLiveRunner} (h : q.Elsewhere id) (k : Nat) :
    PgLiveRunner.Elsewhere id { q with flights := q.flights.set k none } := by
  intro fl hfl
  rcases List.mem_or_eq_of_mem_set hfl with h' | h'
  · exact h fl h'
  · cases h'

private theorem alone_act {hash : HashFn} {parses : Parses} {defs : List Runner} {r i : Nat} {d : Runner} {c : Bool} {s : PgLive}
    {q : PgLiveRunner} {rd : PgReader} {id : Int} {tie : Int → Nat} {now : Time} {a : PLAct} (hd : defs[r]? = some d)
    (M : Mine defs r i s q rd) (hf : Free id s.net.conc rd) (he : q.Elsewhere id) (ha : a.OfRunner hash parses defs tie now s r c) :
    (∀ ev, (s.act hash parses defs tie now a).1.back = some ev →
      (ev.touches id = true → ev.handsOut id = true) ∧ ∀ j rows, ev.QueuesBehind j now rows) ∧
    (¬ (s.act hash parses defs tie now a).1.Begins r d id →
      ∀ q', (s.act hash parses defs tie now a).2.runners[r]? = some q' → q'.Elsewhere id) ∧
    (∀ rd', (s.act hash parses defs tie now a).2.net.readers[i]? = some rd' → Free id (s.act hash parses defs tie now a).2.net.conc rd') := by
  have hlt := (List.getElem?_eq_some_iff.mp M.hq).1
  have hfree : ∀ rd', s.net.readers[i]? = some rd' → Free id s.net.conc rd' := by
    intro rd' h
    rw [M.hr, Option.some.injEq] at h
    subst h; exact hf
  have hsame : ∀ q', s.runners[r]? = some q' → q'.Elsewhere id := by
    intro q' h
    rw [M.hq, Option.some.injEq] at h
    subst h; exact he
  have hput : ∀ q₁ : PgLiveRunner, q₁.Elsewhere id → ∀ q', (s.runners.set r q₁)[r]? = some q' → q'.Elsewhere id := by
    intro q₁ h q' h'
    rw [List.getElem?_set_self hlt, Option.some.injEq] at h'
    subst h'; exact h
  rcases ha with rfl | rfl | ⟨k, rfl⟩ | ⟨k, rfl⟩ | ⟨k, rfl, -⟩
  · -- poll
    simp only [PgLive.act, hd, M.hq, M.hs]
    split
    · split
      · exact ⟨fun _ h => (by cases h), fun _ => hput _ he, hfree⟩
      · exact ⟨fun _ h => (by cases h), fun _ => hput _ he, hfree⟩
    · exact ⟨fun _ h => (by cases h), fun _ => hsame, hfree⟩
  · -- a step of the stream
    simp only [PgLive.act, hd, M.hq, M.hs, M.hr]
    split
    · obtain ⟨⟨rd₁, o1, o2⟩, o3⟩ := own_step (hash := hash) (parses := parses) (tie := tie) (now := now) (timer := c) M.hr M.loads hf
      have hfree' : ∀ rd', (s.net.step hash parses tie now (.stream i c)).2.readers[i]? = some rd' →
          Free id (s.net.step hash parses tie now (.stream i c)).2.conc rd' := by
        intro rd' h
        rw [o1, Option.some.injEq] at h
        subst h; exact o2
      revert o3 hfree'
      generalize s.net.step hash parses tie now (.stream i c) = y
      obtain ⟨ev, y⟩ := y
      intro o3 hfree'
      cases ev with
      | returned n j =>
        refine ⟨fun _ h => (by cases h), fun hno => hput _ ?_, hfree'⟩
        have hj : j.id ≠ id := fun h => hno ⟨_, _, n, j, rfl, h⟩
        unfold PgLiveRunner.take
        split
        · rename_i t ht
          intro fl hfl
          rcases List.mem_append.mp hfl with hfl | hfl
          · exact he fl hfl
          · rw [List.mem_singleton, Option.some.injEq] at hfl
            subst hfl
            exact ⟨by rw [plStart_id ht]; exact hj, .inl rfl⟩
        · exact he
        · intro fl hfl; cases hfl
      | failed n => exact ⟨fun _ h => (by cases h), fun _ => hput _ he, hfree'⟩
      | db ev rows =>
        refine ⟨fun ev' h => ?_, fun _ => hsame, hfree'⟩
        simp only [PLEv.back, Option.some.injEq] at h
        subst h; exact o3 ev rows rfl
      | _ => exact ⟨fun _ h => (by cases h), fun _ => hsame, hfree'⟩
    · exact ⟨fun _ h => (by cases h), fun _ => hsame, hfree⟩
  · -- an execution ends
    simp only [PgLive.act, hd, M.hq]
    split
    · rename_i t hfl
      simp only [plDone_join, Runner.report]
      refine ⟨fun _ h => (by cases h), fun _ => hput _ ?_, hfree⟩
      intro fl h
      rcases List.mem_or_eq_of_mem_set h with h' | h'
      · exact he fl h'
      · cases h'
        exact ⟨(he _ (List.mem_of_getElem? hfl)).1, .inr rfl⟩
    · exact ⟨fun _ h => (by cases h), fun _ => hsame, hfree⟩
  · -- it reports
    simp only [PgLive.act, M.hq]
    split
    · rename_i t o hfl
      obtain ⟨h2, h3 | h3⟩ := he _ (List.mem_of_getElem? hfl)
      · cases h3
      simp only [Phase.reporting.injEq] at h3
      subst h3
      obtain ⟨g1, g2 | ⟨res, g2⟩⟩ := stmt_complete s.net.conc hash tie now t.id
      · simp only [g2]
        exact ⟨fun _ h => (by cases h), fun _ => hsame, hfree⟩
      · simp only [g2]
        refine ⟨fun ev h => ?_, fun _ => hput _ (elsewhere_gone he k), ?_⟩
        · simp only [PLEv.back, Option.some.injEq] at h
          subst h
          refine ⟨fun h => ?_, fun _ _ => trivial⟩
          cases res <;> simp_all [PgEv.touches, PgEv.handsOut, PgEv.retries, PgEv.snoozes, PgEv.reruns, PgEv.edits, PgEv.finishes]
        · intro rd' h n ss h1
          simp only [PgNet.step, PgNet.dbStep] at h h1
          rw [g1] at h1
          exact hfree rd' h n ss h1
    · exact ⟨fun _ h => (by cases h), fun _ => hsame, hfree⟩
  · -- its report fails
    simp only [PgLive.act, M.hq]
    split
    · exact ⟨fun _ h => (by cases h), fun _ => hput _ (elsewhere_gone he k), hfree⟩
    · exact ⟨fun _ h => (by cases h), fun _ => hsame, hfree⟩

/-! ## A schedule -/

private theorem alone_run {hash : HashFn} {parses : Parses} {defs : List Runner} {r i : Nat} {d : Runner} {c : Bool} {s : PgLive}
    {q : PgLiveRunner} {rd : PgReader} {id : Int} {tie : Int → Nat} (hd : defs[r]? = some d) (l : List TPLAct) {b : TPLAct} {l' : List TPLAct}
    (M : Mine defs r i s q rd) (hf : Free id s.net.conc rd) (he : q.Elsewhere id) (ho : OnlyRunner hash parses defs tie r c s (l ++ b :: l'))
    (hno : ∀ e ∈ s.trace hash parses defs l, ¬ e.ev.Begins r d id) :
    ∃ q' rd', Mine defs r i (s.run hash parses defs l) q' rd' ∧ Free id (s.run hash parses defs l).net.conc rd' ∧ q'.Elsewhere id ∧
      b.act.OfRunner hash parses defs b.tie b.now (s.run hash parses defs l) r c := by
  induction l generalizing s q rd with
  | nil =>
    obtain ⟨h1, h2, -⟩ := ho
    rw [← h1] at h2
    exact ⟨q, rd, M, hf, he, h2⟩
  | cons a l ih =>
    obtain ⟨h1, h2, h3⟩ := ho
    rw [← h1] at h2
    obtain ⟨-, g2, g3⟩ := alone_act hd M hf he h2
    obtain ⟨q', rd', M'⟩ := M.act (hash := hash) (parses := parses) hd a.tie a.now a.act
    exact ih M' (g3 rd' M'.hr) (g2 (hno _ List.mem_cons_self) q' M'.hq) h3 fun e h => hno e (List.mem_cons_of_mem _ h)

private theorem plTrace_append (hash : HashFn) (parses : Parses) (defs : List Runner) (s : PgLive) (as bs : List TPLAct) :
    s.trace hash parses defs (as ++ bs) = s.trace hash parses defs as ++ (s.run hash parses defs as).trace hash parses defs bs := by
  induction as generalizing s with
  | nil => rfl
  | cons a as ih => simp only [List.cons_append, PgLive.trace, PgLive.run, ih]

private theorem polling_prefix {hash : HashFn} {parses : Parses} {ε D : Delta} {defs : List Runner} {r : Nat} (as bs : List TPLAct) {m f : Time}
    {s : PgLive} (h : PollingPgRunner hash parses ε D defs r m f s (as ++ bs)) : PollingPgRunner hash parses ε D defs r m f s as := by
  induction as generalizing m f s with
  | nil => trivial
  | cons a as ih => exact ⟨h.1, ih h.2⟩

/-- The first time that something happens. -/
private theorem first_time (hash : HashFn) (parses : Parses) (defs : List Runner) (P : PLEv → Prop) (s : PgLive) (bs : List TPLAct) :
    (∀ e ∈ s.trace hash parses defs bs, ¬ P e.ev) ∨
    ∃ l b l', bs = l ++ b :: l' ∧ P ((s.run hash parses defs l).act hash parses defs b.tie b.now b.act).1 ∧
      ∀ e ∈ s.trace hash parses defs l, ¬ P e.ev := by
  induction bs generalizing s with
  | nil => exact .inl fun _ h => by cases h
  | cons b bs ih =>
    by_cases h : P (s.act hash parses defs b.tie b.now b.act).1
    · exact .inr ⟨[], b, bs, rfl, h, fun _ h => by cases h⟩
    · rcases ih (s.act hash parses defs b.tie b.now b.act).2 with g | ⟨l, b', l', rfl, g1, g2⟩
      · refine .inl fun e he => ?_
        rcases List.mem_cons.mp he with rfl | he
        · exact h
        · exact g e he
      · refine .inr ⟨b :: l, b', l', rfl, g1, fun e he => ?_⟩
        rcases List.mem_cons.mp he with rfl | he
        · exact h
        · exact g2 e he

/-- **C139, a runner left alone, on Postgres.** As before; at `t₁` a row of the executor waits, is due, and no
other session has it locked; the runner's executions in flight are of other jobs and go well. Let `N` be the
number of rows ahead of it and of hand-outs for the executor under way, by whomever. If from then on nobody but
the runner does anything, its steps can be timed so that it has begun with the job by 30.015 s + 12 `ε` + `D`, and
another 7 `ε` + `D` for each of the `N` and one more, after `t₁` – unless its stream returns an error, or it panics
over a job. -/
theorem C139_runner_alone_on_postgres (hash : HashFn) (parses : Parses) {ε D : Delta} (hε : 0 < ε) (hD : 0 ≤ D) (c : Bool) (tie tie' : Int → Nat)
    (defs : List Runner) (on : List Nat) (r i : Nat) (d : Runner) (hd : defs[r]? = some d) (p as : List TPLAct) (t₀ t₁ : Time) (j : Row)
    (hbegin : (((PgLive.init defs on).run hash parses defs p).act hash parses defs tie t₀ (.begin r)).1 = .begun r)
    (hi : i = ((PgLive.init defs on).run hash parses defs p).net.readers.length)
    (hc : (t₀ :: as.map (·.now)).Pairwise (· ≤ ·)) (ht : (as.map (·.now)).getLastD t₀ = t₁)
    (hp : PollingPgRunner hash parses ε D defs r t₀ t₀ ((PgLive.init defs on).run hash parses defs (p ++ [⟨t₀, tie, .begin r⟩])) as)
    (hgoes : ∀ q, ((PgLive.init defs on).run hash parses defs (p ++ ⟨t₀, tie, .begin r⟩ :: as)).runners[r]? = some q →
      q.polling = true ∧ q.told = false ∧ q.Elsewhere j.id)
    (hj : j ∈ ((PgLive.init defs on).run hash parses defs (p ++ ⟨t₀, tie, .begin r⟩ :: as)).net.conc.pg.rows)
    (hw : j.status = .scheduled ∨ j.status = .retryable) (hx : j.executor = d.name) (hdue : j.scheduledAt ≤ t₁)
    (hfree : ¬ ((PgLive.init defs on).run hash parses defs (p ++ ⟨t₀, tie, .begin r⟩ :: as)).net.otherHolds i j.id)
    (N : Nat) (hN : ((PgLive.init defs on).run hash parses defs (p ++ ⟨t₀, tie, .begin r⟩ :: as)).net.conc.pg.rows.countP
        (fun a => decide (RowAhead j a)) +
      ((PgLive.init defs on).run hash parses defs (p ++ ⟨t₀, tie, .begin r⟩ :: as)).net.conc.sessions.countP (fun s => s.takesFor d.name) = N) :
    ∃ bs : List TPLAct,
      OnlyRunner hash parses defs tie' r c ((PgLive.init defs on).run hash parses defs (p ++ ⟨t₀, tie, .begin r⟩ :: as)) bs ∧
      (t₁ :: bs.map (·.now)).Pairwise (· ≤ ·) ∧
      ((∃ e ∈ ((PgLive.init defs on).run hash parses defs (p ++ ⟨t₀, tie, .begin r⟩ :: as)).trace hash parses defs bs, e.ev.Panics r) ∨
        (∃ e ∈ ((PgLive.init defs on).run hash parses defs (p ++ ⟨t₀, tie, .begin r⟩ :: as)).trace hash parses defs bs, e.ev.errs r = true) ∨
        ∃ e ∈ ((PgLive.init defs on).run hash parses defs (p ++ ⟨t₀, tie, .begin r⟩ :: as)).trace hash parses defs bs,
          e.now ≤ t₁ + 30000000000 + 2 * ε + 15000000 + 10 * ε + D + (N + 1) * (7 * ε + D) ∧ e.ev.Begins r d j.id) := by
  have hε' : 0 ≤ ε := Int.le_of_lt hε
  obtain ⟨bs, h1, h2, h3, h4⟩ := C139_runner_on_postgres hash parses hε hD c tie tie' defs on r d hd p as t₀ t₁
    (t₁ + 30000000000 + 2 * ε + 15000000 + 10 * ε + D + (N + 1) * (7 * ε + D)) hbegin hc ht hp (fun q h => ⟨(hgoes q h).1, (hgoes q h).2.1⟩)
  have hsort : (t₁ :: bs.map (·.now)).Pairwise (· ≤ ·) := (List.pairwise_append.mp (List.Pairwise.of_cons h3)).2.1
  refine ⟨bs, h1, hsort, ?_⟩
  refine h2.elim (fun h2 => .inr ?_) .inl
  refine Classical.or_iff_not_imp_left.mpr fun herr => ?_
  -- where the runner is at `t₁`
  obtain ⟨q, hq⟩ : ∃ q, ((PgLive.init defs on).run hash parses defs p).runners[r]? = some q := by
    cases hq : ((PgLive.init defs on).run hash parses defs p).runners[r]? with
    | none => simp [PgLive.act, hd, hq] at hbegin
    | some q => exact ⟨q, rfl⟩
  obtain ⟨q₀, -, T₀⟩ := pl_begun hash parses defs on r q.node i d hd p t₀ tie hbegin (by rw [hq]; rfl) hi
  have M₀ : Mine defs r i ((PgLive.init defs on).run hash parses defs (p ++ [⟨t₀, tie, .begin r⟩])) q₀ { node := q.node, executor := d.name } :=
    ⟨pgLive_inv_run (pgLiveInv_init defs on) _, T₀.hq, T₀.hs, T₀.hr, nofun⟩
  obtain ⟨q₁, rd₁, M₁⟩ := M₀.run (hash := hash) (parses := parses) hd as
  rw [← pgLive_run_append, show p ++ [⟨t₀, tie, .begin r⟩] ++ as = p ++ ⟨t₀, tie, .begin r⟩ :: as by simp] at M₁
  have F₁ := (free_iff M₁.hr).mp hfree
  have E₁ := (hgoes q₁ M₁.hq).2.2
  have key : ∀ bs' tl, bs = bs' ++ tl →
      (∀ l b l', bs' = l ++ b :: l' →
        ∀ e ∈ ((PgLive.init defs on).run hash parses defs (p ++ ⟨t₀, tie, .begin r⟩ :: as)).trace hash parses defs l, ¬ e.ev.Begins r d j.id) →
      (∃ b ∈ bs', t₁ + 30000000000 + 2 * ε + 15000000 + 10 * ε + D + (N + 1) * (7 * ε + D) < b.now) →
      ∃ e ∈ ((PgLive.init defs on).run hash parses defs (p ++ ⟨t₀, tie, .begin r⟩ :: as)).trace hash parses defs bs,
        e.now ≤ t₁ + 30000000000 + 2 * ε + 15000000 + 10 * ε + D + (N + 1) * (7 * ε + D) ∧ e.ev.Begins r d j.id := by
    intro bs' tl e hno hlate
    obtain ⟨bs₁, b, bs₂, e', g1, g2⟩ := C138_on_postgres hash parses hε' hD defs on r i d hd p as bs' t₀ t₁ tie j hbegin hi
      (by
        rw [e, List.map_append] at h3
        exact h3.sublist (((List.Sublist.refl _).append ((List.sublist_append_left _ _).cons_cons _)).cons_cons _))
      (by
        rw [e, ← List.append_assoc] at h4
        exact polling_prefix _ _ h4)
      hj hw hx hdue hfree
      (fun l b l' hl _ ev hev => by
        have ho := h1
        rw [e, hl, List.append_assoc, List.cons_append] at ho
        obtain ⟨q', rd', M', F', E', O'⟩ := alone_run hd l M₁ F₁ E₁ ho (hno l b l' hl)
        rw [pgLive_run_append] at hev ⊢
        obtain ⟨k1, -, -⟩ := alone_act hd M' F' E' O'
        exact ⟨(k1 ev hev).1, (k1 ev hev).2 _ _⟩)
      (fun ev hev => by
        cases hv : ev.ev.errs r with
        | false => rfl
        | true =>
          refine absurd ⟨ev, ?_, hv⟩ herr
          rw [e, plTrace_append]
          exact List.mem_append_left _ hev)
      N hN _ rfl hlate
    have ho := h1
    rw [e, e', List.append_assoc, List.cons_append] at ho
    obtain ⟨q', rd', M', F', E', O'⟩ := alone_run hd bs₁ M₁ F₁ E₁ ho (hno bs₁ b bs₂ e')
    rw [pgLive_run_append] at g2
    refine ⟨⟨b.now, (((PgLive.init defs on).run hash parses defs (p ++ ⟨t₀, tie, .begin r⟩ :: as)).run hash parses defs bs₁ |>.act hash parses defs b.tie b.now b.act).1⟩, ?_, g1, ?_⟩
    rotate_left
    · rcases g2 with ⟨w, ans, jb, g2, g3⟩ | g2
      · exact ⟨w, ans, i, jb, g2, g3⟩
      · refine Classical.byContradiction fun hn => ?_
        obtain ⟨-, -, k3⟩ := alone_act hd M' F' E' O'
        obtain ⟨q₂, rd₂, M₂⟩ := M'.act (hash := hash) (parses := parses) hd b.tie b.now b.act
        exact (free_iff M₂.hr).mpr (k3 rd₂ M₂.hr) g2
    · rw [e, e', plTrace_append, plTrace_append]
      exact List.mem_append_left _ (List.mem_append_right _ List.mem_cons_self)
  rcases first_time hash parses defs (PLEv.Begins r d j.id)
      ((PgLive.init defs on).run hash parses defs (p ++ ⟨t₀, tie, .begin r⟩ :: as)) bs with hno | ⟨l, b, l', e, g1, g2⟩
  · refine key bs [] (by simp) (fun l b l' hl ev hev => hno ev ?_) h2
    rw [hl, plTrace_append]
    exact List.mem_append_left _ hev
  · by_cases hb : b.now ≤ t₁ + 30000000000 + 2 * ε + 15000000 + 10 * ε + D + (N + 1) * (7 * ε + D)
    · refine ⟨⟨b.now, _⟩, ?_, hb, g1⟩
      rw [e, plTrace_append]
      exact List.mem_append_right _ List.mem_cons_self
    · refine key (l ++ [b]) l' (by rw [e]; simp) (fun l₁ b₁ l₂ hl ev hev => g2 ev ?_) ⟨b, by simp, Int.not_le.mp hb⟩
      have : ∃ l₃, l = l₁ ++ l₃ := by
        rcases List.eq_nil_or_concat l₂ with rfl | ⟨l₃, b₃, rfl⟩
        · exact ⟨[], by simpa using (List.append_inj' hl rfl).1⟩
        · refine ⟨b₁ :: l₃, ?_⟩
          have hl' : l ++ [b] = (l₁ ++ b₁ :: l₃) ++ [b₃] := by rw [hl]; simp
          exact (List.append_inj' hl' rfl).1
      obtain ⟨l₃, rfl⟩ := this
      rw [plTrace_append]
      exact List.mem_append_left _ hev

/-- The hypotheses are met, besides those of `C139_runner_on_postgres`, by the job enqueued at 1 s, with no row
ahead of it and nothing locked. -/
example :
    let s := (PgLive.init [eagerRunner (some 1)] [0]).run sampleHash sampleParses [eagerRunner (some 1)]
        (plAct 0 .connect :: plAct 0 (.begin 0) :: unheardStart)
    s.runners.map (·.flights.length) = [0] ∧ s.net.conc.sessions.length = 0 ∧
    s.net.conc.pg.rows.map (fun j => (j.id, j.status, j.executor, j.scheduledAt, s.net.conc.pg.rows.countP (fun a => decide (RowAhead j a)))) =
      [(1, .scheduled, "mail", 1 * sec, 0)] := by
  decide +kernel

end Rexecutor
