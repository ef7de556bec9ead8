import Verif.Lemmas.PgNetOnTime
import Verif.Props.PgLiveRuns

/-!
# C124 on Postgres: a runner begins a due job on time

Real time, for runners with their streams: every step of the runner's stream is made within `ε` of
the moment it can be made, the runner is never without a free place for longer than `D`, and the
listener of its node handles each notification within `δ`.
-/

namespace Rexecutor

/-- Runner `r` has room for another execution: its limit is not reached (0 means no limit). -/
def PgLive.room (defs : List Runner) (s : PgLive) (r : Nat) : Bool :=
  match defs[r]?, s.runners[r]? with
  | some d, some q =>
    match d.maxConcurrency with
    | some (l + 1) => decide (q.flights.countP (·.isSome) < l + 1)
    | _ => true
  | _, _ => false

/-- From when on the stream of runner `r` can make its next step, as of an action at `now`. -/
def PgLive.movesFrom (s : PgLive) (r : Nat) (now : Time) : Time :=
  match s.runners[r]? with
  | some { stream := some n, .. } => s.net.movesFrom n now
  | _ => now

/-- The stream of runner `r` has made a step. -/
def PLEv.isMove (r : Nat) : PLEv → Bool
  | .moved n _ _ ev _ => n == r && ev.isSomething
  | _ => false

/-- The stream of runner `r` has returned an error. -/
def PLEv.errs (r : Nat) : PLEv → Bool
  | .moved n _ _ (.failed _) _ => n == r
  | .failed n _ => n == r
  | _ => false

/-- What happened in the database. -/
def PLEv.back : PLEv → Option PgEv
  | .db ev => some ev
  | .moved _ _ _ (.db ev _) _ => some ev
  | .reported _ _ ev => some ev
  | _ => none

/-- The listener of node `n` handles its next notification. -/
def PLAct.delivers (n : Nat) : PLAct → Bool
  | .deliver k => k == n
  | _ => false

/-- The stream of runner `r` can make its next step from `m` on, and whether there is room has not
changed since `f`. As long as there is room, the stream makes that step, and every later one, within
`ε` of when it first can and there is room: nothing at all happens later than that without it. There
is never no room for longer than `D`. The listener of node `n`, which has been idle or at its next
notification since `u`, is done with it and with every later one within `δ`. -/
def PromptPgRunner (hash : HashFn) (parses : Parses) (ε δ D : Delta) (defs : List Runner) (r n : Nat) :
    Time → Time → Time → PgLive → List TPLAct → Prop
  | _, _, _, _, [] => True
  | m, f, u, s, a :: as =>
    (if s.room defs r then a.now ≤ max m f + ε else a.now ≤ f + D) ∧
    (s.net.busyListener n = true → a.now ≤ u + δ) ∧
    PromptPgRunner hash parses ε δ D defs r n
      (if (s.act hash parses defs a.tie a.now a.act).1.isMove r then (s.act hash parses defs a.tie a.now a.act).2.movesFrom r a.now
       else min m ((s.act hash parses defs a.tie a.now a.act).2.movesFrom r a.now))
      (if (s.act hash parses defs a.tie a.now a.act).2.room defs r = s.room defs r then f else a.now)
      (if s.net.busyListener n && !a.act.delivers n then u else a.now)
      (s.act hash parses defs a.tie a.now a.act).2 as

instance PromptPgRunner.dec (hash : HashFn) (parses : Parses) (ε δ D : Delta) (defs : List Runner) (r n : Nat) :
    ∀ (m f u : Time) (s : PgLive) (as : List TPLAct), Decidable (PromptPgRunner hash parses ε δ D defs r n m f u s as)
  | _, _, _, _, [] => .isTrue trivial
  | _, _, _, s, a :: as =>
    @instDecidableAnd _ _ inferInstance (@instDecidableAnd _ _ _
      (PromptPgRunner.dec hash parses ε δ D defs r n _ _ _ (s.act hash parses defs a.tie a.now a.act).2 as))

/-- As `PromptPgRunner`, with nothing asked of any listener. -/
def PollingPgRunner (hash : HashFn) (parses : Parses) (ε D : Delta) (defs : List Runner) (r : Nat) :
    Time → Time → PgLive → List TPLAct → Prop
  | _, _, _, [] => True
  | m, f, s, a :: as =>
    (if s.room defs r then a.now ≤ max m f + ε else a.now ≤ f + D) ∧
    PollingPgRunner hash parses ε D defs r
      (if (s.act hash parses defs a.tie a.now a.act).1.isMove r then (s.act hash parses defs a.tie a.now a.act).2.movesFrom r a.now
       else min m ((s.act hash parses defs a.tie a.now a.act).2.movesFrom r a.now))
      (if (s.act hash parses defs a.tie a.now a.act).2.room defs r = s.room defs r then f else a.now)
      (s.act hash parses defs a.tie a.now a.act).2 as

instance PollingPgRunner.dec (hash : HashFn) (parses : Parses) (ε D : Delta) (defs : List Runner) (r : Nat) :
    ∀ (m f : Time) (s : PgLive) (as : List TPLAct), Decidable (PollingPgRunner hash parses ε D defs r m f s as)
  | _, _, _, [] => .isTrue trivial
  | _, _, s, a :: as =>
    @instDecidableAnd _ _ inferInstance (PollingPgRunner.dec hash parses ε D defs r _ _ (s.act hash parses defs a.tie a.now a.act).2 as)

/-- Both: the listener is prompt if `L`. -/
private def PLPrompt (L : Prop) (hash : HashFn) (parses : Parses) (ε δ D : Delta) (defs : List Runner) (r n : Nat) :
    Time → Time → Time → PgLive → List TPLAct → Prop
  | _, _, _, _, [] => True
  | m, f, u, s, a :: as =>
    (if s.room defs r then a.now ≤ max m f + ε else a.now ≤ f + D) ∧
    (L → s.net.busyListener n = true → a.now ≤ u + δ) ∧
    PLPrompt L hash parses ε δ D defs r n
      (if (s.act hash parses defs a.tie a.now a.act).1.isMove r then (s.act hash parses defs a.tie a.now a.act).2.movesFrom r a.now
       else min m ((s.act hash parses defs a.tie a.now a.act).2.movesFrom r a.now))
      (if (s.act hash parses defs a.tie a.now a.act).2.room defs r = s.room defs r then f else a.now)
      (if s.net.busyListener n && !a.act.delivers n then u else a.now)
      (s.act hash parses defs a.tie a.now a.act).2 as

private theorem plPrompt_of_prompt {hash : HashFn} {parses : Parses} {ε δ D : Delta} {defs : List Runner} {r n : Nat} {m f u : Time} {s : PgLive}
    {as : List TPLAct} (h : PromptPgRunner hash parses ε δ D defs r n m f u s as) : PLPrompt True hash parses ε δ D defs r n m f u s as := by
  induction as generalizing m f u s with
  | nil => trivial
  | cons a as ih => exact ⟨h.1, fun _ => h.2.1, ih h.2.2⟩

private theorem plPrompt_of_polling {hash : HashFn} {parses : Parses} {ε D : Delta} {defs : List Runner} {r n : Nat} {m f u : Time} {s : PgLive}
    {as : List TPLAct} (h : PollingPgRunner hash parses ε D defs r m f s as) : PLPrompt False hash parses ε 0 D defs r n m f u s as := by
  induction as generalizing m f u s with
  | nil => trivial
  | cons a as ih => exact ⟨h.1, False.elim, ih h.2⟩

/-! ## What the runners do, for the database, the nodes and the streams -/

/-- What an action is for the nodes and streams. An action that is nothing to them is a delivery on a
node that does not exist. -/
def plView (hash : HashFn) (defs : List Runner) (tie : Int → Nat) (now : Time) (s : PgLive) : PLAct → NetAct
  | .db a => .db a
  | .connect => .connect
  | .deliver n => .deliver n
  | .reconnect n => .reconnect n
  | .fail n => .fail n
  | .begin r =>
    match defs[r]?, s.runners[r]? with
    | some d, some q => if q.stream.isNone then .subscribe q.node d.name else .deliver s.net.nodes.length
    | _, _ => .deliver s.net.nodes.length
  | .step r timer =>
    match defs[r]?, s.runners[r]? with
    | some _, some q =>
      match q.stream with
      | some n => if q.inPoll then .stream n timer else .deliver s.net.nodes.length
      | none => .deliver s.net.nodes.length
    | _, _ => .deliver s.net.nodes.length
  | .streamFails r =>
    match s.runners[r]? with
    | some q =>
      match q.stream with
      | some n => if q.inPoll then .streamFails n else .deliver s.net.nodes.length
      | none => .deliver s.net.nodes.length
    | none => .deliver s.net.nodes.length
  | .report r i =>
    match s.runners[r]? with
    | some q =>
      match q.flights[i]? with
      | some (some { phase := .reporting o, .. }) =>
        match (s.net.conc.step hash tie now (.stmt o)).1 with
        | .blocked => .deliver s.net.nodes.length
        | _ => .db (.stmt o)
      | _ => .deliver s.net.nodes.length
    | none => .deliver s.net.nodes.length
  | _ => .deliver s.net.nodes.length

private theorem idle_step (hash : HashFn) (parses : Parses) (tie : Int → Nat) (now : Time) (s : PgNet) :
    s.step hash parses tie now (.deliver s.nodes.length) = (.quiet, s) := by
  simp [PgNet.step, PgNet.deliver]

/-- The same for the nodes and streams, with the same events in the database. -/
theorem plView_step (hash : HashFn) (parses : Parses) (defs : List Runner) (tie : Int → Nat) (now : Time) (s : PgLive) (a : PLAct) :
    (s.act hash parses defs tie now a).2.net = (s.net.step hash parses tie now (plView hash defs tie now s a)).2 ∧
    (s.act hash parses defs tie now a).1.back = (s.net.step hash parses tie now (plView hash defs tie now s a)).1.back := by
  cases a with
  | db a => exact ⟨rfl, rfl⟩
  | connect => exact ⟨rfl, rfl⟩
  | deliver n => exact ⟨rfl, rfl⟩
  | reconnect n => exact ⟨rfl, rfl⟩
  | fail n => exact ⟨rfl, rfl⟩
  | begin r =>
    simp only [PgLive.act, plView]
    cases hd : defs[r]? with
    | none => simp [idle_step, PLEv.back, NetEv.back]
    | some d =>
      cases hq : s.runners[r]? with
      | none => simp [idle_step, PLEv.back, NetEv.back]
      | some q =>
        simp only
        by_cases hs : q.stream.isNone = true
        · rw [if_pos hs, if_pos hs]; exact ⟨rfl, rfl⟩
        · rw [if_neg hs, if_neg hs, idle_step]; exact ⟨rfl, rfl⟩
  | poll r =>
    simp only [plView, idle_step, PgLive.act]
    split
    · split
      · split
        · split <;> exact ⟨rfl, rfl⟩
        · exact ⟨rfl, rfl⟩
      · exact ⟨rfl, rfl⟩
    · exact ⟨rfl, rfl⟩
  | pend r =>
    simp only [plView, idle_step, PgLive.act]
    split <;> exact ⟨rfl, rfl⟩
  | step r b =>
    simp only [plView, PgLive.act]
    cases hd : defs[r]? with
    | none => simp [idle_step, PLEv.back, NetEv.back]
    | some d =>
      cases hq : s.runners[r]? with
      | none => simp [idle_step, PLEv.back, NetEv.back]
      | some q =>
        simp only
        cases hs : q.stream with
        | none => simp [idle_step, PLEv.back, NetEv.back]
        | some n =>
          simp only
          cases hi : q.inPoll with
          | false =>
            simp only [Bool.false_eq_true, if_false, idle_step]
            split <;> exact ⟨rfl, rfl⟩
          | true =>
            simp only [if_true]
            cases hr : s.net.readers[n]? with
            | none =>
              simp [PgNet.step, hr, PLEv.back, NetEv.back]
            | some rd =>
              simp only
              split
              · rename_i h; rw [h]; exact ⟨rfl, rfl⟩
              · rename_i h; rw [h]; exact ⟨rfl, rfl⟩
              · rename_i h1 h2
                refine ⟨rfl, ?_⟩
                cases (s.net.step hash parses tie now (.stream n b)).1 <;> rfl
  | streamFails r =>
    simp only [plView, PgLive.act]
    cases hq : s.runners[r]? with
    | none => simp [idle_step, PLEv.back, NetEv.back]
    | some q =>
      simp only
      cases hs : q.stream with
      | none => simp [idle_step, PLEv.back, NetEv.back]
      | some n =>
        simp only
        cases hi : q.inPoll with
        | false =>
          simp only [Bool.false_eq_true, if_false, idle_step]
          split <;> exact ⟨rfl, rfl⟩
        | true =>
          simp only [if_true]
          cases hr : s.net.readers[n]? with
          | none => simp [PgNet.step, hr, PLEv.back, NetEv.back]
          | some rd =>
            obtain ⟨nd, x, qu, w⟩ := rd
            cases w <;> simp [PgNet.step, hr, PLEv.back, NetEv.back]
  | finish r i b =>
    simp only [plView, idle_step, PgLive.act]
    split
    · split
      · split
        · exact ⟨rfl, rfl⟩
        · split <;> exact ⟨rfl, rfl⟩
      · exact ⟨rfl, rfl⟩
    · exact ⟨rfl, rfl⟩
  | report r i =>
    simp only [plView, PgLive.act]
    cases hq : s.runners[r]? with
    | none => simp [idle_step, PLEv.back, NetEv.back]
    | some q =>
      simp only
      cases hf : q.flights[i]? with
      | none => simp [idle_step, PLEv.back, NetEv.back]
      | some x =>
        cases x with
        | none => simp [idle_step, PLEv.back, NetEv.back]
        | some fl =>
          obtain ⟨t, ph⟩ := fl
          cases ph with
          | running => simp [idle_step, PLEv.back, NetEv.back]
          | reporting o =>
            simp only
            by_cases hb : (s.net.conc.step hash tie now (.stmt o)).1 = .blocked
            · simp [hb, idle_step, PLEv.back, NetEv.back]
            · split
              · rename_i hb'; exact (hb hb').elim
              · split
                · rename_i hb'; exact (hb hb').elim
                · exact ⟨rfl, rfl⟩
  | lose r i =>
    simp only [plView, idle_step, PgLive.act]
    split
    · split <;> exact ⟨rfl, rfl⟩
    · exact ⟨rfl, rfl⟩
  | tell r =>
    simp only [plView, idle_step, PgLive.act]
    split <;> exact ⟨rfl, rfl⟩
  | kill r =>
    simp only [plView, idle_step, PgLive.act]
    split <;> exact ⟨rfl, rfl⟩

private theorem plView_delivers (hash : HashFn) (defs : List Runner) (tie : Int → Nat) (now : Time) (s : PgLive) (a : PLAct) (n : Nat) :
    (s.net.busyListener n && !(plView hash defs tie now s a).delivers n) = (s.net.busyListener n && !a.delivers n) := by
  cases hb : s.net.busyListener n with
  | false => rfl
  | true =>
    have hn : s.net.nodes.length ≠ n := by
      intro e
      simp only [PgNet.busyListener] at hb
      rw [List.getElem?_eq_none (by omega)] at hb
      cases hb
    have hidle : (NetAct.deliver s.net.nodes.length).delivers n = false := by simpa [NetAct.delivers] using hn
    congr 2
    cases a with
    | db a => rfl
    | connect => rfl
    | deliver n => rfl
    | reconnect n => rfl
    | fail n => rfl
    | begin r =>
      simp only [plView]
      split
      · split
        · rfl
        · exact hidle
      · exact hidle
    | step r b =>
      simp only [plView]
      split
      · split
        · split
          · rfl
          · exact hidle
        · exact hidle
      · exact hidle
    | streamFails r =>
      simp only [plView]
      split
      · split
        · split
          · rfl
          · exact hidle
        · exact hidle
      · exact hidle
    | report r i =>
      simp only [plView]
      split
      · split
        · split
          · exact hidle
          · rfl
        · exact hidle
      · exact hidle
    | _ => exact hidle

/-- Only what it says breaks a listener's connection. -/
private theorem plView_unbroken (hash : HashFn) (defs : List Runner) (tie : Int → Nat) (now : Time) (s : PgLive) (a : PLAct) (n : Nat)
    (h : a ≠ .reconnect n) : plView hash defs tie now s a ≠ .reconnect n := by
  cases a with
  | reconnect k => simpa [plView] using h
  | begin r => simp only [plView]; split <;> (try split) <;> simp
  | step r b => simp only [plView]; split <;> (try split) <;> (try split) <;> simp
  | streamFails r => simp only [plView]; split <;> (try split) <;> (try split) <;> simp
  | report r i => simp only [plView]; split <;> (try split) <;> (try split) <;> simp
  | _ => simp [plView]

theorem room_pg {defs : List Runner} {s : PgLive} {r : Nat} {d : Runner} {q : PgLiveRunner} (hd : defs[r]? = some d)
    (hq : s.runners[r]? = some q) : s.room defs r = belowLimit d.maxConcurrency q.inFlight := by
  have hlen : q.inFlight = q.flights.countP (·.isSome) := by
    simp only [PgLiveRunner.inFlight, List.countP_eq_length_filter]
    induction q.flights with
    | nil => rfl
    | cons x l ih => cases x <;> simp [ih]
  simp only [PgLive.room, hd, hq, belowLimit, hlen]
  cases d.maxConcurrency with
  | none => rfl
  | some l => cases l <;> simp

private theorem inFlight_set (l : List (Option Flight)) {k : Nat} {x : Flight} (y : Option Flight) (h : l[k]? = some (some x)) :
    ((l.set k y).filterMap id).length ≤ (l.filterMap id).length := by
  induction l generalizing k with
  | nil => simp at h
  | cons a l ih =>
    cases k with
    | zero =>
      simp only [List.getElem?_cons_zero, Option.some.injEq] at h
      subst h
      cases y <;> simp
    | succ k =>
      have := ih (k := k) (by simpa using h)
      cases a <;> simpa using this

private theorem returned_only {hash : HashFn} {parses : Parses} {tie : Int → Nat} {now : Time} {s : PgNet} {a : NetAct} {i : Nat} {jb : Job}
    (h : (s.step hash parses tie now a).1 = .returned i jb) : a.isStream i = true := by
  cases a with
  | stream k b =>
    simp only [PgNet.step] at h
    cases hr : s.readers[k]? with
    | none => rw [hr] at h; cases h
    | some r =>
      rw [hr] at h
      have hk : k = i := by
        simp only [PgNet.streamStep, PgNet.dbStep] at h
        split at h <;> (try split at h) <;> (try split at h) <;> first | (injection h) | cases h
      simp [NetAct.isStream, hk]
  | streamFails k =>
    simp only [PgNet.step] at h
    split at h <;> cases h
  | _ => cases h

private theorem errs_only {hash : HashFn} {parses : Parses} {tie : Int → Nat} {now : Time} {s : PgNet} {a : NetAct} {i : Nat}
    (h : (s.step hash parses tie now a).1.errs i = true) : a.isStream i = true ∨ a = .streamFails i := by
  cases a with
  | stream k b =>
    simp only [PgNet.step] at h
    cases hr : s.readers[k]? with
    | none => rw [hr] at h; cases h
    | some r =>
      rw [hr] at h
      have hk : k = i := by
        simp only [PgNet.streamStep, PgNet.dbStep] at h
        split at h <;> (try split at h) <;> (try split at h) <;> simp_all [NetEv.errs]
      simp [NetAct.isStream, hk]
  | streamFails k =>
    right
    simp only [PgNet.step] at h
    split at h <;> simp_all [NetEv.errs]
  | _ => cases h

/-- What an action is for runner `r`, whose stream is the `i`-th. -/
theorem plKind (hash : HashFn) (parses : Parses) {defs : List Runner} (tie : Int → Nat) (now : Time) {s : PgLive} (H : PgLiveInv defs s)
    (a : PLAct) {r i : Nat} {d : Runner} {q : PgLiveRunner} (hd : defs[r]? = some d) (hq : s.runners[r]? = some q) (hs : q.stream = some i) :
    ∃ q', (s.act hash parses defs tie now a).2.runners[r]? = some q' ∧ q'.stream = some i ∧
      (s.act hash parses defs tie now a).1.isMove r = ((plView hash defs tie now s a).isStream i &&
        (s.net.step hash parses tie now (plView hash defs tie now s a)).1.isSomething) ∧
      ((s.act hash parses defs tie now a).1.isMove r = true → q.inPoll = true) ∧
      (q'.inFlight ≤ q.inFlight ∨ ∃ jb, (s.net.step hash parses tie now (plView hash defs tie now s a)).1 = .returned i jb) ∧
      (∀ jb, (s.net.step hash parses tie now (plView hash defs tie now s a)).1 = .returned i jb →
        ∃ w ans, (s.act hash parses defs tie now a).1 = .moved r w ans (.returned i jb) (some (d.start jb))) ∧
      ((s.net.step hash parses tie now (plView hash defs tie now s a)).1.errs i = true → (s.act hash parses defs tie now a).1.errs r = true) := by
  have hlt := (List.getElem?_eq_some_iff.mp hq).1
  have mk : ∀ q', (s.act hash parses defs tie now a).2.runners[r]? = some q' → q'.stream = some i →
      (s.act hash parses defs tie now a).1.isMove r = false → (plView hash defs tie now s a).isStream i = false →
      q'.inFlight ≤ q.inFlight →
      (plView hash defs tie now s a = .streamFails i → (s.net.step hash parses tie now (plView hash defs tie now s a)).1.errs i = true →
        (s.act hash parses defs tie now a).1.errs r = true) →
      ∃ q', (s.act hash parses defs tie now a).2.runners[r]? = some q' ∧ q'.stream = some i ∧
      (s.act hash parses defs tie now a).1.isMove r = ((plView hash defs tie now s a).isStream i &&
        (s.net.step hash parses tie now (plView hash defs tie now s a)).1.isSomething) ∧
      ((s.act hash parses defs tie now a).1.isMove r = true → q.inPoll = true) ∧
      (q'.inFlight ≤ q.inFlight ∨ ∃ jb, (s.net.step hash parses tie now (plView hash defs tie now s a)).1 = .returned i jb) ∧
      (∀ jb, (s.net.step hash parses tie now (plView hash defs tie now s a)).1 = .returned i jb →
        ∃ w ans, (s.act hash parses defs tie now a).1 = .moved r w ans (.returned i jb) (some (d.start jb))) ∧
      ((s.net.step hash parses tie now (plView hash defs tie now s a)).1.errs i = true → (s.act hash parses defs tie now a).1.errs r = true) := by
    intro q' h1 h2 h3 h4 h5 h6
    refine ⟨q', h1, h2, by rw [h3, h4]; rfl, by rw [h3]; nofun, .inl h5, ?_, ?_⟩
    · intro jb e
      rw [returned_only e] at h4; cases h4
    · intro e
      rcases errs_only e with e' | e'
      · rw [e'] at h4; cases h4
      · exact h6 e' e
  have put : ∀ (x : Nat) (p : PgLiveRunner), (x = r → p.stream = some i ∧ p.inFlight ≤ q.inFlight) →
      ∃ q', (s.runners.set x p)[r]? = some q' ∧ q'.stream = some i ∧ q'.inFlight ≤ q.inFlight := by
    intro x p h
    by_cases e : x = r
    · subst e
      exact ⟨p, List.getElem?_set_self hlt, (h rfl).1, (h rfl).2⟩
    · exact ⟨q, by rw [List.getElem?_set_ne e, hq], hs, Nat.le_refl _⟩
  cases a with
  | db a => exact mk q hq hs rfl rfl (Nat.le_refl _) nofun
  | connect => exact mk q hq hs rfl rfl (Nat.le_refl _) nofun
  | deliver n => exact mk q hq hs rfl rfl (Nat.le_refl _) nofun
  | reconnect n => exact mk q hq hs rfl rfl (Nat.le_refl _) nofun
  | fail n => exact mk q hq hs rfl rfl (Nat.le_refl _) nofun
  | begin x =>
    cases hdx : defs[x]? with
    | none =>
      simp only [PgLive.act, plView, hdx] at mk ⊢
      exact mk q hq hs rfl rfl (Nat.le_refl _) nofun
    | some dx =>
      cases hqx : s.runners[x]? with
      | none =>
        simp only [PgLive.act, plView, hdx, hqx] at mk ⊢
        exact mk q hq hs rfl rfl (Nat.le_refl _) nofun
      | some qx =>
        by_cases hn : qx.stream.isNone = true
        · simp only [PgLive.act, plView, hdx, hqx, hn, if_true] at mk ⊢
          obtain ⟨q', e1, e2, e3⟩ := put x { qx with stream := some s.net.readers.length } (fun e => by
            subst e
            rw [hq, Option.some.injEq] at hqx
            subst hqx
            rw [hs] at hn; cases hn)
          exact mk q' e1 e2 rfl rfl e3 nofun
        · simp only [PgLive.act, plView, hdx, hqx, hn] at mk ⊢
          exact mk q hq hs rfl rfl (Nat.le_refl _) nofun
  | poll x =>
    suffices h : (∃ q', (s.act hash parses defs tie now (.poll x)).2.runners[r]? = some q' ∧ q'.stream = some i ∧ q'.inFlight ≤ q.inFlight) ∧
        (s.act hash parses defs tie now (.poll x)).1.isMove r = false by
      obtain ⟨⟨q', e1, e2, e3⟩, e4⟩ := h
      exact mk q' e1 e2 e4 rfl e3 nofun
    simp only [PgLive.act]
    split
    · rename_i dx qx hdx hqx
      split
      · split
        · split
          all_goals
            refine ⟨put x _ fun e => ?_, rfl⟩
            subst e
            rw [hq, Option.some.injEq] at hqx
            subst hqx
            exact ⟨hs, Nat.le_refl _⟩
        · exact ⟨⟨q, hq, hs, Nat.le_refl _⟩, rfl⟩
      · exact ⟨⟨q, hq, hs, Nat.le_refl _⟩, rfl⟩
    · exact ⟨⟨q, hq, hs, Nat.le_refl _⟩, rfl⟩
  | pend x =>
    suffices h : (∃ q', (s.act hash parses defs tie now (.pend x)).2.runners[r]? = some q' ∧ q'.stream = some i ∧ q'.inFlight ≤ q.inFlight) ∧
        (s.act hash parses defs tie now (.pend x)).1.isMove r = false by
      obtain ⟨⟨q', e1, e2, e3⟩, e4⟩ := h
      exact mk q' e1 e2 e4 rfl e3 nofun
    simp only [PgLive.act]
    split
    · rename_i qx hqx
      refine ⟨put x _ fun e => ?_, rfl⟩
      subst e
      rw [hq, Option.some.injEq] at hqx
      subst hqx
      exact ⟨hs, Nat.le_refl _⟩
    · exact ⟨⟨q, hq, hs, Nat.le_refl _⟩, rfl⟩
  | tell x =>
    suffices h : (∃ q', (s.act hash parses defs tie now (.tell x)).2.runners[r]? = some q' ∧ q'.stream = some i ∧ q'.inFlight ≤ q.inFlight) ∧
        (s.act hash parses defs tie now (.tell x)).1.isMove r = false by
      obtain ⟨⟨q', e1, e2, e3⟩, e4⟩ := h
      exact mk q' e1 e2 e4 rfl e3 nofun
    simp only [PgLive.act]
    split
    · rename_i qx hqx
      refine ⟨put x _ fun e => ?_, rfl⟩
      subst e
      rw [hq, Option.some.injEq] at hqx
      subst hqx
      exact ⟨hs, Nat.le_refl _⟩
    · exact ⟨⟨q, hq, hs, Nat.le_refl _⟩, rfl⟩
  | kill x =>
    suffices h : (∃ q', (s.act hash parses defs tie now (.kill x)).2.runners[r]? = some q' ∧ q'.stream = some i ∧ q'.inFlight ≤ q.inFlight) ∧
        (s.act hash parses defs tie now (.kill x)).1.isMove r = false by
      obtain ⟨⟨q', e1, e2, e3⟩, e4⟩ := h
      exact mk q' e1 e2 e4 rfl e3 nofun
    simp only [PgLive.act]
    split
    · rename_i qx hqx
      refine ⟨put x _ fun e => ?_, rfl⟩
      subst e
      rw [hq, Option.some.injEq] at hqx
      subst hqx
      exact ⟨hs, Nat.zero_le _⟩
    · exact ⟨⟨q, hq, hs, Nat.le_refl _⟩, rfl⟩
  | lose x k =>
    suffices h : (∃ q', (s.act hash parses defs tie now (.lose x k)).2.runners[r]? = some q' ∧ q'.stream = some i ∧ q'.inFlight ≤ q.inFlight) ∧
        (s.act hash parses defs tie now (.lose x k)).1.isMove r = false by
      obtain ⟨⟨q', e1, e2, e3⟩, e4⟩ := h
      exact mk q' e1 e2 e4 rfl e3 nofun
    simp only [PgLive.act]
    split
    · rename_i qx hqx
      split
      · rename_i hf
        refine ⟨put x _ fun e => ?_, rfl⟩
        subst e
        rw [hq, Option.some.injEq] at hqx
        subst hqx
        exact ⟨hs, inFlight_set _ _ hf⟩
      · exact ⟨⟨q, hq, hs, Nat.le_refl _⟩, rfl⟩
    · exact ⟨⟨q, hq, hs, Nat.le_refl _⟩, rfl⟩
  | finish x k b =>
    suffices h : (∃ q', (s.act hash parses defs tie now (.finish x k b)).2.runners[r]? = some q' ∧ q'.stream = some i ∧ q'.inFlight ≤ q.inFlight) ∧
        (s.act hash parses defs tie now (.finish x k b)).1.isMove r = false by
      obtain ⟨⟨q', e1, e2, e3⟩, e4⟩ := h
      exact mk q' e1 e2 e4 rfl e3 nofun
    simp only [PgLive.act]
    split
    · rename_i dx qx hdx hqx
      split
      · rename_i hf
        split
        · exact ⟨⟨q, hq, hs, Nat.le_refl _⟩, rfl⟩
        · split
          · refine ⟨put x _ fun e => ?_, rfl⟩
            subst e
            rw [hq, Option.some.injEq] at hqx
            subst hqx
            exact ⟨hs, inFlight_set _ _ hf⟩
          · refine ⟨put x _ fun e => ?_, rfl⟩
            subst e
            rw [hq, Option.some.injEq] at hqx
            subst hqx
            exact ⟨hs, Nat.zero_le _⟩
      · exact ⟨⟨q, hq, hs, Nat.le_refl _⟩, rfl⟩
    · exact ⟨⟨q, hq, hs, Nat.le_refl _⟩, rfl⟩
  | report x k =>
    suffices h : ((∃ q', (s.act hash parses defs tie now (.report x k)).2.runners[r]? = some q' ∧ q'.stream = some i ∧ q'.inFlight ≤ q.inFlight) ∧
        (s.act hash parses defs tie now (.report x k)).1.isMove r = false) ∧ (plView hash defs tie now s (.report x k)).isStream i = false ∧
        plView hash defs tie now s (.report x k) ≠ .streamFails i by
      obtain ⟨⟨⟨q', e1, e2, e3⟩, e4⟩, e5, e6⟩ := h
      exact mk q' e1 e2 e4 e5 e3 fun e => (e6 e).elim
    refine ⟨?_, ?_⟩
    · simp only [PgLive.act]
      split
      · rename_i qx hqx
        split
        · rename_i hf
          split
          · exact ⟨⟨q, hq, hs, Nat.le_refl _⟩, rfl⟩
          · refine ⟨put x _ fun e => ?_, rfl⟩
            subst e
            rw [hq, Option.some.injEq] at hqx
            subst hqx
            exact ⟨hs, inFlight_set _ _ hf⟩
        · exact ⟨⟨q, hq, hs, Nat.le_refl _⟩, rfl⟩
      · exact ⟨⟨q, hq, hs, Nat.le_refl _⟩, rfl⟩
    · simp only [plView]
      split <;> (try split) <;> (try split) <;> exact ⟨rfl, nofun⟩
  | streamFails x =>
    cases hqx : s.runners[x]? with
    | none =>
      simp only [PgLive.act, plView, hqx] at mk ⊢
      exact mk q hq hs rfl rfl (Nat.le_refl _) nofun
    | some qx =>
      cases hn : qx.stream with
      | none =>
        simp only [PgLive.act, plView, hqx, hn] at mk ⊢
        exact mk q hq hs rfl rfl (Nat.le_refl _) nofun
      | some n =>
        cases hi : qx.inPoll with
        | false =>
          have e : (s.act hash parses defs tie now (.streamFails x)) = (.quiet, s) := by
            simp only [PgLive.act, hqx, hn, hi]
            split <;> rfl
          rw [e] at mk ⊢
          simp only [plView, hqx, hn, hi] at mk ⊢
          exact mk q hq hs rfl rfl (Nat.le_refl _) nofun
        | true =>
          have hv : plView hash defs tie now s (.streamFails x) = .streamFails n := by simp [plView, hqx, hn, hi]
          have stay : s.act hash parses defs tie now (.streamFails x) = (.quiet, s) →
              (s.net.step hash parses tie now (.streamFails n)).1.errs i = false →
              ∃ q', (s.act hash parses defs tie now (.streamFails x)).2.runners[r]? = some q' ∧ q'.stream = some i ∧
              (s.act hash parses defs tie now (.streamFails x)).1.isMove r = ((plView hash defs tie now s (.streamFails x)).isStream i &&
                (s.net.step hash parses tie now (plView hash defs tie now s (.streamFails x))).1.isSomething) ∧
              ((s.act hash parses defs tie now (.streamFails x)).1.isMove r = true → q.inPoll = true) ∧
              (q'.inFlight ≤ q.inFlight ∨ ∃ jb, (s.net.step hash parses tie now (plView hash defs tie now s (.streamFails x))).1 = .returned i jb) ∧
              (∀ jb, (s.net.step hash parses tie now (plView hash defs tie now s (.streamFails x))).1 = .returned i jb →
                ∃ w ans, (s.act hash parses defs tie now (.streamFails x)).1 = .moved r w ans (.returned i jb) (some (d.start jb))) ∧
              ((s.net.step hash parses tie now (plView hash defs tie now s (.streamFails x))).1.errs i = true →
                (s.act hash parses defs tie now (.streamFails x)).1.errs r = true) := by
            intro e he
            rw [hv] at mk ⊢
            rw [e] at mk ⊢
            exact mk q hq hs rfl rfl (Nat.le_refl _) fun _ h => by rw [he] at h; cases h
          cases hr : s.net.readers[n]? with
          | none =>
            refine stay (by simp only [PgLive.act, hqx, hn, hr]) ?_
            simp [PgNet.step, hr, NetEv.errs]
          | some rd =>
            have go : (s.net.step hash parses tie now (.streamFails n)).1 = .failed n → ∃ w, s.act hash parses defs tie now (.streamFails x) =
                (.failed x w, { net := (s.net.step hash parses tie now (.streamFails n)).2, runners := s.runners.set x { qx with inPoll := false } }) := by
              intro h
              refine ⟨rd.wait.isLoading, ?_⟩
              simp only [PgLive.act, hqx, hn, hr, hi, if_true]
              split
              · rename_i h'; rw [h']
              · rename_i h'
                exact (h' n (s.net.step hash parses tie now (.streamFails n)).2 (by rw [← h])).elim
            have fin : (s.net.step hash parses tie now (.streamFails n)).1 = .failed n →
                ∃ q', (s.act hash parses defs tie now (.streamFails x)).2.runners[r]? = some q' ∧ q'.stream = some i ∧
              (s.act hash parses defs tie now (.streamFails x)).1.isMove r = ((plView hash defs tie now s (.streamFails x)).isStream i &&
                (s.net.step hash parses tie now (plView hash defs tie now s (.streamFails x))).1.isSomething) ∧
              ((s.act hash parses defs tie now (.streamFails x)).1.isMove r = true → q.inPoll = true) ∧
              (q'.inFlight ≤ q.inFlight ∨ ∃ jb, (s.net.step hash parses tie now (plView hash defs tie now s (.streamFails x))).1 = .returned i jb) ∧
              (∀ jb, (s.net.step hash parses tie now (plView hash defs tie now s (.streamFails x))).1 = .returned i jb →
                ∃ w ans, (s.act hash parses defs tie now (.streamFails x)).1 = .moved r w ans (.returned i jb) (some (d.start jb))) ∧
              ((s.net.step hash parses tie now (plView hash defs tie now s (.streamFails x))).1.errs i = true →
                (s.act hash parses defs tie now (.streamFails x)).1.errs r = true) := by
              intro h
              obtain ⟨w, e⟩ := go h
              rw [hv] at mk ⊢
              rw [e] at mk ⊢
              obtain ⟨q', e1, e2, e3⟩ := put x { qx with inPoll := false } (fun e => by
                subst e
                rw [hq, Option.some.injEq] at hqx
                subst hqx
                exact ⟨hs, Nat.le_refl _⟩)
              refine mk q' e1 e2 rfl rfl e3 fun e' _ => ?_
              injection e' with e'
              subst e'
              simp [PLEv.errs, H.distinct x r n qx q hqx hq hn hs]
            have quiet : (s.net.step hash parses tie now (.streamFails n)) = (.quiet, s.net) →
                s.act hash parses defs tie now (.streamFails x) = (.quiet, s) ∧
                  (s.net.step hash parses tie now (.streamFails n)).1.errs i = false := by
              intro h
              refine ⟨?_, by rw [h]; rfl⟩
              simp only [PgLive.act, hqx, hn, hr, hi, if_true, h]
            obtain ⟨nd, y, qu, w⟩ := rd
            cases w with
            | ready => exact fin (by simp [PgNet.step, hr])
            | loading c dl m => exact fin (by simp [PgNet.step, hr])
            | looked f => exact stay (quiet (by simp [PgNet.step, hr])).1 (quiet (by simp [PgNet.step, hr])).2
            | decided c dl => exact stay (quiet (by simp [PgNet.step, hr])).1 (quiet (by simp [PgNet.step, hr])).2
            | asleep c sc dl => exact stay (quiet (by simp [PgNet.step, hr])).1 (quiet (by simp [PgNet.step, hr])).2
  | step x b =>
    cases hdx : defs[x]? with
    | none =>
      simp only [PgLive.act, plView, hdx] at mk ⊢
      exact mk q hq hs rfl rfl (Nat.le_refl _) nofun
    | some dx =>
      cases hqx : s.runners[x]? with
      | none =>
        simp only [PgLive.act, plView, hdx, hqx] at mk ⊢
        exact mk q hq hs rfl rfl (Nat.le_refl _) nofun
      | some qx =>
        cases hn : qx.stream with
        | none =>
          simp only [PgLive.act, plView, hdx, hqx, hn] at mk ⊢
          exact mk q hq hs rfl rfl (Nat.le_refl _) nofun
        | some n =>
          obtain ⟨rd, hr⟩ : ∃ rd, s.net.readers[n]? = some rd := ⟨_, List.getElem?_eq_getElem (H.bound x n qx hqx hn)⟩
          cases hi : qx.inPoll with
          | false =>
            have e : (s.act hash parses defs tie now (.step x b)) = (.quiet, s) := by
              simp [PgLive.act, hdx, hqx, hn, hi, hr]
            rw [e] at mk ⊢
            simp only [plView, hdx, hqx, hn, hi] at mk ⊢
            exact mk q hq hs rfl rfl (Nat.le_refl _) nofun
          | true =>
            have hv : plView hash defs tie now s (.step x b) = .stream n b := by simp [plView, hdx, hqx, hn, hi]
            have hact : s.act hash parses defs tie now (.step x b) =
                match (s.net.step hash parses tie now (.stream n b)).1 with
                | .returned _ j =>
                  (.moved x rd.wait (s.net.answer rd.wait) (s.net.step hash parses tie now (.stream n b)).1 (some (dx.start j)),
                    { net := (s.net.step hash parses tie now (.stream n b)).2, runners := s.runners.set x (qx.take dx j) })
                | .failed _ =>
                  (.moved x rd.wait (s.net.answer rd.wait) (s.net.step hash parses tie now (.stream n b)).1 none,
                    { net := (s.net.step hash parses tie now (.stream n b)).2, runners := s.runners.set x { qx with inPoll := false } })
                | _ => (.moved x rd.wait (s.net.answer rd.wait) (s.net.step hash parses tie now (.stream n b)).1 none,
                    { s with net := (s.net.step hash parses tie now (.stream n b)).2 }) := by
              simp only [PgLive.act, hdx, hqx, hn, hi, hr, if_true]
              generalize s.net.step hash parses tie now (.stream n b) = z
              obtain ⟨ev, net⟩ := z
              cases ev <;> rfl
            have hmv : ∀ y, (s.act hash parses defs tie now (.step x b)).1.isMove y =
                (x == y && (s.net.step hash parses tie now (.stream n b)).1.isSomething) := by
              intro y
              rw [hact]
              split <;> rfl
            by_cases hxr : x = r
            · subst hxr
              rw [hq, Option.some.injEq] at hqx
              subst hqx
              rw [hs, Option.some.injEq] at hn
              subst hn
              rw [hd, Option.some.injEq] at hdx
              subst hdx
              rw [hv]
              have hmv' := hmv x
              rw [show (x == x) = true by simp, Bool.true_and] at hmv'
              rw [hmv']
              simp only [NetAct.isStream, beq_self_eq_true, Bool.true_and]
              rw [hact]
              cases hev : (s.net.step hash parses tie now (.stream i b)).1 with
              | returned k jb =>
                have hk := returned_only hev
                simp only [NetAct.isStream, beq_iff_eq] at hk
                subst hk
                refine ⟨q.take d jb, List.getElem?_set_self hlt, ?_, trivial, fun _ => hi, .inr ⟨jb, rfl⟩, ?_, fun e => by cases e⟩
                · simp only [PgLiveRunner.take]
                  split <;> exact hs
                · intro jb' e
                  injection e with e1 e2
                  subst e2
                  exact ⟨_, _, rfl⟩
              | failed k =>
                exact ⟨_, List.getElem?_set_self hlt, hs, trivial, fun _ => hi, .inl (Nat.le_refl _), (fun _ e => by cases e), fun _ => by simp [PLEv.errs]⟩
              | _ => exact ⟨q, hq, hs, trivial, fun _ => hi, .inl (Nat.le_refl _), (fun _ e => by cases e), (fun e => by cases e)⟩
            · have hni : n ≠ i := fun e => hxr (H.distinct x r n qx q hqx hq hn (e ▸ hs))
              rw [hv] at mk ⊢
              obtain ⟨q', e1, e2, e3⟩ : ∃ q', (s.act hash parses defs tie now (.step x b)).2.runners[r]? = some q' ∧ q'.stream = some i ∧
                  q'.inFlight ≤ q.inFlight := by
                rw [hact]
                split
                · exact put x _ fun e => (hxr e).elim
                · exact put x _ fun e => (hxr e).elim
                · exact ⟨q, hq, hs, Nat.le_refl _⟩
              exact mk q' e1 e2 (by rw [hmv]; simp [hxr]) (by simp [NetAct.isStream, hni]) e3 (fun e => by cases e)

/-! ## A whole schedule, for the database, the nodes and the streams -/

/-- What a schedule is for the nodes and streams. -/
def plProject (hash : HashFn) (parses : Parses) (defs : List Runner) : PgLive → List TPLAct → List TNetAct
  | _, [] => []
  | s, a :: as => ⟨a.now, a.tie, plView hash defs a.tie a.now s a.act⟩ :: plProject hash parses defs (s.act hash parses defs a.tie a.now a.act).2 as

private theorem plProject_append (hash : HashFn) (parses : Parses) (defs : List Runner) (s : PgLive) (as bs : List TPLAct) :
    plProject hash parses defs s (as ++ bs) = plProject hash parses defs s as ++ plProject hash parses defs (s.run hash parses defs as) bs := by
  induction as generalizing s with
  | nil => rfl
  | cons a as ih => simp only [List.cons_append, plProject, PgLive.run, ih]

private theorem plProject_run (hash : HashFn) (parses : Parses) (defs : List Runner) (s : PgLive) (as : List TPLAct) :
    (s.run hash parses defs as).net = s.net.run hash parses (plProject hash parses defs s as) := by
  induction as generalizing s with
  | nil => rfl
  | cons a as ih =>
    simp only [PgLive.run, plProject, PgNet.run]
    rw [ih, (plView_step hash parses defs a.tie a.now s a.act).1]

private theorem plProject_now (hash : HashFn) (parses : Parses) (defs : List Runner) (s : PgLive) (as : List TPLAct) :
    (plProject hash parses defs s as).map (·.now) = as.map (·.now) := by
  induction as generalizing s with
  | nil => rfl
  | cons a as ih => simp only [plProject, List.map_cons, ih]

private theorem plProject_unbroken (hash : HashFn) (parses : Parses) (defs : List Runner) (n : Nat) (s : PgLive) (as : List TPLAct)
    (h : ∀ a ∈ as, a.act ≠ .reconnect n) : Unbroken n (plProject hash parses defs s as) := by
  induction as generalizing s with
  | nil => intro a ha; cases ha
  | cons a as ih =>
    intro b hb
    rcases List.mem_cons.mp hb with rfl | hb
    · exact plView_unbroken hash defs a.tie a.now s a.act n (h a List.mem_cons_self)
    · exact ih _ (fun c hc => h c (List.mem_cons_of_mem _ hc)) b hb

private theorem plProject_split {hash : HashFn} {parses : Parses} {defs : List Runner} {s : PgLive} {as : List TPLAct} {p q : List TNetAct} {a : TNetAct}
    (h : plProject hash parses defs s as = p ++ a :: q) :
    ∃ p' b q', as = p' ++ b :: q' ∧ p = plProject hash parses defs s p' ∧
      a = ⟨b.now, b.tie, plView hash defs b.tie b.now (s.run hash parses defs p') b.act⟩ := by
  induction p generalizing s as with
  | nil =>
    cases as with
    | nil => cases h
    | cons b as =>
      simp only [plProject, List.nil_append, List.cons.injEq] at h
      exact ⟨[], b, as, rfl, rfl, h.1.symm⟩
  | cons c p ih =>
    cases as with
    | nil => cases h
    | cons b as =>
      simp only [plProject, List.cons_append, List.cons.injEq] at h
      obtain ⟨p', b', q', e1, e2, e3⟩ := ih h.2
      exact ⟨b :: p', b', q', by rw [e1]; rfl, by rw [← h.1, e2]; rfl, e3⟩

private theorem plProject_events (hash : HashFn) (parses : Parses) (defs : List Runner) (s : PgLive) (as : List TPLAct) :
    s.net.dbEvents hash parses (plProject hash parses defs s as) = (s.trace hash parses defs as).filterMap fun e => e.ev.back := by
  induction as generalizing s with
  | nil => rfl
  | cons a as ih =>
    have ih' := ih (s.act hash parses defs a.tie a.now a.act).2
    obtain ⟨v1, v2⟩ := plView_step hash parses defs a.tie a.now s a.act
    rw [v1] at ih'
    simp only [PgNet.dbEvents, PgLive.trace, plProject, PgNet.trace, List.filterMap_cons] at ih' ⊢
    rw [v2, ih']

theorem pgLive_run_append (hash : HashFn) (parses : Parses) (defs : List Runner) (s : PgLive) (as bs : List TPLAct) :
    s.run hash parses defs (as ++ bs) = (s.run hash parses defs as).run hash parses defs bs := by
  induction as generalizing s with
  | nil => rfl
  | cons a as ih => simp only [List.cons_append, PgLive.run, ih]

theorem pgLive_inv_run {hash : HashFn} {parses : Parses} {defs : List Runner} {s : PgLive} (H : PgLiveInv defs s) (as : List TPLAct) :
    PgLiveInv defs (s.run hash parses defs as) := by
  induction as generalizing s with
  | nil => exact H
  | cons a as ih => exact ih (H.act hash parses a.tie a.now a.act)

/-! ## A prompt runner has a prompt stream -/

/-- From when on the stream can move, at most `D` late for want of room. -/
def plFrom (D : Delta) (room : Bool) (m f : Time) : Time := if room then max m f else f + D

/-- Where the stream of runner `r` is, at time `t`. -/
structure PLTrack (defs : List Runner) (r i : Nat) (s : PgLive) (q : PgLiveRunner) (rd : PgReader) (m f t : Time) : Prop where
  hq : s.runners[r]? = some q
  hs : q.stream = some i
  hr : s.net.readers[i]? = some rd
  hf : f ≤ t
  busy : rd.wait ≠ .ready → s.room defs r = true
  sleep : ∀ c since d, rd.wait = .asleep c since d → f ≤ since + d
  decided : ∀ c d, rd.wait = .decided c d → 0 ≤ d
  loading : ∀ c d k, rd.wait = .loading c d k → 0 ≤ d
  full : s.room defs r = false → m ≤ f

private theorem streamDelay_nonneg (now : Time) (f : Option Time) : 0 ≤ streamDelay now f := by
  simp only [streamDelay, defaultDelay, pollDelta, sec, ms]
  split <;> simp only [Time, Delta] at * <;> omega

theorem below_less {l : Option Nat} {a b : Nat} (h : a ≤ b) (hb : belowLimit l b = true) : belowLimit l a = true := by
  cases l with
  | none => rfl
  | some l =>
    simp only [belowLimit, Bool.or_eq_true, decide_eq_true_eq] at hb ⊢
    rcases hb with h' | h'
    · exact .inl h'
    · exact .inr (by omega)

theorem PLTrack.step {hash : HashFn} {parses : Parses} {ε D : Delta} (hD : 0 ≤ D) {defs : List Runner} {r i : Nat} {d : Runner} {s : PgLive}
    {q : PgLiveRunner} {rd : PgReader} {m f t : Time} (H : PgLiveInv defs s) (hd : defs[r]? = some d) (T : PLTrack defs r i s q rd m f t)
    (a : TPLAct) (hta : t ≤ a.now) (hp : if s.room defs r then a.now ≤ max m f + ε else a.now ≤ f + D) :
    let s' := (s.act hash parses defs a.tie a.now a.act).2
    let m' := if (s.act hash parses defs a.tie a.now a.act).1.isMove r then s'.movesFrom r a.now else min m (s'.movesFrom r a.now)
    let f' := if s'.room defs r = s.room defs r then f else a.now
    ∃ q' rd', PLTrack defs r i s' q' rd' m' f' a.now ∧
      NextMove D ((plView hash defs a.tie a.now s a.act).isStream i &&
          (s.net.step hash parses a.tie a.now (plView hash defs a.tie a.now s a.act)).1.isSomething)
        (plFrom D (s.room defs r) m f) (s'.net.movesFrom i a.now) a.now rd' (plFrom D (s'.room defs r) m' f') := by
  intro s' m' f'
  obtain ⟨q', k1, k2, k3, k4, k5, k6, -⟩ := plKind hash parses a.tie a.now H a.act hd T.hq T.hs
  have hnet := (plView_step hash parses defs a.tie a.now s a.act).1
  obtain ⟨rd', g1, g2⟩ := net_seen hash parses a.tie a.now (plView hash defs a.tie a.now s a.act) T.hr
  rw [← hnet] at g1
  have hmf : s'.movesFrom r a.now = s'.net.movesFrom i a.now := by
    have e : s'.runners[r]? = some q' := k1
    simp only [PgLive.movesFrom, e]
    obtain ⟨nd, st, tl, ip, po, fl⟩ := q'
    simp only at k2
    subst k2
    rfl
  have hmoves := pgMovesFrom_eq g1 a.now
  have hmf' : s'.net.movesFrom i a.now = (match rd'.wait with
      | .asleep _ since delay => if rd'.queue = [] then since + delay else a.now
      | _ => a.now) := hmoves
  -- room is lost only with a job
  have hroomS := room_pg hd T.hq
  have hroomS' : s'.room defs r = belowLimit d.maxConcurrency q'.inFlight := room_pg hd k1
  have lost : s.room defs r = true → s'.room defs r = false →
      ∃ jb, (s.net.step hash parses a.tie a.now (plView hash defs a.tie a.now s a.act)).1 = .returned i jb := by
    intro h1 h2
    rcases k5 with h | h
    · rw [hroomS] at h1
      rw [hroomS', below_less h h1] at h2
      cases h2
    · exact h
  have hown : (s.act hash parses defs a.tie a.now a.act).1.isMove r = true → s.room defs r = true := by
    intro h
    rw [hroomS]
    exact (H.polls r q T.hq (k4 h)).2 d hd
  have readied : (∃ jb, (s.net.step hash parses a.tie a.now (plView hash defs a.tie a.now s a.act)).1 = .returned i jb) → rd'.wait = .ready := by
    rintro ⟨jb, e⟩
    obtain ⟨-, -, -, -, -, -, -, r₀, e1, hready⟩ := returned_session e
    rw [← hnet, g1, Option.some.injEq] at e1
    subst e1
    exact hready
  have busy₀ : rd'.wait ≠ .ready → s.room defs r = true := by
    intro h
    have own : ∀ {b}, ((plView hash defs a.tie a.now s a.act).isStream i &&
        (s.net.step hash parses a.tie a.now (plView hash defs a.tie a.now s a.act)).1.isSomething) = b → b = true → s.room defs r = true :=
      fun e e' => hown ((k3.trans e).trans e')
    cases g2 with
    | still qu h' => subst h'; exact T.busy h
    | failed h' => subst h'; exact (h rfl).elim
    | returned jb h' => subst h'; exact (h rfl).elim
    | ready hw h' ho => exact own ho rfl
    | looked fo hw h' ho => exact own ho rfl
    | opens clock dl hw hdl h' ho => exact own ho rfl
    | sleeps clock dl hw hdl h' ho => exact own ho rfl
    | goesOn clock dl k hw hk h' ho => exact own ho rfl
    | gotNone clock dl k hw hk h' ho => exact own ho rfl
    | wakes clock since dl qu hw h' ho => exact own ho rfl
  have busy' : rd'.wait ≠ .ready → s'.room defs r = true := by
    intro h
    cases hr' : s'.room defs r with
    | true => rfl
    | false => exact (h (readied (lost (busy₀ h) hr'))).elim
  have hf' : f' ≤ a.now := by
    simp only [f']
    split
    · exact Int.le_trans T.hf hta
    · exact Int.le_refl _
  have fkept : rd'.wait ≠ .ready → f' = f := fun h => by simp only [f', busy' h, busy₀ h, if_true]
  have hm' : m' ≤ s'.net.movesFrom i a.now := by
    simp only [m', hmf]
    split
    · exact Int.le_refl _
    · exact Int.min_le_right _ _
  have hfa : f ≤ a.now := Int.le_trans T.hf hta
  have sleep' : ∀ c since dl, rd'.wait = .asleep c since dl → f' ≤ since + dl := by
    intro c since dl h
    rw [fkept (by rw [h]; simp)]
    cases g2 with
    | still qu h' => subst h'; exact T.sleep c since dl h
    | failed h' => subst h'; cases h
    | returned jb h' => subst h'; cases h
    | ready hw h' ho => subst h'; cases h
    | looked fo hw h' ho => subst h'; cases h
    | opens clock dl' hw hdl h' ho => subst h'; cases h
    | sleeps clock dl' hw hdl h' ho =>
      subst h'
      injection h with h1 h2 h3
      subst h2 h3
      have := T.decided clock dl' hw
      simp only [Time, Delta] at *; omega
    | goesOn clock dl' k hw hk h' ho => subst h'; rw [hw] at h; cases h
    | gotNone clock dl' k hw hk h' ho =>
      subst h'
      injection h with h1 h2 h3
      subst h2 h3
      have := T.loading clock dl' k hw
      simp only [Time, Delta] at *; omega
    | wakes clock since' dl' qu hw h' ho => subst h'; cases h
  have decided' : ∀ c dl, rd'.wait = .decided c dl → 0 ≤ dl := by
    intro c dl h
    cases g2 with
    | still qu h' => subst h'; exact T.decided c dl h
    | failed h' => subst h'; cases h
    | returned jb h' => subst h'; cases h
    | ready hw h' ho => subst h'; cases h
    | looked fo hw h' ho =>
      subst h'
      injection h with h1 h2
      subst h2
      exact streamDelay_nonneg _ _
    | opens clock dl' hw hdl h' ho => subst h'; cases h
    | sleeps clock dl' hw hdl h' ho => subst h'; cases h
    | goesOn clock dl' k hw hk h' ho => subst h'; rw [hw] at h; cases h
    | gotNone clock dl' k hw hk h' ho => subst h'; cases h
    | wakes clock since' dl' qu hw h' ho => subst h'; cases h
  have loading' : ∀ c dl k, rd'.wait = .loading c dl k → 0 ≤ dl := by
    intro c dl k h
    cases g2 with
    | still qu h' => subst h'; exact T.loading c dl k h
    | failed h' => subst h'; cases h
    | returned jb h' => subst h'; cases h
    | ready hw h' ho => subst h'; cases h
    | looked fo hw h' ho => subst h'; cases h
    | opens clock dl' hw hdl h' ho =>
      subst h'
      injection h with h1 h2 h3
      subst h2
      exact T.decided clock dl' hw
    | sleeps clock dl' hw hdl h' ho => subst h'; cases h
    | goesOn clock dl' k' hw hk h' ho => subst h'; exact T.loading c dl k h
    | gotNone clock dl' k' hw hk h' ho => subst h'; cases h
    | wakes clock since' dl' qu hw h' ho => subst h'; cases h
  have notMove : s.room defs r = false → (s.act hash parses defs a.tie a.now a.act).1.isMove r = false := by
    intro h
    cases he : (s.act hash parses defs a.tie a.now a.act).1.isMove r with
    | false => rfl
    | true => rw [hown he] at h; cases h
  have mless : (s.act hash parses defs a.tie a.now a.act).1.isMove r = false → m' ≤ m := by
    intro h
    simp only [m', h, Bool.false_eq_true, if_false]
    exact Int.min_le_left _ _
  have full' : s'.room defs r = false → m' ≤ f' := by
    intro h
    cases hr : s.room defs r with
    | false =>
      have : f' = f := by simp only [f', h, hr, if_true]
      rw [this]
      exact Int.le_trans (mless (notMove hr)) (T.full hr)
    | true =>
      have e : f' = a.now := by simp [f', h, hr]
      have hw := readied (lost hr h)
      rw [hmf', hw] at hm'
      rw [e]
      exact hm'
  refine ⟨q', rd', ⟨k1, k2, g1, hf', busy', sleep', decided', loading', full'⟩, ?_, ?_⟩
  · rw [← k3]
    intro hno
    have hml := mless hno
    cases hr : s.room defs r with
    | true =>
      cases hr' : s'.room defs r with
      | true =>
        have : f' = f := by simp only [f', hr, hr', if_true]
        simp only [plFrom, if_true, this]
        simp only [Time] at *; omega
      | false =>
        obtain ⟨jb, e⟩ := lost hr hr'
        rw [k3, returned_only e, e] at hno
        cases hno
    | false =>
      have hmf := T.full hr
      rw [hr] at hp
      simp only [Bool.false_eq_true, if_false] at hp
      cases hr' : s'.room defs r with
      | true =>
        have : f' = a.now := by simp [f', hr, hr']
        simp only [plFrom, if_true, this, Bool.false_eq_true, if_false]
        simp only [Time, Delta] at *; omega
      | false =>
        have : f' = f := by simp only [f', hr, hr', if_true]
        simp only [plFrom, this, Bool.false_eq_true, if_false]
        exact Int.le_refl _
  · cases hr' : s'.room defs r with
    | true =>
      left
      simp only [plFrom, if_true]
      refine Int.max_le.mpr ⟨hm', ?_⟩
      rw [hmf']
      split
      · rename_i c since dl hw
        split
        · exact sleep' c since dl hw
        · exact hf'
      · exact hf'
    | false =>
      right
      refine ⟨Classical.byContradiction fun h => ?_, ?_⟩
      · rw [busy' h] at hr'; cases hr'
      · simp only [plFrom, Bool.false_eq_true, if_false]
        simp only [Time, Delta] at *; omega

private theorem netPrompt_of {L : Prop} {hash : HashFn} {parses : Parses} {ε δ D : Delta} (hε : 0 ≤ ε) (hD : 0 ≤ D) {defs : List Runner} {r i n : Nat} {d : Runner}
    {s : PgLive} {q : PgLiveRunner} {rd : PgReader} {m f u t : Time} (H : PgLiveInv defs s) (hd : defs[r]? = some d)
    (T : PLTrack defs r i s q rd m f t) (as : List TPLAct) (hc : (t :: as.map (·.now)).Pairwise (· ≤ ·))
    (hp : PLPrompt L hash parses ε δ D defs r n m f u s as) :
    NetPrompt L hash parses ε δ D i n (plFrom D (s.room defs r) m f) u s.net (plProject hash parses defs s as) := by
  induction as generalizing s q rd m f u t with
  | nil => trivial
  | cons a as ih =>
    obtain ⟨hp1, hp2, hp3⟩ := hp
    rw [List.map_cons] at hc
    have hta : t ≤ a.now := List.rel_of_pairwise_cons hc (by simp)
    obtain ⟨q', rd', T', hn⟩ := T.step (hash := hash) (parses := parses) (ε := ε) hD H hd a hta hp1
    have hnet := (plView_step hash parses defs a.tie a.now s a.act).1
    have hih := ih (H.act hash parses a.tie a.now a.act) T' (List.Pairwise.of_cons hc) hp3
    rw [hnet, ← plView_delivers hash defs a.tie a.now s a.act n] at hih
    refine ⟨?_, hp2, _, ?_, hih⟩
    · simp only [plFrom]
      split at hp1
      · rename_i h; rw [if_pos h]; exact hp1
      · rename_i h; rw [if_neg h]; simp only [Time, Delta] at *; omega
    · intro r' hr'
      rw [← hnet] at hr' ⊢
      have := T'.hr
      rw [hr', Option.some.injEq] at this
      subst this
      exact hn

/-- The first part of the schedule. -/
private theorem netLag_run {L : Prop} {hash : HashFn} {parses : Parses} {ε δ D : Delta} (hD : 0 ≤ D) {s : PgNet} {i n : Nat} {r : PgReader} {node : PgNode}
    {m u t w : Time} (as bs : List TNetAct) (hr : s.readers[i]? = some r) (hrn : r.node = n) (hnode : L → s.nodes[n]? = some node)
    (hlist : L → node.listening = true) (hl : pgLag ε D m t s.conc r) (hsh : pgWaitsShort r.wait) (hu : u ≤ t)
    (hc : (t :: (as.map (·.now) ++ w :: bs.map (·.now))).Pairwise (· ≤ ·)) (hp : NetPrompt L hash parses ε δ D i n m u s (as ++ bs))
    (hun : L → Unbroken n (as ++ bs))
    (hend : L → ∃ node', (s.run hash parses (as ++ bs)).nodes[n]? = some node' ∧ node'.listening = true) :
    ∃ node₁ r' m' u' t', (L → (s.run hash parses as).nodes[n]? = some node₁) ∧ (L → node₁.listening = true) ∧
      (s.run hash parses as).readers[i]? = some r' ∧
      r'.executor = r.executor ∧ r'.node = n ∧ pgLag ε D m' t' (s.run hash parses as).conc r' ∧ pgWaitsShort r'.wait ∧ u' ≤ t' ∧
      (t' :: w :: bs.map (·.now)).Pairwise (· ≤ ·) ∧ NetPrompt L hash parses ε δ D i n m' u' (s.run hash parses as) bs := by
  induction as generalizing s r node m u t with
  | nil => exact ⟨node, r, m, u, t, hnode, hlist, hr, rfl, hrn, hl, hsh, hu, hc, hp⟩
  | cons a as ih =>
    obtain ⟨hpa, hpb, m', hm', hp⟩ := hp
    obtain ⟨r', hr', hs⟩ := net_seen hash parses a.tie a.now a.act hr
    obtain ⟨hk1, hk2⟩ := net_seen_kept hs
    obtain ⟨node₁, g1, g2⟩ : ∃ node₁, (L → (s.step hash parses a.tie a.now a.act).2.nodes[n]? = some node₁) ∧ (L → node₁.listening = true) := by
      by_cases hL : L
      · obtain ⟨node₁, g1, g2⟩ := net_node_seen hash parses a.tie a.now a.act hr hrn (hnode hL) (hlist hL) (hun hL a (by simp)) hr'
        have g2 := g2.resolve_left fun hd => by
          obtain ⟨node', hend, hend'⟩ := hend hL
          obtain ⟨nd, hd1, hd2⟩ := pgnet_dead_run (hash := hash) (parses := parses) g1 hd (as ++ bs)
          have : (s.run hash parses (a :: as ++ bs)).nodes[n]? = some nd := hd1
          rw [hend, Option.some.injEq] at this
          subst this
          rw [hend'] at hd2
          cases hd2
        exact ⟨node₁, fun _ => g1, fun _ => g2.1⟩
      · exact ⟨node, fun h => (hL h).elim, fun h => (hL h).elim⟩
    rw [List.map_cons, List.cons_append] at hc
    have hta : t ≤ a.now := List.rel_of_pairwise_cons hc (by simp)
    have hu' : (if s.busyListener n && !a.act.delivers n then u else a.now) ≤ a.now := by
      split
      · exact Int.le_trans hu hta
      · exact Int.le_refl _
    obtain ⟨nd, q, m', u', t', e4, e5, e1, e2, e3⟩ := ih hr' (hk1.trans hrn) g1 g2 (pgLag_step hD hs hr' hl hta hpa (hm' r' hr'))
      (pgWaitsShort_step hs hsh) hu' (List.Pairwise.of_cons hc) hp (fun hL b hb => hun hL b (List.mem_cons_of_mem _ hb)) hend
    exact ⟨nd, q, m', u', t', e4, e5, e1, e2.trans hk2, e3⟩

private theorem keeps_stream {hash : HashFn} {parses : Parses} {defs : List Runner} {s : PgLive} (H : PgLiveInv defs s) {r i : Nat} {d : Runner}
    {q : PgLiveRunner} (hd : defs[r]? = some d) (hq : s.runners[r]? = some q) (hs : q.stream = some i) (as : List TPLAct) :
    ∃ q', (s.run hash parses defs as).runners[r]? = some q' ∧ q'.stream = some i := by
  induction as generalizing s q with
  | nil => exact ⟨q, hq, hs⟩
  | cons a as ih =>
    obtain ⟨q', k1, k2, -⟩ := plKind hash parses a.tie a.now H a.act hd hq hs
    exact ih (H.act hash parses a.tie a.now a.act) k1 k2

private theorem pgLive_trace_append (hash : HashFn) (parses : Parses) (defs : List Runner) (s : PgLive) (as bs : List TPLAct) :
    s.trace hash parses defs (as ++ bs) = s.trace hash parses defs as ++ (s.run hash parses defs as).trace hash parses defs bs := by
  induction as generalizing s with
  | nil => rfl
  | cons a as ih => simp only [List.cons_append, PgLive.trace, PgLive.run, ih]

/-- What an action does to the nodes and streams is an action of theirs. -/
theorem pgLive_net_step (hash : HashFn) (parses : Parses) (defs : List Runner) (tie : Int → Nat) (now : Time) (s : PgLive) (a : PLAct) :
    ∃ b, (s.act hash parses defs tie now a).2.net = (s.net.step hash parses tie now b).2 := ⟨_, (plView_step hash parses defs tie now s a).1⟩

/-- A runner that has subscribed. -/
theorem pl_begun (hash : HashFn) (parses : Parses) (defs : List Runner) (on : List Nat) (r n i : Nat) (d : Runner) (hd : defs[r]? = some d)
    (p : List TPLAct) (t₀ : Time) (tie : Int → Nat)
    (hbegin : (((PgLive.init defs on).run hash parses defs p).act hash parses defs tie t₀ (.begin r)).1 = .begun r)
    (hon : (((PgLive.init defs on).run hash parses defs p).runners[r]?.map (·.node)) = some n)
    (hi : i = ((PgLive.init defs on).run hash parses defs p).net.readers.length) :
    ∃ q, ((PgLive.init defs on).run hash parses defs (p ++ [⟨t₀, tie, .begin r⟩])).net =
      { ((PgLive.init defs on).run hash parses defs p).net with
        readers := ((PgLive.init defs on).run hash parses defs p).net.readers ++ [{ node := n, executor := d.name }] } ∧
      PLTrack defs r i ((PgLive.init defs on).run hash parses defs (p ++ [⟨t₀, tie, .begin r⟩])) q { node := n, executor := d.name } t₀ t₀ t₀ := by
  rw [pgLive_run_append]
  generalize (PgLive.init defs on).run hash parses defs p = s at *
  cases hq : s.runners[r]? with
  | none => rw [hq] at hon; cases hon
  | some q =>
    rw [hq] at hon
    simp only [Option.map_some, Option.some.injEq] at hon
    simp only [PgLive.act, hd, hq] at hbegin
    split at hbegin
    · rename_i hn
      have hnet : (s.run hash parses defs [⟨t₀, tie, .begin r⟩]) =
          { net := { s.net with readers := s.net.readers ++ [{ node := n, executor := d.name }] }
            runners := s.runners.set r { q with stream := some s.net.readers.length } } := by
        simp only [PgLive.run, PgLive.act, hd, hq, hn, if_true, PgNet.step, hon]
      rw [hnet]
      refine ⟨{ q with stream := some s.net.readers.length }, rfl, ?_, by rw [hi], ?_, Int.le_refl _, fun h => (h rfl).elim, nofun, nofun, nofun,
        fun _ => Int.le_refl _⟩
      · exact List.getElem?_set_self (List.getElem?_eq_some_iff.mp hq).1
      · rw [hi]; simp
    · cases hbegin

/-- Both on-time theorems: if `L`, the node of the runner listens; if not, it is the timer that helps. -/
private theorem pg_runner_begins (L : Prop) (hash : HashFn) (parses : Parses) {ε δ D : Delta} (hε : 0 ≤ ε) (hδ : 0 ≤ δ) (hD : 0 ≤ D)
    (defs : List Runner) (on : List Nat) (r n i : Nat) (d : Runner) (hd : defs[r]? = some d) (p as bs : List TPLAct) (t₀ t₁ W : Time)
    (tie : Int → Nat) (j : Row) (node node₁ : PgNode)
    (hbegin : (((PgLive.init defs on).run hash parses defs p).act hash parses defs tie t₀ (.begin r)).1 = .begun r)
    (hon : (((PgLive.init defs on).run hash parses defs p).runners[r]?.map (·.node)) = some n)
    (hi : i = ((PgLive.init defs on).run hash parses defs p).net.readers.length)
    (h0 : L → ((PgLive.init defs on).run hash parses defs p).net.nodes[n]? = some node) (hl0 : L → node.listening = true)
    (hun : L → ∀ a ∈ as ++ bs, a.act ≠ .reconnect n)
    (h1 : L → ((PgLive.init defs on).run hash parses defs (p ++ ⟨t₀, tie, .begin r⟩ :: as)).net.nodes[n]? = some node₁)
    (h2 : L → ∃ node₂, ((PgLive.init defs on).run hash parses defs (p ++ ⟨t₀, tie, .begin r⟩ :: as ++ bs)).net.nodes[n]? = some node₂ ∧
      node₂.listening = true)
    (hW : (L → W = t₁ + node₁.inbox.length * δ) ∧ (¬ L → W = t₁ + 30000000000 + 2 * ε))
    (hc : (t₀ :: (as.map (·.now) ++ t₁ :: bs.map (·.now))).Pairwise (· ≤ ·))
    (hp : PLPrompt L hash parses ε δ D defs r n t₀ t₀ t₀ ((PgLive.init defs on).run hash parses defs (p ++ [⟨t₀, tie, .begin r⟩])) (as ++ bs))
    (hj : j ∈ ((PgLive.init defs on).run hash parses defs (p ++ ⟨t₀, tie, .begin r⟩ :: as)).net.conc.pg.rows)
    (hw : j.status = .scheduled ∨ j.status = .retryable) (hx : j.executor = d.name) (hdue : j.scheduledAt ≤ t₁)
    (hfree : ¬ ((PgLive.init defs on).run hash parses defs (p ++ ⟨t₀, tie, .begin r⟩ :: as)).net.otherHolds i j.id)
    (hleft : ∀ bs₁ b bs₂, bs = bs₁ ++ b :: bs₂ →
      (∀ e ∈ ((PgLive.init defs on).run hash parses defs (p ++ ⟨t₀, tie, .begin r⟩ :: as)).trace hash parses defs bs₁,
        ∀ ev, e.ev.back = some ev → ev.handsOut j.id = false) →
      ∀ ev, (((PgLive.init defs on).run hash parses defs (p ++ ⟨t₀, tie, .begin r⟩ :: as ++ bs₁)).act hash parses defs b.tie b.now b.act).1.back = some ev →
        (ev.touches j.id = true → ev.handsOut j.id = true) ∧
        ev.QueuesBehind j b.now ((PgLive.init defs on).run hash parses defs (p ++ ⟨t₀, tie, .begin r⟩ :: as ++ bs₁)).net.conc.pg.rows)
    (hok : ∀ e ∈ ((PgLive.init defs on).run hash parses defs (p ++ ⟨t₀, tie, .begin r⟩ :: as)).trace hash parses defs bs, e.ev.errs r = false)
    (N : Nat) (hN : ((PgLive.init defs on).run hash parses defs (p ++ ⟨t₀, tie, .begin r⟩ :: as)).net.conc.pg.rows.countP
        (fun a => decide (RowAhead j a)) +
      ((PgLive.init defs on).run hash parses defs (p ++ ⟨t₀, tie, .begin r⟩ :: as)).net.conc.sessions.countP (fun s => s.takesFor d.name) = N)
    (B : Time) (hB : B = W + 15000000 + 10 * ε + D + (N + 1) * (7 * ε + D))
    (hlate : ∃ b ∈ bs, B < b.now) :
    ∃ bs₁ b bs₂, bs = bs₁ ++ b :: bs₂ ∧ b.now ≤ B ∧
      ((∃ was ans jb, (((PgLive.init defs on).run hash parses defs (p ++ ⟨t₀, tie, .begin r⟩ :: as ++ bs₁)).act hash parses defs b.tie b.now b.act).1 =
          .moved r was ans (.returned i jb) (some (d.start jb)) ∧ jb.id = j.id) ∨
        (((PgLive.init defs on).run hash parses defs (p ++ ⟨t₀, tie, .begin r⟩ :: as ++ bs₁)).act hash parses defs b.tie b.now b.act).2.net.otherHolds i j.id) := by
  have e1 : (PgLive.init defs on).run hash parses defs (p ++ ⟨t₀, tie, .begin r⟩ :: as) =
      ((PgLive.init defs on).run hash parses defs (p ++ [⟨t₀, tie, .begin r⟩])).run hash parses defs as := by
    rw [← pgLive_run_append]; simp
  have e2 : ∀ l, (PgLive.init defs on).run hash parses defs (p ++ ⟨t₀, tie, .begin r⟩ :: as ++ l) =
      ((PgLive.init defs on).run hash parses defs (p ++ ⟨t₀, tie, .begin r⟩ :: as)).run hash parses defs l := fun l => pgLive_run_append _ _ _ _ _ l
  -- the runner has subscribed
  obtain ⟨q₀, hs0, T0⟩ := pl_begun hash parses defs on r n i d hd p t₀ tie hbegin hon hi
  have H0 : PgLiveInv defs ((PgLive.init defs on).run hash parses defs (p ++ [⟨t₀, tie, .begin r⟩])) := pgLive_inv_run (pgLiveInv_init defs on) _
  have hcall : (t₀ :: (as ++ bs).map (·.now)).Pairwise (· ≤ ·) := by
    refine hc.sublist (List.Sublist.cons_cons _ ?_)
    rw [List.map_append]
    exact List.Sublist.append_left (List.sublist_cons_self _ _) _
  have hnp := netPrompt_of hε hD H0 hd T0 (as ++ bs) hcall hp
  have hproj : plProject hash parses defs ((PgLive.init defs on).run hash parses defs (p ++ [⟨t₀, tie, .begin r⟩])) (as ++ bs) =
      plProject hash parses defs ((PgLive.init defs on).run hash parses defs (p ++ [⟨t₀, tie, .begin r⟩])) as ++
      plProject hash parses defs ((PgLive.init defs on).run hash parses defs (p ++ ⟨t₀, tie, .begin r⟩ :: as)) bs := by
    rw [plProject_append, e1]
  rw [hproj] at hnp
  have hr₀ : ((PgLive.init defs on).run hash parses defs (p ++ [⟨t₀, tie, .begin r⟩])).net.readers[i]? = some { node := n, executor := d.name } := T0.hr
  have hn₀ : L → ((PgLive.init defs on).run hash parses defs (p ++ [⟨t₀, tie, .begin r⟩])).net.nodes[n]? = some node := fun hL => by rw [hs0]; exact h0 hL
  have hunp : L → Unbroken n (plProject hash parses defs ((PgLive.init defs on).run hash parses defs (p ++ [⟨t₀, tie, .begin r⟩])) as ++
      plProject hash parses defs ((PgLive.init defs on).run hash parses defs (p ++ ⟨t₀, tie, .begin r⟩ :: as)) bs) := by
    intro hL
    rw [← hproj]
    exact plProject_unbroken _ _ _ _ _ _ (hun hL)
  have hrunAs : ((PgLive.init defs on).run hash parses defs (p ++ ⟨t₀, tie, .begin r⟩ :: as)).net =
      ((PgLive.init defs on).run hash parses defs (p ++ [⟨t₀, tie, .begin r⟩])).net.run hash parses
        (plProject hash parses defs ((PgLive.init defs on).run hash parses defs (p ++ [⟨t₀, tie, .begin r⟩])) as) := by
    rw [e1, plProject_run]
  have hrunAll : ((PgLive.init defs on).run hash parses defs (p ++ ⟨t₀, tie, .begin r⟩ :: as ++ bs)).net =
      ((PgLive.init defs on).run hash parses defs (p ++ [⟨t₀, tie, .begin r⟩])).net.run hash parses
        (plProject hash parses defs ((PgLive.init defs on).run hash parses defs (p ++ [⟨t₀, tie, .begin r⟩])) as ++
          plProject hash parses defs ((PgLive.init defs on).run hash parses defs (p ++ ⟨t₀, tie, .begin r⟩ :: as)) bs) := by
    rw [pgnet_run_append, ← hrunAs, e2, plProject_run]
  have hreach : ((PgLive.init defs on).run hash parses defs (p ++ ⟨t₀, tie, .begin r⟩ :: as)).net =
      PgNet.run hash parses {} (plProject hash parses defs (PgLive.init defs on) (p ++ ⟨t₀, tie, .begin r⟩ :: as)) := by
    rw [plProject_run]; rfl
  have hreach0 : PgInv ((PgLive.init defs on).run hash parses defs (p ++ [⟨t₀, tie, .begin r⟩])).net.conc := by
    rw [plProject_run]
    exact pgnet_reach_inv _
  have hlag0 : pgLag ε D (plFrom D (((PgLive.init defs on).run hash parses defs (p ++ [⟨t₀, tie, .begin r⟩])).room defs r) t₀ t₀) t₀
      ((PgLive.init defs on).run hash parses defs (p ++ [⟨t₀, tie, .begin r⟩])).net.conc { node := n, executor := d.name } := by
    simp only [pgLag, plFrom]
    split <;> simp only [Time, Delta] at * <;> omega
  obtain ⟨nd, rd, m, u, t, g1, g2, g3, g4, g5, g6, hsh, g7, g8, g9⟩ := netLag_run (u := t₀) (w := t₁) hD _ _ hr₀ rfl hn₀ hl0 hlag0 trivial (Int.le_refl _)
    (by rw [plProject_now, plProject_now]; exact hc) hnp hunp (hrunAll ▸ h2)
  have ht : t ≤ t₁ := List.rel_of_pairwise_cons g8 (by simp)
  rw [← hrunAs] at g3 g6 g9
  simp only at g4
  have htW : t₁ ≤ W := by
    by_cases hL : L
    · have : 0 ≤ (node₁.inbox.length : Int) * δ := Int.mul_nonneg (Int.natCast_nonneg _) hδ
      have := hW.1 hL
      simp only [Time, Delta] at *; omega
    · have := hW.2 hL
      simp only [Time, Delta] at *; omega
  have hT : j.scheduledAt ≤ W := Int.le_trans hdue htW
  have htT : t ≤ W := Int.le_trans ht htW
  have hnear : (pgDozing ε t₁ m rd.wait ∧ t₁ + 30000000000 + 2 * ε ≤ W) ∨
      pgNear ε D j W m (L ∧ heardBy δ rd.executor u W node₁)
        ((PgLive.init defs on).run hash parses defs (p ++ ⟨t₀, tie, .begin r⟩ :: as)).net.conc rd := by
    by_cases hL : L
    · right
      obtain ⟨r', k1, k2, k3⟩ := pgnet_covered_run (hash := hash) (parses := parses) hreach0 hr₀ rfl (hn₀ hL) (hl0 hL)
        (fun _ _ _ _ => .inr (.inr trivial)) _ (fun b hb => hunp hL b (List.mem_append_left _ hb)) (hrunAs ▸ h1 hL)
        (by
          have g1 := g1 hL
          rw [← hrunAs, h1 hL, Option.some.injEq] at g1
          rw [g1]; exact g2 hL)
      rw [← hrunAs] at k1 k3
      rw [g3, Option.some.injEq] at k1
      subst k1
      have hcov := k3 j hj hw (hx.trans g4.symm)
      have hheard : node₁.pending rd.executor ≠ [] → heardBy δ rd.executor u W node₁ := by
        intro h
        simp only [PgNode.pending, ne_eq, List.map_eq_nil_iff, List.filter_eq_nil_iff, Classical.not_forall, Classical.not_not] at h
        obtain ⟨z, hz, hz'⟩ := h
        obtain ⟨q, hq⟩ := List.mem_iff_getElem?.mp hz
        refine ⟨q, z, hq, by simpa using hz', ?_⟩
        have hlt := (List.getElem?_eq_some_iff.mp hq).1
        have : ((q : Int) + 1) * δ ≤ node₁.inbox.length * δ := Int.mul_le_mul_of_nonneg_right (by omega) hδ
        have := hW.1 hL
        simp only [Time, Delta] at *; omega
      refine pgNear_start hε hD g6 htT hT ?_
      rcases hcov with h | h | h
      · exact .inl (.inl h)
      · exact .inl (.inr ⟨hL, hheard h⟩)
      · exact .inr h
    · have hW := hW.2 hL
      cases hwt : rd.wait with
      | ready => exact .inr (pgNear_start hε hD g6 htT hT (.inr (by rw [hwt]; trivial)))
      | looked f =>
        simp only [pgLag, hwt] at g6
        exact .inl ⟨Int.le_trans g6 ht, Int.le_of_eq hW.symm⟩
      | decided c d =>
        simp only [pgLag, hwt] at g6
        rw [hwt] at hsh
        refine .inl ⟨⟨?_, hsh⟩, Int.le_of_eq hW.symm⟩
        simp only [Time, Delta] at *; omega
      | loading c d k =>
        refine .inr (pgNear_start hε hD g6 htT hT (.inr ?_))
        simp only [pgLag, hwt] at g6
        rw [hwt]
        exact .inr g6.2.2.1
      | asleep c since d =>
        simp only [pgLag, hwt] at g6
        rw [hwt] at hsh
        right
        simp only [pgNear, hwt]
        left
        obtain ⟨k4, k5, k6, k7⟩ := g6
        simp only [pgWaitsShort, Time, Delta, ms] at *; omega
  have hway : OnItsWay L ε δ D i n j t₁ W W
      ((PgLive.init defs on).run hash parses defs (p ++ ⟨t₀, tie, .begin r⟩ :: as)).net rd node₁ m u t :=
    by
    refine ⟨by rw [hreach]; exact pgnet_reach_inv _, g3, g5, h1, fun hL => ?_, g6, hnear, hj, hx.trans g4.symm⟩
    have g1 := g1 hL
    rw [← hrunAs, h1 hL, Option.some.injEq] at g1
    rw [g1]; exact g2 hL
  have g8' : (t :: bs.map (·.now)).Pairwise (· ≤ ·) := by
    rw [plProject_now, List.pairwise_cons] at g8
    rw [List.pairwise_cons]
    exact ⟨fun a ha => g8.1 a (List.mem_cons_of_mem _ ha), List.Pairwise.of_cons g8.2⟩
  have hbig : ∀ b ∈ bs, t₁ ≤ b.now := by
    intro b hb
    rw [plProject_now, List.pairwise_cons] at g8
    exact List.rel_of_pairwise_cons g8.2 (List.mem_map_of_mem hb)
  have hrunBs : ∀ l, ((PgLive.init defs on).run hash parses defs (p ++ ⟨t₀, tie, .begin r⟩ :: as ++ l)).net =
      ((PgLive.init defs on).run hash parses defs (p ++ ⟨t₀, tie, .begin r⟩ :: as)).net.run hash parses
        (plProject hash parses defs ((PgLive.init defs on).run hash parses defs (p ++ ⟨t₀, tie, .begin r⟩ :: as)) l) := by
    intro l
    rw [e2, plProject_run]
  have H1 : ∀ l, PgLiveInv defs ((PgLive.init defs on).run hash parses defs (p ++ ⟨t₀, tie, .begin r⟩ :: as ++ l)) :=
    fun l => pgLive_inv_run (pgLiveInv_init defs on) _
  -- the runner keeps its stream
  have hkeep : ∀ (l : List TPLAct), ∃ q, ((PgLive.init defs on).run hash parses defs (p ++ ⟨t₀, tie, .begin r⟩ :: l)).runners[r]? = some q ∧
      q.stream = some i := by
    intro l
    have e : (PgLive.init defs on).run hash parses defs (p ++ ⟨t₀, tie, .begin r⟩ :: l) =
        ((PgLive.init defs on).run hash parses defs (p ++ [⟨t₀, tie, .begin r⟩])).run hash parses defs l := by
      rw [← pgLive_run_append]; simp
    rw [e]
    exact keeps_stream H0 hd T0.hq T0.hs l
  have hleft' : ((PgLive.init defs on).run hash parses defs (p ++ ⟨t₀, tie, .begin r⟩ :: as)).net.LeftAlone hash parses j
      (plProject hash parses defs ((PgLive.init defs on).run hash parses defs (p ++ ⟨t₀, tie, .begin r⟩ :: as)) bs) := by
    intro p' a q' e hno ev hev
    obtain ⟨bs₁, b, bs₂, c1, c2, c3⟩ := plProject_split e
    subst c2 c3
    rw [plProject_events] at hno
    rw [← hrunBs] at hev ⊢
    simp only at hev ⊢
    rw [← e2, ← (plView_step hash parses defs b.tie b.now _ b.act).2] at hev
    exact hleft bs₁ b bs₂ c1 (fun e he ev hb => hno ev (List.mem_filterMap.mpr ⟨e, he, hb⟩)) ev hev
  have hok' : ∀ p' a q', plProject hash parses defs ((PgLive.init defs on).run hash parses defs (p ++ ⟨t₀, tie, .begin r⟩ :: as)) bs = p' ++ a :: q' →
      ((((PgLive.init defs on).run hash parses defs (p ++ ⟨t₀, tie, .begin r⟩ :: as)).net.run hash parses p').step hash parses a.tie a.now a.act).1.errs i =
        false := by
    intro p' a q' e
    obtain ⟨bs₁, b, bs₂, c1, c2, c3⟩ := plProject_split e
    subst c2 c3
    rw [← hrunBs]
    simp only
    rw [← e2]
    obtain ⟨q, b1, b2⟩ := hkeep (as ++ bs₁)
    rw [← List.cons_append, ← List.append_assoc] at b1
    obtain ⟨-, -, -, -, -, -, -, k7⟩ := plKind hash parses b.tie b.now (H1 bs₁) b.act hd b1 b2
    have hev := hok ⟨b.now, (((PgLive.init defs on).run hash parses defs (p ++ ⟨t₀, tie, .begin r⟩ :: as ++ bs₁)).act hash parses defs b.tie b.now b.act).1⟩ (by
      rw [c1, pgLive_trace_append, e2]
      exact List.mem_append_right _ List.mem_cons_self)
    refine Bool.eq_false_iff.mpr fun h => ?_
    rw [k7 h] at hev
    cases hev
  have hlate' : ∃ b ∈ plProject hash parses defs ((PgLive.init defs on).run hash parses defs (p ++ ⟨t₀, tie, .begin r⟩ :: as)) bs,
      W + 15 * ms + 10 * ε + D + (N + 1) * (7 * ε + D) < b.now := by
    obtain ⟨b, hb, hlt⟩ := hlate
    have hm := List.mem_map_of_mem (f := (·.now)) hb
    rw [← plProject_now hash parses defs ((PgLive.init defs on).run hash parses defs (p ++ ⟨t₀, tie, .begin r⟩ :: as)) bs] at hm
    obtain ⟨b', hb', e⟩ := List.mem_map.mp hm
    refine ⟨b', hb', ?_⟩
    rw [e]
    simp only [Time, Delta, ms] at *; omega
  have hdue' : ∀ a ∈ plProject hash parses defs ((PgLive.init defs on).run hash parses defs (p ++ ⟨t₀, tie, .begin r⟩ :: as)) bs, j.scheduledAt ≤ a.now := by
    intro a ha
    have hm := List.mem_map_of_mem (f := (·.now)) ha
    rw [plProject_now] at hm
    obtain ⟨b', hb', e⟩ := List.mem_map.mp hm
    rw [← e]
    exact Int.le_trans hdue (hbig b' hb')
  have hend := hrunBs bs ▸ h2
  rw [← hx] at hN
  have g8'' := g8'
  rw [← plProject_now hash parses defs ((PgLive.init defs on).run hash parses defs (p ++ ⟨t₀, tie, .begin r⟩ :: as)) bs] at g8''
  rw [hreach] at hway g9 hend hleft' hok' hfree hN
  obtain ⟨p', a, q', c1, c2, c3⟩ := OnItsWay.returns hε hδ hD hway hT (Int.le_refl _) hw _ g8'' hdue' g9
    (fun hL b hb => hunp hL b (List.mem_append_right _ hb)) hend hleft' hok' hfree (Nat.le_of_eq hN) hlate'
  obtain ⟨bs₁, b, bs₂, d1, d2, d3⟩ := plProject_split c1
  subst d2 d3
  refine ⟨bs₁, b, bs₂, d1, by simp only [Time, Delta, ms] at *; omega, ?_⟩
  rw [← hreach, ← hrunBs] at c3
  simp only at c3
  rw [← e2] at c3
  rcases c3 with ⟨jb, c3, c4⟩ | c3
  · left
    obtain ⟨q, b1, b2⟩ := hkeep (as ++ bs₁)
    rw [← List.cons_append, ← List.append_assoc] at b1
    obtain ⟨-, -, -, -, -, -, k6, -⟩ := plKind hash parses b.tie b.now (H1 bs₁) b.act hd b1 b2
    obtain ⟨w, ans, k6⟩ := k6 jb c3
    exact ⟨w, ans, jb, k6, c4⟩
  · right
    rw [(plView_step hash parses defs b.tie b.now _ b.act).1]
    exact c3

/-- **C124, on Postgres.** Runner `r` subscribes at `t₀` on a node whose listener is running and stays
so. From then on its stream makes each of its steps within `ε` of when it first can and the runner has
room; the runner is never without room for longer than `D`; the listener handles each notification
within `δ`; clocks do not run backwards. At `t₁` a row of its executor waits that is due and that no
other session has locked; until it is handed out it is left alone and nothing is put in front of it.
The stream returns no errors. Take the time by which the listener has handled what is in its inbox at
`t₁`. By 15 ms + 10 `ε` + `D` after that, and another 7 `ε` + `D` for every row ahead of it at `t₁`, every
hand-out under way then, and one more, the runner has begun with the job – or another session has
locked the row. -/
theorem C124_on_postgres (hash : HashFn) (parses : Parses) {ε δ D : Delta} (hε : 0 ≤ ε) (hδ : 0 ≤ δ) (hD : 0 ≤ D) (defs : List Runner)
    (on : List Nat) (r n i : Nat) (d : Runner) (hd : defs[r]? = some d) (p as bs : List TPLAct) (t₀ t₁ : Time) (tie : Int → Nat) (j : Row)
    (node node₁ node₂ : PgNode)
    (hbegin : (((PgLive.init defs on).run hash parses defs p).act hash parses defs tie t₀ (.begin r)).1 = .begun r)
    (hon : (((PgLive.init defs on).run hash parses defs p).runners[r]?.map (·.node)) = some n)
    (hi : i = ((PgLive.init defs on).run hash parses defs p).net.readers.length)
    (h0 : ((PgLive.init defs on).run hash parses defs p).net.nodes[n]? = some node) (hl0 : node.listening = true)
    (hun : ∀ a ∈ as ++ bs, a.act ≠ .reconnect n)
    (h1 : ((PgLive.init defs on).run hash parses defs (p ++ ⟨t₀, tie, .begin r⟩ :: as)).net.nodes[n]? = some node₁)
    (h2 : ((PgLive.init defs on).run hash parses defs (p ++ ⟨t₀, tie, .begin r⟩ :: as ++ bs)).net.nodes[n]? = some node₂)
    (hl2 : node₂.listening = true)
    (hc : (t₀ :: (as.map (·.now) ++ t₁ :: bs.map (·.now))).Pairwise (· ≤ ·))
    (hp : PromptPgRunner hash parses ε δ D defs r n t₀ t₀ t₀ ((PgLive.init defs on).run hash parses defs (p ++ [⟨t₀, tie, .begin r⟩])) (as ++ bs))
    (hj : j ∈ ((PgLive.init defs on).run hash parses defs (p ++ ⟨t₀, tie, .begin r⟩ :: as)).net.conc.pg.rows)
    (hw : j.status = .scheduled ∨ j.status = .retryable) (hx : j.executor = d.name) (hdue : j.scheduledAt ≤ t₁)
    (hfree : ¬ ((PgLive.init defs on).run hash parses defs (p ++ ⟨t₀, tie, .begin r⟩ :: as)).net.otherHolds i j.id)
    (hleft : ∀ bs₁ b bs₂, bs = bs₁ ++ b :: bs₂ →
      (∀ e ∈ ((PgLive.init defs on).run hash parses defs (p ++ ⟨t₀, tie, .begin r⟩ :: as)).trace hash parses defs bs₁,
        ∀ ev, e.ev.back = some ev → ev.handsOut j.id = false) →
      ∀ ev, (((PgLive.init defs on).run hash parses defs (p ++ ⟨t₀, tie, .begin r⟩ :: as ++ bs₁)).act hash parses defs b.tie b.now b.act).1.back = some ev →
        (ev.touches j.id = true → ev.handsOut j.id = true) ∧
        ev.QueuesBehind j b.now ((PgLive.init defs on).run hash parses defs (p ++ ⟨t₀, tie, .begin r⟩ :: as ++ bs₁)).net.conc.pg.rows)
    (hok : ∀ e ∈ ((PgLive.init defs on).run hash parses defs (p ++ ⟨t₀, tie, .begin r⟩ :: as)).trace hash parses defs bs, e.ev.errs r = false)
    (N : Nat) (hN : ((PgLive.init defs on).run hash parses defs (p ++ ⟨t₀, tie, .begin r⟩ :: as)).net.conc.pg.rows.countP
        (fun a => decide (RowAhead j a)) +
      ((PgLive.init defs on).run hash parses defs (p ++ ⟨t₀, tie, .begin r⟩ :: as)).net.conc.sessions.countP (fun s => s.takesFor d.name) = N)
    (B : Time) (hB : B = t₁ + node₁.inbox.length * δ + 15000000 + 10 * ε + D + (N + 1) * (7 * ε + D))
    (hlate : ∃ b ∈ bs, B < b.now) :
    ∃ bs₁ b bs₂, bs = bs₁ ++ b :: bs₂ ∧ b.now ≤ B ∧
      ((∃ was ans jb, (((PgLive.init defs on).run hash parses defs (p ++ ⟨t₀, tie, .begin r⟩ :: as ++ bs₁)).act hash parses defs b.tie b.now b.act).1 =
          .moved r was ans (.returned i jb) (some (d.start jb)) ∧ jb.id = j.id) ∨
        (((PgLive.init defs on).run hash parses defs (p ++ ⟨t₀, tie, .begin r⟩ :: as ++ bs₁)).act hash parses defs b.tie b.now b.act).2.net.otherHolds i j.id) :=
  pg_runner_begins True hash parses hε hδ hD defs on r n i d hd p as bs t₀ t₁ (t₁ + node₁.inbox.length * δ) tie j node node₁ hbegin hon hi
    (fun _ => h0) (fun _ => hl0) (fun _ => hun) (fun _ => h1) (fun _ => ⟨node₂, h2, hl2⟩) ⟨fun _ => rfl, fun h => (h trivial).elim⟩ hc
    (plPrompt_of_prompt hp) hj hw hx hdue hfree hleft hok N hN B hB hlate

/-- **C138, on Postgres.** Runner `r` subscribes at `t₀` on any node; its listener may not run, may end,
lose notifications and take its time. From then on the stream of the runner makes each of its steps
within `ε` of when it first can and the runner has room; the runner is never without room for longer
than `D`; clocks do not run backwards. At `t₁` a row of its executor waits that is due and that no other
session has locked; until it is handed out it is left alone and nothing is put in front of it. The
stream returns no errors. By 30.015 s + 12 `ε` + `D` after `t₁`, and another 7 `ε` + `D` for every row ahead of
it at `t₁`, every hand-out under way then, and one more, the runner has begun with the job – or another
session has locked the row. -/
theorem C138_on_postgres (hash : HashFn) (parses : Parses) {ε D : Delta} (hε : 0 ≤ ε) (hD : 0 ≤ D) (defs : List Runner)
    (on : List Nat) (r i : Nat) (d : Runner) (hd : defs[r]? = some d) (p as bs : List TPLAct) (t₀ t₁ : Time) (tie : Int → Nat) (j : Row)
    (hbegin : (((PgLive.init defs on).run hash parses defs p).act hash parses defs tie t₀ (.begin r)).1 = .begun r)
    (hi : i = ((PgLive.init defs on).run hash parses defs p).net.readers.length)
    (hc : (t₀ :: (as.map (·.now) ++ t₁ :: bs.map (·.now))).Pairwise (· ≤ ·))
    (hp : PollingPgRunner hash parses ε D defs r t₀ t₀ ((PgLive.init defs on).run hash parses defs (p ++ [⟨t₀, tie, .begin r⟩])) (as ++ bs))
    (hj : j ∈ ((PgLive.init defs on).run hash parses defs (p ++ ⟨t₀, tie, .begin r⟩ :: as)).net.conc.pg.rows)
    (hw : j.status = .scheduled ∨ j.status = .retryable) (hx : j.executor = d.name) (hdue : j.scheduledAt ≤ t₁)
    (hfree : ¬ ((PgLive.init defs on).run hash parses defs (p ++ ⟨t₀, tie, .begin r⟩ :: as)).net.otherHolds i j.id)
    (hleft : ∀ bs₁ b bs₂, bs = bs₁ ++ b :: bs₂ →
      (∀ e ∈ ((PgLive.init defs on).run hash parses defs (p ++ ⟨t₀, tie, .begin r⟩ :: as)).trace hash parses defs bs₁,
        ∀ ev, e.ev.back = some ev → ev.handsOut j.id = false) →
      ∀ ev, (((PgLive.init defs on).run hash parses defs (p ++ ⟨t₀, tie, .begin r⟩ :: as ++ bs₁)).act hash parses defs b.tie b.now b.act).1.back = some ev →
        (ev.touches j.id = true → ev.handsOut j.id = true) ∧
        ev.QueuesBehind j b.now ((PgLive.init defs on).run hash parses defs (p ++ ⟨t₀, tie, .begin r⟩ :: as ++ bs₁)).net.conc.pg.rows)
    (hok : ∀ e ∈ ((PgLive.init defs on).run hash parses defs (p ++ ⟨t₀, tie, .begin r⟩ :: as)).trace hash parses defs bs, e.ev.errs r = false)
    (N : Nat) (hN : ((PgLive.init defs on).run hash parses defs (p ++ ⟨t₀, tie, .begin r⟩ :: as)).net.conc.pg.rows.countP
        (fun a => decide (RowAhead j a)) +
      ((PgLive.init defs on).run hash parses defs (p ++ ⟨t₀, tie, .begin r⟩ :: as)).net.conc.sessions.countP (fun s => s.takesFor d.name) = N)
    (B : Time) (hB : B = t₁ + 30000000000 + 2 * ε + 15000000 + 10 * ε + D + (N + 1) * (7 * ε + D))
    (hlate : ∃ b ∈ bs, B < b.now) :
    ∃ bs₁ b bs₂, bs = bs₁ ++ b :: bs₂ ∧ b.now ≤ B ∧
      ((∃ was ans jb, (((PgLive.init defs on).run hash parses defs (p ++ ⟨t₀, tie, .begin r⟩ :: as ++ bs₁)).act hash parses defs b.tie b.now b.act).1 =
          .moved r was ans (.returned i jb) (some (d.start jb)) ∧ jb.id = j.id) ∨
        (((PgLive.init defs on).run hash parses defs (p ++ ⟨t₀, tie, .begin r⟩ :: as ++ bs₁)).act hash parses defs b.tie b.now b.act).2.net.otherHolds i j.id) := by
  obtain ⟨q, hq⟩ : ∃ q, ((PgLive.init defs on).run hash parses defs p).runners[r]? = some q := by
    cases hq : ((PgLive.init defs on).run hash parses defs p).runners[r]? with
    | none => simp [PgLive.act, hd, hq] at hbegin
    | some q => exact ⟨q, rfl⟩
  exact pg_runner_begins False hash parses hε (Int.le_refl 0) hD defs on r q.node i d hd p as bs t₀ t₁ (t₁ + 30000000000 + 2 * ε) tie j {} {}
    hbegin (by rw [hq]; rfl) hi False.elim False.elim False.elim False.elim False.elim ⟨False.elim, fun _ => rfl⟩ hc
    (plPrompt_of_polling hp) hj hw hx hdue hfree hleft hok N hN B hB hlate

/-- A runner with room for one execution, which subscribed at `0` on the first node, goes to sleep; at
1 s two jobs are enqueued. -/
def pgLiveStart : List TPLAct :=
  [plAct 0 (.poll 0), plAct 0 (.step 0 false), plAct ms (.step 0 false), plAct (2 * ms) (.step 0 false), plAct (2 * ms) (.pend 0),
   plAct (1 * sec) (.db (.plain { sampleEnq with scheduledAt := 1 * sec })),
   plAct (1 * sec) (.db (.plain { sampleEnq with scheduledAt := 1 * sec }))]

/-- The listener handles both notifications; the stream wakes, looks and hands the first job out; the
job runs for a second; then the runner begins with the second. Each step of the stream is 1 ms after
the one before, or after there was room again. -/
def pgLiveRest : List TPLAct :=
  [plAct (1 * sec + ms) (.deliver 0), plAct (1 * sec + 2 * ms) (.deliver 0), plAct (1 * sec + 2 * ms) (.poll 0)] ++
  (List.range 8).map (fun (k : Nat) => plAct (1 * sec + 2 * ms + k * ms) (.step 0 false)) ++
  [plAct (2 * sec) (.finish 0 0 { ending := .returns .done }), plAct (2 * sec) (.report 0 0), plAct (2 * sec) (.poll 0)] ++
  (List.range 7).map (fun (k : Nat) => plAct (2 * sec + k * ms) (.step 0 false)) ++
  [plAct (3 * sec) (.finish 0 1 { ending := .returns .done }), plAct (3 * sec) (.report 0 1), plAct (3 * sec) (.poll 0)] ++
  (List.range 7).map (fun (k : Nat) => plAct (3 * sec + k * ms) (.step 0 false)) ++
  [plAct (8 * sec) .connect]

/-- The hypotheses are met by a runner and a listener that are never more than 1 ms late, and a job that
runs for a second: the second job is behind one other, and nothing of its executor is under way. -/
example : ((0 : Time) :: (pgLiveStart.map (·.now) ++ 1 * sec :: pgLiveRest.map (·.now))).Pairwise (· ≤ ·) ∧
    PromptPgRunner sampleHash sampleParses ms ms (2 * sec) [eagerRunner (some 1)] 0 0 0 0 0
      ((PgLive.init [eagerRunner (some 1)] [0]).run sampleHash sampleParses [eagerRunner (some 1)] [plAct 0 .connect, plAct 0 (.begin 0)])
      (pgLiveStart ++ pgLiveRest) ∧
    (let s := (PgLive.init [eagerRunner (some 1)] [0]).run sampleHash sampleParses [eagerRunner (some 1)]
        (plAct 0 .connect :: plAct 0 (.begin 0) :: pgLiveStart);
      s.net.nodes.map (fun n => (n.listening, n.inbox.length)) = [(true, 2)] ∧ s.net.conc.sessions = [] ∧
      ((PgLive.init [eagerRunner (some 1)] [0]).run sampleHash sampleParses [eagerRunner (some 1)]
        (plAct 0 .connect :: plAct 0 (.begin 0) :: (pgLiveStart ++ pgLiveRest))).net.nodes.map (·.listening) = [true, true] ∧
      (s.trace sampleHash sampleParses [eagerRunner (some 1)] pgLiveRest).all (fun e => !e.ev.errs 0) = true ∧
      ∃ j ∈ s.net.conc.pg.rows, j.id = 2 ∧ j.status = .scheduled ∧ j.executor = "mail" ∧ j.scheduledAt = 1 * sec ∧
        s.net.conc.pg.rows.countP (fun a => decide (RowAhead j a)) + s.net.conc.sessions.countP (fun s => s.takesFor "mail") = 1 ∧
        ∃ b ∈ pgLiveRest, 1 * sec + 2 * ms + 15000000 + 10 * ms + 2 * sec + (1 + 1) * (7 * ms + 2 * sec) < b.now) := by
  decide +kernel

/-- Nobody touches the second job before it is handed out, and nothing is put in front of it. -/
example : (List.range pgLiveRest.length).all (fun k =>
    let s := (PgLive.init [eagerRunner (some 1)] [0]).run sampleHash sampleParses [eagerRunner (some 1)]
      (plAct 0 .connect :: plAct 0 (.begin 0) :: (pgLiveStart ++ pgLiveRest.take k))
    match s.net.conc.pg.rows.find? (·.id == 2), pgLiveRest[k]? with
    | some j, some b =>
      match (s.act sampleHash sampleParses [eagerRunner (some 1)] b.tie b.now b.act).1.back with
      | some ev => j.status != .scheduled || ((!ev.touches 2 || ev.handsOut 2) && decide (ev.QueuesBehind j b.now s.net.conc.pg.rows))
      | none => true
    | _, _ => false) = true := by decide +kernel

/-- The runner begins with the jobs at 1.009 s and at 2.006 s. -/
example : (((PgLive.init [eagerRunner (some 1)] [0]).run sampleHash sampleParses [eagerRunner (some 1)]
      (plAct 0 .connect :: plAct 0 (.begin 0) :: pgLiveStart)).trace sampleHash sampleParses [eagerRunner (some 1)] pgLiveRest).filterMap
    (fun e => match e.ev with
      | .moved r _ _ (.returned _ j) (some (.running _)) => some (e.now, r, j.id)
      | _ => none) = [(1 * sec + 9 * ms, 0, 1), (2 * sec + 6 * ms, 0, 2)] := by decide +kernel

/-- A runner with room that does not poll its stream is not prompt, and neither is one that has no room
for longer than it may. -/
example : ¬ PromptPgRunner sampleHash sampleParses ms ms (2 * sec) [eagerRunner (some 1)] 0 0 0 0 0
      ((PgLive.init [eagerRunner (some 1)] [0]).run sampleHash sampleParses [eagerRunner (some 1)] [plAct 0 .connect, plAct 0 (.begin 0)])
      [plAct (2 * ms) .connect] ∧
    ¬ PromptPgRunner sampleHash sampleParses ms ms (500 * ms) [eagerRunner (some 1)] 0 0 0 0 0
      ((PgLive.init [eagerRunner (some 1)] [0]).run sampleHash sampleParses [eagerRunner (some 1)] [plAct 0 .connect, plAct 0 (.begin 0)])
      (pgLiveStart ++ pgLiveRest) := by decide +kernel

/-- The listener of the node ends; a runner with room for one execution goes to sleep; at 1 s a job is
enqueued. -/
def unheardStart : List TPLAct :=
  [plAct 0 (.fail 0), plAct 0 (.poll 0), plAct 0 (.step 0 false), plAct ms (.step 0 false), plAct (2 * ms) (.step 0 false), plAct (2 * ms) (.pend 0),
   plAct (1 * sec) (.db (.plain { sampleEnq with scheduledAt := 1 * sec }))]

/-- The timer of the stream runs out; it looks and hands the job out, which runs for a second. -/
def unheardRest : List TPLAct :=
  [plAct (30 * sec + 2 * ms) (.poll 0)] ++
  (List.range 8).map (fun (k : Nat) => plAct (30 * sec + 3 * ms + k * ms) (.step 0 true)) ++
  [plAct (31 * sec) (.finish 0 0 { ending := .returns .done }), plAct (31 * sec) (.report 0 0), plAct (31 * sec) (.poll 0)] ++
  (List.range 3).map (fun (k : Nat) => plAct (31 * sec + k * ms) (.step 0 false)) ++
  [plAct (60 * sec) .connect]

/-- The hypotheses of `C138_on_postgres` are met, and the runner begins with the job at 30.01 s. -/
example : ((0 : Time) :: (unheardStart.map (·.now) ++ 1 * sec :: unheardRest.map (·.now))).Pairwise (· ≤ ·) ∧
    PollingPgRunner sampleHash sampleParses ms (2 * sec) [eagerRunner (some 1)] 0 0 0
      ((PgLive.init [eagerRunner (some 1)] [0]).run sampleHash sampleParses [eagerRunner (some 1)] [plAct 0 .connect, plAct 0 (.begin 0)])
      (unheardStart ++ unheardRest) ∧
    (let s := (PgLive.init [eagerRunner (some 1)] [0]).run sampleHash sampleParses [eagerRunner (some 1)]
        (plAct 0 .connect :: plAct 0 (.begin 0) :: unheardStart);
      s.net.nodes.map (fun n => (n.listening, n.inbox.length)) = [(false, 0)] ∧ s.net.conc.sessions = [] ∧
      (s.trace sampleHash sampleParses [eagerRunner (some 1)] unheardRest).all (fun e => !e.ev.errs 0) = true ∧
      (∃ j ∈ s.net.conc.pg.rows, j.id = 1 ∧ j.status = .scheduled ∧ j.executor = "mail" ∧ j.scheduledAt = 1 * sec ∧
        s.net.conc.pg.rows.countP (fun a => decide (RowAhead j a)) + s.net.conc.sessions.countP (fun s => s.takesFor "mail") = 0 ∧
        ∃ b ∈ unheardRest, 1 * sec + 30000000000 + 2 * ms + 15000000 + 10 * ms + 2 * sec + (0 + 1) * (7 * ms + 2 * sec) < b.now) ∧
      (s.trace sampleHash sampleParses [eagerRunner (some 1)] unheardRest).filterMap (fun e => match e.ev with
        | .moved r _ _ (.returned _ j) (some (.running _)) => some (e.now, r, j.id)
        | _ => none) = [(30 * sec + 10 * ms, 0, 1)]) := by
  decide +kernel

/-- Nobody touches the job before it is handed out, and nothing is put in front of it. -/
example : (List.range unheardRest.length).all (fun k =>
    let s := (PgLive.init [eagerRunner (some 1)] [0]).run sampleHash sampleParses [eagerRunner (some 1)]
      (plAct 0 .connect :: plAct 0 (.begin 0) :: (unheardStart ++ unheardRest.take k))
    match s.net.conc.pg.rows.find? (·.id == 1), unheardRest[k]? with
    | some j, some b =>
      match (s.act sampleHash sampleParses [eagerRunner (some 1)] b.tie b.now b.act).1.back with
      | some ev => j.status != .scheduled || ((!ev.touches 1 || ev.handsOut 1) && decide (ev.QueuesBehind j b.now s.net.conc.pg.rows))
      | none => true
    | _, _ => false) = true := by decide +kernel

end Rexecutor
