import Verif.Model.PgLive

/-!
# Runners with streams and runners without, on Postgres

`PgSys` leaves out how a runner waits for a job. Every schedule of runners with their streams
(`PgLive`) is one of `PgSys`, with the same statements, executions and reports.
-/

namespace Rexecutor

/-- The session of the hand-out statement a stream waits for. -/
def PgWait.session : PgWait → Option Nat
  | .loading _ _ k => some k
  | _ => none

/-- A runner without its stream. -/
def PgLiveRunner.plain (R : List PgReader) (q : PgLiveRunner) : PgRunner where
  polling := q.polling
  loading := if q.polling then (q.stream.bind fun n => R[n]?).bind fun rd => rd.wait.session else none
  flights := q.flights

/-- The runners without their streams. -/
def PgLive.plain (s : PgLive) : PgSys where
  conc := s.net.conc
  runners := s.runners.map (·.plain s.net.readers)

/-- What an event is for somebody who does not see how the runners wait: what happens in the database,
the hand-out statements and their answers, the ends of executions, the reports, and the ends of
runners. -/
def PLEv.visible : PLEv → Option PSEv
  | .db ev => some (.db ev)
  | .moved r (.decided ..) _ (.db _ _) _ => some (.pulled r)
  | .moved _ (.loading ..) none (.db ev _) _ => some (.db ev)
  | .moved r (.loading ..) (some res) _ st => some (.took r res st)
  | .failed r true => some (.dropped r true)
  | .ended r t j o => some (.ended r t j o)
  | .reported r t ev => some (.reported r t ev)
  | .lost r t => some (.lost r t)
  | .stopped r w => some (.stopped r w)
  | .killed r => some (.killed r)
  | _ => none

/-- Streams of runners exist, are of the runners' executors, and are of one runner each. A runner polls
its stream only if it has room and has not stopped. -/
structure PgLiveInv (defs : List Runner) (s : PgLive) : Prop where
  bound : ∀ (r n : Nat) (q : PgLiveRunner), s.runners[r]? = some q → q.stream = some n → n < s.net.readers.length
  names : ∀ (r n : Nat) (q : PgLiveRunner) (d : Runner) (rd : PgReader), s.runners[r]? = some q → defs[r]? = some d →
    q.stream = some n → s.net.readers[n]? = some rd → rd.executor = d.name
  distinct : ∀ (r r' n : Nat) (q q' : PgLiveRunner), s.runners[r]? = some q → s.runners[r']? = some q' →
    q.stream = some n → q'.stream = some n → r = r'
  polls : ∀ (r : Nat) (q : PgLiveRunner), s.runners[r]? = some q → q.inPoll = true →
    q.polling = true ∧ ∀ d, defs[r]? = some d → belowLimit d.maxConcurrency q.inFlight = true

/-- What `PgSys` does for one action: nothing, or one action with the same event. -/
def PgSimStep (hash : HashFn) (defs : List Runner) (tie : Int → Nat) (now : Time) (t : PgSys) (v : Option PSEv) (t' : PgSys) : Prop :=
  (v = none ∧ t' = t) ∨ ∃ a, v = some (t.step hash defs tie now a).1 ∧ t' = (t.step hash defs tie now a).2

theorem plain_runner {s : PgLive} {r : Nat} {q : PgLiveRunner} (h : s.runners[r]? = some q) :
    s.plain.runners[r]? = some (q.plain s.net.readers) := by simp [PgLive.plain, h]

theorem plain_runner_none {s : PgLive} {r : Nat} (h : s.runners[r]? = none) : s.plain.runners[r]? = none := by
  rw [List.getElem?_eq_none_iff] at h ⊢
  simpa [PgLive.plain] using h

theorem plain_inFlight (R : List PgReader) (q : PgLiveRunner) : (q.plain R).inFlight = q.inFlight := rfl

/-- Which sessions the streams wait for. -/
private def waits (R : List PgReader) (n : Nat) : Option Nat := R[n]?.bind fun rd => rd.wait.session

private theorem plain_same {R R' : List PgReader} (q : PgLiveRunner) (h : ∀ n, q.stream = some n → waits R' n = waits R n) :
    q.plain R' = q.plain R := by
  simp only [PgLiveRunner.plain]
  congr 1
  split
  · cases hs : q.stream with
    | none => rfl
    | some n => exact h n hs
  · rfl

private theorem plain_set {l : List PgLiveRunner} {R R' : List PgReader} {r : Nat} {q' : PgLiveRunner}
    (h : ∀ (r' : Nat) (p : PgLiveRunner), r' ≠ r → l[r']? = some p → p.plain R' = p.plain R) :
    (l.set r q').map (·.plain R') = (l.map (·.plain R)).set r (q'.plain R') := by
  apply List.ext_getElem?
  intro x
  simp only [List.getElem?_map, List.getElem?_set, List.length_map]
  by_cases e : r = x
  · subst e
    simp only [if_true]
    split <;> rfl
  · simp only [e, if_false]
    cases hx : l[x]? with
    | none => rfl
    | some p => simp only [Option.map_some]; rw [h x p (fun h' => e h'.symm) hx]

private theorem plain_upd {s s' : PgLive} {r : Nat} {q' : PgLiveRunner} (hr : s'.runners = s.runners.set r q')
    (hn : ∀ n, waits s'.net.readers n = waits s.net.readers n) :
    s'.plain = { conc := s'.net.conc, runners := s.plain.runners.set r (q'.plain s.net.readers) } := by
  simp only [PgLive.plain, hr]
  congr 1
  rw [plain_set (R := s.net.readers) (R' := s'.net.readers) fun r' p _ _ => plain_same p fun n _ => hn n,
    plain_same q' fun n _ => hn n]

private theorem plain_put (s : PgLive) (r : Nat) (q' : PgLiveRunner) : ({ s with runners := s.runners.set r q' } : PgLive).plain =
    { conc := s.net.conc, runners := s.plain.runners.set r (q'.plain s.net.readers) } :=
  plain_upd (s := s) (s' := { s with runners := s.runners.set r q' }) rfl fun _ => rfl

private theorem plain_keep {s s' : PgLive} (hr : s'.runners = s.runners)
    (hn : ∀ n, waits s'.net.readers n = waits s.net.readers n) :
    s'.plain = { conc := s'.net.conc, runners := s.plain.runners } := by
  simp only [PgLive.plain, hr]
  congr 1
  exact List.map_congr_left fun p _ => plain_same p fun n _ => hn n

private theorem setWait_get (s : PgNet) (i n : Nat) (w : PgWait) :
    (s.setWait i w).readers[n]? = if i = n then s.readers[n]?.map (fun r => { r with wait := w }) else s.readers[n]? := by
  simp only [PgNet.setWait, List.getElem?_modify]
  by_cases e : i = n <;> simp [e]

private theorem setWait_waits {s : PgNet} {i : Nat} {w : PgWait} {rd : PgReader} (h : s.readers[i]? = some rd)
    (hw : w.session = rd.wait.session) (n : Nat) : waits (s.setWait i w).readers n = waits s.readers n := by
  simp only [waits, setWait_get]
  by_cases e : i = n
  · subst e; simp [h, hw]
  · simp [e]

private theorem setWait_other {s : PgNet} {i : Nat} {w : PgWait} {n : Nat} (h : n ≠ i) :
    waits (s.setWait i w).readers n = waits s.readers n := by
  have : i ≠ n := fun e => h e.symm
  simp [waits, setWait_get, this]

/-- What a step of a stream is for `PgSys`. -/
private theorem stream_kind (hash : HashFn) (parses : Parses) (tie : Int → Nat) (now : Time) (s : PgNet) (n : Nat) (b : Bool)
    {rd : PgReader} (hr : s.readers[n]? = some rd) :
    let x := s.step hash parses tie now (.stream n b)
    (rd.wait.session = none ∧ x.2.conc = s.conc ∧ (∀ k, waits x.2.readers k = waits s.readers k) ∧
      (∀ i j, x.1 ≠ .returned i j) ∧ ∀ e l, x.1 ≠ .db e l) ∨
    (∃ c dl, rd.wait = .decided c dl ∧ x.2.conc = (s.conc.step hash tie now (.handout rd.executor)).2 ∧
      (∃ e l, x.1 = .db e l) ∧ waits x.2.readers n = some s.conc.sessions.length ∧ ∀ k, k ≠ n → waits x.2.readers k = waits s.readers k) ∨
    (∃ c dl k, rd.wait = .loading c dl k ∧
      ((s.answer rd.wait = none ∧ x.2.conc = (s.conc.step hash tie now (.advance k)).2 ∧
          (∃ l, x.1 = .db (s.conc.step hash tie now (.advance k)).1 l) ∧ ∀ k, waits x.2.readers k = waits s.readers k) ∨
       ∃ res, s.answer rd.wait = some res ∧ s.conc.sessions[k]? = some (.done res) ∧ x.2.conc = s.conc ∧
          waits x.2.readers n = none ∧ (∀ k, k ≠ n → waits x.2.readers k = waits s.readers k) ∧
          ((∃ j, res = .job (some j) ∧ x.1 = .returned n j) ∨ ((∀ j, res ≠ .job (some j)) ∧ ∀ i j, x.1 ≠ .returned i j)))) := by
  have self : ∀ w : PgWait, waits (s.setWait n w).readers n = w.session := by
    intro w
    simp [waits, setWait_get, hr]
  simp only [PgNet.step, hr]
  simp only [PgNet.streamStep]
  cases hw : rd.wait with
  | ready => exact .inl ⟨rfl, rfl, setWait_waits hr (by rw [hw]; rfl), by simp, by simp⟩
  | looked f => exact .inl ⟨rfl, rfl, setWait_waits hr (by rw [hw]; rfl), by simp, by simp⟩
  | decided c dl =>
    simp only
    by_cases hd : dl ≤ pollDelta
    · rw [if_pos hd]
      refine .inr (.inl ⟨c, dl, rfl, rfl, ⟨_, _, rfl⟩, ?_, fun k hk => setWait_other hk⟩)
      simp [waits, setWait_get, PgNet.dbStep, hr, PgWait.session]
    · rw [if_neg hd]
      exact .inl ⟨rfl, rfl, setWait_waits hr (by rw [hw]; rfl), by simp, by simp⟩
  | asleep c since dl =>
    simp only
    refine .inl ⟨rfl, ?_⟩
    cases hqu : rd.queue with
    | nil =>
      simp only
      by_cases hdue : since + dl ≤ now
      · simp only [hdue, decide_true, if_true]
        exact ⟨rfl, setWait_waits hr (by rw [hw]; rfl), by simp, by simp⟩
      · simp only [hdue, decide_false, Bool.false_eq_true, if_false]
        exact ⟨trivial, fun _ => trivial, by simp, by simp⟩
    | cons t rest =>
      simp only
      split
      · exact ⟨rfl, setWait_waits hr (by rw [hw]; rfl), by simp, by simp⟩
      · refine ⟨rfl, fun k => ?_, by simp, by simp⟩
        simp only [waits, List.getElem?_modify]
        by_cases e : n = k
        · subst e; simp [hr, hw, PgWait.session]
        · simp [e]
  | loading c dl k =>
    refine .inr (.inr ⟨c, dl, k, rfl, ?_⟩)
    simp only [PgNet.answer]
    cases hs : s.conc.sessions[k]? with
    | none => exact .inl ⟨rfl, rfl, ⟨_, rfl⟩, fun _ => rfl⟩
    | some ss =>
      cases ss with
      | done res =>
        refine .inr ⟨res, rfl, rfl, ?_⟩
        cases res with
        | job o =>
          cases o with
          | some j => exact ⟨rfl, self _, fun k hk => setWait_other hk, .inl ⟨j, rfl, rfl⟩⟩
          | none => exact ⟨rfl, self _, fun k hk => setWait_other hk, .inr ⟨by simp, by simp⟩⟩
        | _ => exact ⟨rfl, self _, fun k hk => setWait_other hk, .inr ⟨by simp, by simp⟩⟩
      | _ => exact .inl ⟨rfl, rfl, ⟨_, rfl⟩, fun _ => rfl⟩

/-- The executors of the streams. -/
private def namesOf (R : List PgReader) (n : Nat) : Option String := R[n]?.map (·.executor)

private theorem names_setWait (s : PgNet) (i n : Nat) (w : PgWait) : namesOf (s.setWait i w).readers n = namesOf s.readers n := by
  simp only [namesOf, setWait_get]
  by_cases e : i = n
  · subst e; simp only [if_true]; cases s.readers[i]? <;> rfl
  · simp [e]

private theorem names_stream (hash : HashFn) (parses : Parses) (tie : Int → Nat) (now : Time) (s : PgNet) (a : NetAct)
    (ha : ∀ n x, a ≠ .subscribe n x) (m : Nat) : namesOf (s.step hash parses tie now a).2.readers m = namesOf s.readers m := by
  cases a with
  | db a => rfl
  | connect => rfl
  | subscribe n x => exact absurd rfl (ha n x)
  | deliver n =>
    simp only [PgNet.step, PgNet.deliver]
    split
    · rfl
    · split
      · rfl
      · split
        · simp only [namesOf, List.getElem?_map]
          cases s.readers[m]? with
          | none => rfl
          | some r => simp only [Option.map_some]; split <;> rfl
        · rfl
  | reconnect n => rfl
  | fail n => rfl
  | stream i b =>
    simp only [PgNet.step]
    cases hr : s.readers[i]? with
    | none => rfl
    | some r =>
      simp only [PgNet.streamStep]
      cases r.wait with
      | ready => exact names_setWait ..
      | looked f => exact names_setWait ..
      | decided c dl =>
        simp only
        split
        · exact names_setWait ..
        · exact names_setWait ..
      | asleep c since dl =>
        simp only
        split
        · split
          · exact names_setWait ..
          · simp only [namesOf, List.getElem?_modify]
            by_cases e : i = m
            · subst e; simp [hr]
            · simp [e]
        · split
          · exact names_setWait ..
          · rfl
      | loading c dl k =>
        simp only
        split <;> first | exact names_setWait .. | rfl
  | streamFails i =>
    simp only [PgNet.step]
    split
    · rfl
    · exact names_setWait ..
    · rfl

private theorem names_length {R R' : List PgReader} (h : ∀ n, namesOf R' n = namesOf R n) : R'.length = R.length := by
  rcases Nat.lt_trichotomy R'.length R.length with hl | hl | hl
  · have := h R'.length
    simp [namesOf, List.getElem?_eq_getElem hl] at this
  · exact hl
  · have := h R.length
    simp [namesOf, List.getElem?_eq_getElem hl] at this

private theorem live_set {l : List PgLiveRunner} {x r : Nat} {p q : PgLiveRunner} (h : (l.set x p)[r]? = some q) :
    (r = x ∧ q = p) ∨ (r ≠ x ∧ l[r]? = some q) := by
  rw [List.getElem?_set] at h
  by_cases e : x = r
  · subst e
    rw [if_pos rfl] at h
    by_cases hl : x < l.length
    · rw [if_pos hl] at h; cases h; exact .inl ⟨rfl, rfl⟩
    · rw [if_neg hl] at h; cases h
  · rw [if_neg e] at h
    exact .inr ⟨fun h' => e h'.symm, h⟩

private theorem pgInv_keep {defs : List Runner} {s s' : PgLive} (I : PgLiveInv defs s) (hr : s'.runners = s.runners)
    (hn : ∀ n, namesOf s'.net.readers n = namesOf s.net.readers n) : PgLiveInv defs s' := by
  refine ⟨by rw [hr, names_length hn]; exact I.bound, ?_, by rw [hr]; exact I.distinct, by rw [hr]; exact I.polls⟩
  intro r n q d rd hq hd hs hrd
  rw [hr] at hq
  have := hn n
  simp only [namesOf, hrd, Option.map_some] at this
  cases hrd0 : s.net.readers[n]? with
  | none => rw [hrd0] at this; cases this
  | some rd0 =>
    rw [hrd0] at this
    simp only [Option.map_some, Option.some.injEq] at this
    exact this.trans (I.names r n q d rd0 hq hd hs hrd0)

private theorem pgInv_set {defs : List Runner} {s s' : PgLive} (I : PgLiveInv defs s) {x : Nat} {q p : PgLiveRunner}
    (hq : s.runners[x]? = some q) (hp : p.stream = q.stream) (hr : s'.runners = s.runners.set x p)
    (hn : ∀ n, namesOf s'.net.readers n = namesOf s.net.readers n)
    (hpo : p.inPoll = true → p.polling = true ∧ ∀ d, defs[x]? = some d → belowLimit d.maxConcurrency p.inFlight = true) :
    PgLiveInv defs s' := by
  have back : ∀ (r n : Nat) (p' : PgLiveRunner), s'.runners[r]? = some p' → p'.stream = some n →
      ∃ q', s.runners[r]? = some q' ∧ q'.stream = some n := by
    intro r n p' h hs
    rw [hr] at h
    rcases live_set h with ⟨rfl, rfl⟩ | ⟨-, h⟩
    · exact ⟨q, hq, hp ▸ hs⟩
    · exact ⟨p', h, hs⟩
  refine ⟨?_, ?_, ?_, ?_⟩
  · intro r n p' h hs
    obtain ⟨q', h1, h2⟩ := back r n p' h hs
    rw [names_length hn]
    exact I.bound r n q' h1 h2
  · intro r n p' d rd h hd hs hrd
    obtain ⟨q', h1, h2⟩ := back r n p' h hs
    have := hn n
    simp only [namesOf, hrd, Option.map_some] at this
    cases hrd0 : s.net.readers[n]? with
    | none => rw [hrd0] at this; cases this
    | some rd0 =>
      rw [hrd0] at this
      simp only [Option.map_some, Option.some.injEq] at this
      exact this.trans (I.names r n q' d rd0 h1 hd h2 hrd0)
  · intro r r' n p' p'' h h' hs hs'
    obtain ⟨q', h1, h2⟩ := back r n p' h hs
    obtain ⟨q'', h3, h4⟩ := back r' n p'' h' hs'
    exact I.distinct r r' n q' q'' h1 h3 h2 h4
  · intro r p' h hi
    rw [hr] at h
    rcases live_set h with ⟨rfl, rfl⟩ | ⟨-, h⟩
    · exact hpo hi
    · exact I.polls r p' h hi

private theorem flights_set_le {l : List (Option Flight)} {i : Nat} {v w : Option Flight} (h : l[i]? = some v)
    (hw : w.isSome = true → v.isSome = true) : ((l.set i w).filterMap id).length ≤ (l.filterMap id).length := by
  induction l generalizing i with
  | nil => simp at h
  | cons a l ih =>
    cases i with
    | zero =>
      simp only [List.getElem?_cons_zero, Option.some.injEq] at h
      subst h
      simp only [List.set_cons_zero]
      cases w with
      | none => cases a <;> simp
      | some f =>
        cases a with
        | none => simp at hw
        | some g => simp
    | succ i =>
      simp only [List.getElem?_cons_succ] at h
      simp only [List.set_cons_succ]
      have := ih h
      cases a <;> simp_all

private theorem limit_mono {l : Option Nat} {a b : Nat} (h : a ≤ b) (hb : belowLimit l b = true) : belowLimit l a = true := by
  cases l with
  | none => rfl
  | some l =>
    simp only [belowLimit, Bool.or_eq_true, decide_eq_true_eq] at hb ⊢
    rcases hb with h' | h'
    · exact .inl h'
    · exact .inr (by omega)

private theorem take_inPoll (d : Runner) (j : Job) (q : PgLiveRunner) : (q.take d j).inPoll = false := by
  unfold PgLiveRunner.take
  split <;> rfl

private theorem take_stream (d : Runner) (j : Job) (q : PgLiveRunner) : (q.take d j).stream = q.stream := by
  unfold PgLiveRunner.take
  split <;> rfl

theorem pgLiveInv_init (defs : List Runner) (on : List Nat) : PgLiveInv defs (PgLive.init defs on) := by
  have h : ∀ (r : Nat) (q : PgLiveRunner), (PgLive.init defs on).runners[r]? = some q → q.stream = none ∧ q.inPoll = false := by
    intro r q h
    simp only [PgLive.init, List.getElem?_map] at h
    cases hz : defs.zipIdx[r]? with
    | none => rw [hz] at h; cases h
    | some z => rw [hz] at h; cases h; exact ⟨rfl, rfl⟩
  refine ⟨?_, ?_, ?_, ?_⟩
  · intro r n q hq hs; rw [(h r q hq).1] at hs; cases hs
  · intro r n q d rd hq _ hs; rw [(h r q hq).1] at hs; cases hs
  · intro r r' n q q' hq _ hs; rw [(h r q hq).1] at hs; cases hs
  · intro r q hq hs; rw [(h r q hq).2] at hs; cases hs

theorem PgLiveInv.act {defs : List Runner} {s : PgLive} (I : PgLiveInv defs s) (hash : HashFn) (parses : Parses) (tie : Int → Nat)
    (now : Time) (a : PLAct) : PgLiveInv defs (s.act hash parses defs tie now a).2 := by
  have net : ∀ a' : NetAct, (∀ n x, a' ≠ .subscribe n x) → ∀ n,
      namesOf (s.net.step hash parses tie now a').2.readers n = namesOf s.net.readers n := fun a' h => names_stream hash parses tie now s.net a' h
  cases a with
  | db a => exact pgInv_keep I rfl (net _ (by simp))
  | connect => exact pgInv_keep I rfl (net _ (by simp))
  | deliver n => exact pgInv_keep I rfl (net _ (by simp))
  | reconnect n => exact pgInv_keep I rfl (net _ (by simp))
  | fail n => exact pgInv_keep I rfl (net _ (by simp))
  | begin r =>
    simp only [PgLive.act]
    split
    · rename_i d q hd hq
      split
      · rename_i hb
        have hnone : q.stream = none := Option.isNone_iff_eq_none.mp hb
        simp only [PgNet.step]
        refine ⟨?_, ?_, ?_, ?_⟩
        · intro r' n q' h hs
          simp only [List.length_append, List.length_cons, List.length_nil]
          rcases live_set h with ⟨rfl, rfl⟩ | ⟨-, h⟩
          · cases hs; omega
          · have := I.bound r' n q' h hs; omega
        · intro r' n q' d' rd h hd' hs hrd
          rcases live_set h with ⟨rfl, rfl⟩ | ⟨-, h⟩
          · cases hs
            rw [hd] at hd'
            cases hd'
            simp at hrd
            rw [← hrd]
          · simp only at hrd
            rw [List.getElem?_append_left (I.bound r' n q' h hs)] at hrd
            exact I.names r' n q' d' rd h hd' hs hrd
        · intro r₁ r₂ n q₁ q₂ h₁ h₂ hs₁ hs₂
          rcases live_set h₁ with ⟨e₁, e₁'⟩ | ⟨-, g₁⟩ <;> rcases live_set h₂ with ⟨e₂, e₂'⟩ | ⟨-, g₂⟩
          · rw [e₁, e₂]
          · rw [e₁'] at hs₁; cases hs₁; exact absurd (I.bound _ _ _ g₂ hs₂) (Nat.lt_irrefl _)
          · rw [e₂'] at hs₂; cases hs₂; exact absurd (I.bound _ _ _ g₁ hs₁) (Nat.lt_irrefl _)
          · exact I.distinct r₁ r₂ n q₁ q₂ g₁ g₂ hs₁ hs₂
        · intro r' q' h hi
          rcases live_set h with ⟨rfl, rfl⟩ | ⟨-, h⟩
          · exact I.polls r' q hq hi
          · exact I.polls r' q' h hi
      · exact I
    · exact I
  | poll r =>
    simp only [PgLive.act]
    split
    · rename_i d q hd hq
      split
      · split
        · rename_i hb
          simp only [Bool.and_eq_true, Bool.not_eq_true'] at hb
          split
          · exact pgInv_set I hq (by rfl) rfl (fun _ => rfl) fun hi => by
              have hi : q.inPoll = true := hi
              rw [hb.1.1] at hi; cases hi
          · refine pgInv_set I hq (by rfl) rfl (fun _ => rfl) fun _ => ⟨hb.1.2, fun d' hd' => ?_⟩
            rw [hd] at hd'; cases hd'
            exact hb.2
        · exact I
      · exact I
    · exact I
  | pend r =>
    simp only [PgLive.act]
    split
    · rename_i q hq
      exact pgInv_set I hq (by rfl) rfl (fun _ => rfl) fun h => nomatch h
    · exact I
  | step r b =>
    simp only [PgLive.act]
    split
    · rename_i d q hd hq
      split
      · split
        · split
          · split
            · exact pgInv_set I hq (take_stream ..) rfl (net _ (by simp)) fun h => by rw [take_inPoll] at h; cases h
            · exact pgInv_set I hq (by rfl) rfl (net _ (by simp)) fun h => nomatch h
            · exact pgInv_keep I rfl (net _ (by simp))
          · exact I
        · exact I
      · exact I
    · exact I
  | streamFails r =>
    simp only [PgLive.act]
    split
    · rename_i q hq
      split
      · rename_i n hs
        split
        · split
          · have := net (.streamFails n) (by simp)
            split
            · rename_i e
              rw [e] at this
              exact pgInv_set I hq (by rfl) rfl this fun h => nomatch h
            · exact I
          · exact I
        · exact I
      · exact I
    · exact I
  | finish r i b =>
    simp only [PgLive.act]
    split
    · rename_i d q hd hq
      split
      · rename_i hf
        split
        · exact I
        · split
          · refine pgInv_set I hq (by rfl) rfl (fun _ => rfl) fun hi => ?_
            obtain ⟨h1, h2⟩ := I.polls r q hq hi
            exact ⟨h1, fun d' hd' => limit_mono (flights_set_le hf fun _ => rfl) (h2 d' hd')⟩
          · exact pgInv_set I hq (by rfl) rfl (fun _ => rfl) fun h => nomatch h
      · exact I
    · exact I
  | report r i =>
    simp only [PgLive.act]
    split
    · rename_i q hq
      split
      · rename_i hf
        split
        · exact I
        · refine pgInv_set I hq (by rfl) rfl (net _ (by simp)) fun hi => ?_
          obtain ⟨h1, h2⟩ := I.polls r q hq hi
          exact ⟨h1, fun d' hd' => limit_mono (flights_set_le hf fun _ => rfl) (h2 d' hd')⟩
      · exact I
    · exact I
  | lose r i =>
    simp only [PgLive.act]
    split
    · rename_i q hq
      split
      · rename_i hf
        refine pgInv_set I hq (by rfl) rfl (fun _ => rfl) fun hi => ?_
        obtain ⟨h1, h2⟩ := I.polls r q hq hi
        exact ⟨h1, fun d' hd' => limit_mono (flights_set_le hf fun _ => rfl) (h2 d' hd')⟩
      · exact I
    · exact I
  | tell r =>
    simp only [PgLive.act]
    split
    · rename_i q hq
      exact pgInv_set I hq (by rfl) rfl (fun _ => rfl) fun h => I.polls r q hq h
    · exact I
  | kill r =>
    simp only [PgLive.act]
    split
    · rename_i q hq
      exact pgInv_set I hq (by rfl) rfl (fun _ => rfl) fun h => nomatch h
    · exact I

private theorem fail_sessions {s : PgNet} {n : Nat} {rd : PgReader} (hr : s.readers[n]? = some rd) (hash : HashFn) (parses : Parses)
    (tie : Int → Nat) (now : Time) :
    ((s.step hash parses tie now (.streamFails n)).1 = .failed n ∧ rd.wait = .ready ∧ (s.step hash parses tie now (.streamFails n)).2 = s) ∨
    ((s.step hash parses tie now (.streamFails n)).1 = .failed n ∧ rd.wait.isLoading = true ∧
      (s.step hash parses tie now (.streamFails n)).2 = s.setWait n .ready) ∨
    (s.step hash parses tie now (.streamFails n)).1 = .quiet := by
  simp only [PgNet.step, hr]
  obtain ⟨nd, ex, qu, w⟩ := rd
  cases w with
  | ready => exact .inl ⟨rfl, rfl, rfl⟩
  | loading c dl k => exact .inr (.inl ⟨rfl, rfl, rfl⟩)
  | _ => exact .inr (.inr rfl)

private theorem waits_deliver (parses : Parses) (s : PgNet) (n k : Nat) : waits (s.deliver parses n).readers k = waits s.readers k := by
  simp only [PgNet.deliver]
  split
  · rfl
  · split
    · rfl
    · split
      · simp only [waits, List.getElem?_map]
        cases s.readers[k]? with
        | none => rfl
        | some r => simp only [Option.map_some]; split <;> rfl
      · rfl

private theorem deliver_conc (parses : Parses) (s : PgNet) (n : Nat) : (s.deliver parses n).conc = s.conc := by
  simp only [PgNet.deliver]
  split
  · rfl
  · split
    · rfl
    · split <;> rfl

private theorem plain_idle {s : PgLive} {r : Nat} {q q' : PgLiveRunner} (hq : s.runners[r]? = some q)
    (h : q'.plain s.net.readers = q.plain s.net.readers) : ({ s with runners := s.runners.set r q' } : PgLive).plain = s.plain := by
  rw [plain_put, h]
  obtain ⟨hl, e⟩ := List.getElem?_eq_some_iff.mp (plain_runner hq)
  simp only [← e, List.set_getElem_self]
  rfl

/-- One step. -/
theorem pgLive_sim {defs : List Runner} {s : PgLive} (I : PgLiveInv defs s) (hash : HashFn) (parses : Parses) (tie : Int → Nat)
    (now : Time) (a : PLAct) : PgSimStep hash defs tie now s.plain (s.act hash parses defs tie now a).1.visible
      (s.act hash parses defs tie now a).2.plain := by
  have stay : PgSimStep hash defs tie now s.plain PLEv.quiet.visible s.plain := .inl ⟨rfl, rfl⟩
  cases a with
  | db a =>
    refine .inr ⟨.db a, rfl, ?_⟩
    rw [plain_keep (s := s) rfl fun _ => rfl]
    rfl
  | connect => exact .inl ⟨rfl, plain_keep (s := s) rfl fun _ => rfl⟩
  | deliver n =>
    refine .inl ⟨rfl, (plain_keep (s := s) (s' := { s with net := s.net.deliver parses n }) rfl
      fun k => waits_deliver parses s.net n k).trans ?_⟩
    simp only [deliver_conc]
    rfl
  | reconnect n => exact .inl ⟨rfl, plain_keep (s := s) rfl fun _ => rfl⟩
  | fail n => exact .inl ⟨rfl, plain_keep (s := s) rfl fun _ => rfl⟩
  | begin r =>
    simp only [PgLive.act]
    cases hd : defs[r]? with
    | none => exact stay
    | some d =>
      cases hq : s.runners[r]? with
      | none => exact stay
      | some q =>
        simp only
        by_cases hb : q.stream.isNone = true
        · rw [if_pos hb]
          refine .inl ⟨rfl, ?_⟩
          have hnone : q.stream = none := Option.isNone_iff_eq_none.mp hb
          simp only [PgLive.plain, PgNet.step]
          congr 1
          have hoth : ∀ (r' : Nat) (p : PgLiveRunner), r' ≠ r → s.runners[r']? = some p →
              p.plain (s.net.readers ++ [{ node := q.node, executor := d.name }]) = p.plain s.net.readers := by
            intro r' p _ hp
            refine plain_same p fun n hn => ?_
            simp only [waits, List.getElem?_append_left (I.bound r' n p hp hn)]
          rw [plain_set hoth]
          have : ({ q with stream := some s.net.readers.length } : PgLiveRunner).plain
              (s.net.readers ++ [{ node := q.node, executor := d.name }]) = q.plain s.net.readers := by
            simp [PgLiveRunner.plain, hnone, PgWait.session]
          rw [this]
          obtain ⟨hl, rfl⟩ := List.getElem?_eq_some_iff.mp hq
          have h2 : (s.runners.map fun p => p.plain s.net.readers)[r]'(by simpa using hl) = s.runners[r].plain s.net.readers := by simp
          rw [← h2]
          exact List.set_getElem_self _
        · rw [if_neg hb]; exact stay
  | poll r =>
    simp only [PgLive.act]
    cases hd : defs[r]? with
    | none => exact stay
    | some d =>
      cases hq : s.runners[r]? with
      | none => exact stay
      | some q =>
        simp only
        cases hs : q.stream with
        | none => exact stay
        | some n =>
          simp only
          by_cases hb : (!q.inPoll && q.polling && belowLimit d.maxConcurrency q.inFlight) = true
          · rw [if_pos hb]
            simp only [Bool.and_eq_true] at hb
            have hpl := plain_runner hq
            cases q.told with
            | true =>
              simp only [if_true]
              refine .inr ⟨.stop r, ?_, ?_⟩
              · simp only [PgSys.step, hpl, PLEv.visible, Option.some.injEq]
                congr 1
                simp only [PgLiveRunner.plain, hb.1.2, if_true, hs, Option.bind_some]
                cases s.net.readers[n]? with
                | none => rfl
                | some rd => cases hw : rd.wait <;> simp [PgWait.isLoading, PgWait.session, hw]
              · simp only [PgSys.step, hpl]
                exact plain_put s r _
            | false =>
              simp only [Bool.false_eq_true, if_false]
              exact .inl ⟨rfl, plain_idle hq (by simp [PgLiveRunner.plain, hs])⟩
          · rw [if_neg hb]; exact stay
  | pend r =>
    simp only [PgLive.act]
    cases hq : s.runners[r]? with
    | none => exact stay
    | some q => exact .inl ⟨rfl, plain_idle hq rfl⟩
  | step r b =>
    simp only [PgLive.act]
    cases hd : defs[r]? with
    | none => exact stay
    | some d =>
      cases hq : s.runners[r]? with
      | none => exact stay
      | some q =>
        simp only
        cases hs : q.stream with
        | none => exact stay
        | some n =>
          simp only
          cases hr : s.net.readers[n]? with
          | none => exact stay
          | some rd =>
            simp only
            by_cases hb : q.inPoll = true
            · rw [if_pos hb]
              obtain ⟨hpo, hbe⟩ := I.polls r q hq hb
              have hbe := hbe d hd
              have hname := I.names r n q d rd hq hd hs hr
              have hoth : ∀ R' : List PgReader, (∀ k, k ≠ n → waits R' k = waits s.net.readers k) →
                  ∀ (r' : Nat) (p : PgLiveRunner), r' ≠ r → s.runners[r']? = some p → p.plain R' = p.plain s.net.readers := by
                intro R' h r' p hne hp
                refine plain_same p fun k hk => h k fun e => ?_
                subst e
                exact hne (I.distinct r' r k p q hp hq hk hs)
              have hpl := plain_runner hq
              have hplain : q.plain s.net.readers = { polling := true, loading := rd.wait.session, flights := q.flights } := by
                simp [PgLiveRunner.plain, hpo, hs, hr]
              rcases stream_kind hash parses tie now s.net n b hr with ⟨h1, h2, h3, h4, h5⟩ | ⟨c, dl, h1, h2, ⟨e, l, h3⟩, h4, h5⟩ |
                ⟨c, dl, k, h1, ⟨h2, h3, ⟨l, h4⟩, h5⟩ | ⟨res, h2, h3, h4, h5, h6, h7⟩⟩
              · generalize s.net.step hash parses tie now (.stream n b) = z at *
                obtain ⟨ev, net⟩ := z
                have hk := (plain_keep (s := s) (s' := { s with net := net }) rfl h3).trans (congrArg (fun c => PgSys.mk c _) h2)
                have hvis : ∀ st, (PLEv.moved r rd.wait (s.net.answer rd.wait) ev st).visible = none := by
                  intro st
                  cases hw : rd.wait with
                  | loading c dl k => rw [hw] at h1; cases h1
                  | decided c dl =>
                    cases ev with
                    | db e l => exact absurd rfl (h5 e l)
                    | _ => rfl
                  | _ => rfl
                cases ev with
                | returned i j => exact absurd rfl (h4 i j)
                | failed i => exact .inl ⟨hvis _, (plain_idle (s := { s with net := net }) (q' := { q with stream := some n, inPoll := false }) hq
                    (by simp [PgLiveRunner.plain, hs])).trans hk⟩
                | _ => exact .inl ⟨hvis _, hk⟩
              · generalize s.net.step hash parses tie now (.stream n b) = z at *
                obtain ⟨ev, net⟩ := z
                simp only at h2 h3 h4 h5
                subst h3
                have hstep : s.plain.step hash defs tie now (.pull r) = (.pulled r,
                    { conc := (s.net.conc.step hash tie now (.handout d.name)).2
                      runners := s.plain.runners.set r { polling := true, loading := some s.net.conc.sessions.length, flights := q.flights } }) := by
                  simp only [PgSys.step, hd, hpl, hplain, h1, PgWait.session]
                  rw [if_pos (by simp only [Option.isNone_none, Bool.and_true, Bool.true_and]; exact hbe)]
                  rfl
                refine .inr ⟨.pull r, ?_, ?_⟩
                · rw [hstep]; simp only [h1, PLEv.visible]
                · rw [hstep]
                  simp only [PgLive.plain, h2, hname]
                  congr 1
                  rw [← List.set_getElem_self (List.getElem?_eq_some_iff.mp hq).1, plain_set (hoth _ h5)]
                  obtain ⟨hl, e'⟩ := List.getElem?_eq_some_iff.mp hq
                  simp only [e', List.map_set]
                  simp only [List.set_set]
                  congr 1
                  have : (q.stream.bind fun n => net.readers[n]?).bind (fun rd => rd.wait.session) = some s.net.conc.sessions.length := by
                    rw [hs]; exact h4
                  simp only [PgLiveRunner.plain, hpo, if_true, this]
              · generalize s.net.step hash parses tie now (.stream n b) = z at *
                obtain ⟨ev, net⟩ := z
                simp only at h3 h4 h5
                subst h4
                refine .inr ⟨.db (.advance k), ?_, ?_⟩
                · simp only [h2]; simp only [h1, PLEv.visible, PgSys.step]; rfl
                · exact (plain_keep (s := s) (s' := { s with net := net }) rfl h5).trans (congrArg (fun c => PgSys.mk c _) h3)
              · generalize s.net.step hash parses tie now (.stream n b) = z at *
                obtain ⟨ev, net⟩ := z
                simp only at h4 h5 h6 h7
                have hself : ∀ p : PgLiveRunner, p.stream = q.stream → p.plain net.readers = { polling := p.polling, loading := none, flights := p.flights } := by
                  intro p hp
                  have : (q.stream.bind fun n => net.readers[n]?).bind (fun rd => rd.wait.session) = none := by rw [hs]; exact h5
                  simp only [PgLiveRunner.plain, hp, this, ite_self]
                have hload : ({ polling := true, loading := some k, flights := q.flights } : PgRunner).loading.bind
                    (fun k => s.plain.conc.sessions[k]?) = some (.done res) := h3
                rcases h7 with ⟨j, rfl, rfl⟩ | ⟨hnj, hnr⟩
                · simp only
                  have hstep : s.plain.step hash defs tie now (.take r) = (.took r (.job (some j)) (some (d.start j)),
                      { conc := s.net.conc, runners := s.plain.runners.set r ((q.take d j).plain net.readers) }) := by
                    simp only [PgSys.step, hd, hpl, hplain, h1, PgWait.session, hload]
                    rw [hself _ (take_stream d j q)]
                    unfold PgLiveRunner.take
                    cases d.start j with
                    | running t => simp only [hpo]; rfl
                    | undecodable => simp only [hpo]; rfl
                    | runnerPanics => rfl
                  refine .inr ⟨.take r, ?_, ?_⟩
                  · rw [hstep]; simp only [h2]; simp only [h1, PLEv.visible]
                  · rw [hstep]
                    simp only [PgLive.plain, h4]
                    congr 1
                    exact plain_set (hoth _ h6)
                · have hstep : s.plain.step hash defs tie now (.take r) = (.took r res none,
                      { conc := s.net.conc, runners := s.plain.runners.set r (q.plain net.readers) }) := by
                    simp only [PgSys.step, hd, hpl, hplain, h1, PgWait.session, hload]
                    rw [hself _ rfl, hpo]
                    cases res with
                    | job o =>
                      cases o with
                      | some j => exact absurd rfl (hnj j)
                      | none => rfl
                    | _ => rfl
                  have hnet : ({ s with net := net } : PgLive).plain = (s.plain.step hash defs tie now (.take r)).2 := by
                    rw [hstep]
                    simp only [PgLive.plain, h4]
                    congr 1
                    rw [← plain_set (hoth _ h6)]
                    obtain ⟨hl, rfl⟩ := List.getElem?_eq_some_iff.mp hq
                    rw [List.set_getElem_self]
                  have hev : (PLEv.moved r rd.wait (s.net.answer rd.wait) ev none).visible = some (s.plain.step hash defs tie now (.take r)).1 := by
                    rw [hstep, h2, h1]; rfl
                  cases ev with
                  | returned i j => exact absurd rfl (hnr i j)
                  | failed i => exact .inr ⟨.take r, hev, (plain_idle (s := { s with net := net }) (q' := { q with stream := some n, inPoll := false }) hq
                    (by simp [PgLiveRunner.plain, hs])).trans hnet⟩
                  | _ => exact .inr ⟨.take r, hev, hnet⟩
            · rw [if_neg hb]; exact stay
  | streamFails r =>
    simp only [PgLive.act]
    cases hq : s.runners[r]? with
    | none => exact stay
    | some q =>
      simp only
      cases hs : q.stream with
      | none => exact stay
      | some n =>
        simp only
        cases hr : s.net.readers[n]? with
        | none => exact stay
        | some rd =>
          simp only
          cases hb : q.inPoll with
          | false => exact stay
          | true =>
            simp only [if_true]
            have hpo := (I.polls r q hq hb).1
            rcases fail_sessions hr hash parses tie now with ⟨h1, h2, h3⟩ | ⟨h1, h2, h3⟩ | h1
            · generalize s.net.step hash parses tie now (.streamFails n) = z at *
              obtain ⟨ev, net⟩ := z
              simp only at h1 h3
              subst h1 h3
              exact .inl ⟨by rw [h2]; rfl, plain_idle hq (by simp [PgLiveRunner.plain, hs])⟩
            · generalize s.net.step hash parses tie now (.streamFails n) = z at *
              obtain ⟨ev, net⟩ := z
              simp only at h1 h3
              subst h1 h3
              obtain ⟨k, hk⟩ : ∃ k, rd.wait.session = some k := by
                cases hw : rd.wait with
                | loading c dl k => exact ⟨k, rfl⟩
                | _ => rw [hw] at h2; cases h2
              have hplain : q.plain s.net.readers = { polling := true, loading := some k, flights := q.flights } := by
                simp [PgLiveRunner.plain, hpo, hs, hr, hk]
              have hq' : q.plain (s.net.setWait n .ready).readers = { polling := true, loading := none, flights := q.flights } := by
                simp [PgLiveRunner.plain, hpo, hs, setWait_get, hr, PgWait.session]
              have hstep : s.plain.step hash defs tie now (.drop r) = (.dropped r true,
                  { conc := s.net.conc, runners := s.plain.runners.set r (q.plain (s.net.setWait n .ready).readers) }) := by
                simp only [PgSys.step, plain_runner hq, hplain, hq']; rfl
              refine .inr ⟨.drop r, ?_, ?_⟩
              · rw [hstep, h2]; rfl
              · rw [hstep]
                simp only [PgLive.plain]
                congr 1
                have hsame : ({ q with stream := some n, inPoll := false } : PgLiveRunner).plain (s.net.setWait n .ready).readers =
                    q.plain (s.net.setWait n .ready).readers := by simp [PgLiveRunner.plain, hs]
                rw [← hsame, ← plain_set (l := s.runners) (r := r)]
                · intro r' p hne hp
                  refine plain_same p fun m hm => setWait_other fun e => ?_
                  subst e
                  exact hne (I.distinct r' r m p q hp hq hm hs)
            · generalize s.net.step hash parses tie now (.streamFails n) = z at *
              obtain ⟨ev, net⟩ := z
              simp only at h1
              subst h1
              exact stay
  | finish r i b =>
    simp only [PgLive.act]
    cases hd : defs[r]? with
    | none => exact stay
    | some d =>
      cases hq : s.runners[r]? with
      | none => exact stay
      | some q =>
        simp only
        split
        · rename_i t hf
          cases hj : t.join b with
          | none => exact stay
          | some j =>
            simp only
            have hpl := plain_runner hq
            have hf' : (q.plain s.net.readers).flights[i]? = some (some { task := t, phase := .running }) := hf
            cases ho : d.report now t j with
            | some o =>
              refine .inr ⟨.finish r i b, ?_, ?_⟩
              · simp only [PgSys.step, hd, hpl, hf', hj, ho]; rfl
              · simp only [PgSys.step, hd, hpl, hf', hj, ho]
                exact plain_put s r _
            | none =>
              refine .inr ⟨.finish r i b, ?_, ?_⟩
              · simp only [PgSys.step, hd, hpl, hf', hj, ho]; rfl
              · simp only [PgSys.step, hd, hpl, hf', hj, ho]
                exact plain_put s r _
        · exact stay
  | report r i =>
    simp only [PgLive.act]
    cases hq : s.runners[r]? with
    | none => exact stay
    | some q =>
      simp only
      split
      · rename_i t o hf
        have hpl := plain_runner hq
        have hf' : (q.plain s.net.readers).flights[i]? = some (some { task := t, phase := .reporting o }) := hf
        have hc : s.plain.conc = s.net.conc := rfl
        split
        · exact stay
        · rename_i ev hne
          have hstep : s.plain.step hash defs tie now (.report r i) = (.reported r t (s.net.conc.step hash tie now (.stmt o)).1,
              { conc := (s.net.conc.step hash tie now (.stmt o)).2
                runners := s.plain.runners.set r (({ q with flights := q.flights.set i none } : PgLiveRunner).plain s.net.readers) }) := by
            simp only [PgSys.step, hpl, hf', hc]
            generalize s.net.conc.step hash tie now (.stmt o) = z at *
            obtain ⟨e, c⟩ := z
            cases e with
            | blocked => exact absurd rfl hne
            | _ => rfl
          refine .inr ⟨.report r i, ?_, ?_⟩
          · rw [hstep]; rfl
          · rw [hstep]
            exact plain_upd (s := s) (s' := { net := (s.net.step hash parses tie now (.db (.stmt o))).2, runners := s.runners.set r { q with flights := q.flights.set i none } }) rfl fun _ => rfl
      · exact stay
  | lose r i =>
    simp only [PgLive.act]
    cases hq : s.runners[r]? with
    | none => exact stay
    | some q =>
      simp only
      split
      · rename_i t o hf
        have hpl := plain_runner hq
        have hf' : (q.plain s.net.readers).flights[i]? = some (some { task := t, phase := .reporting o }) := hf
        refine .inr ⟨.lose r i, ?_, ?_⟩
        · simp only [PgSys.step, hpl, hf']; rfl
        · simp only [PgSys.step, hpl, hf']
          exact plain_put s r _
      · exact stay
  | tell r =>
    simp only [PgLive.act]
    cases hq : s.runners[r]? with
    | none => exact stay
    | some q => exact .inl ⟨rfl, plain_idle hq rfl⟩
  | kill r =>
    simp only [PgLive.act]
    cases hq : s.runners[r]? with
    | none => exact stay
    | some q =>
      have hpl := plain_runner hq
      refine .inr ⟨.kill r, ?_, ?_⟩
      · simp only [PgSys.step, hpl]; rfl
      · simp only [PgSys.step, hpl]
        exact plain_put s r _

/-- A whole schedule. -/
theorem pgLive_refines {defs : List Runner} (hash : HashFn) (parses : Parses) {s : PgLive} (I : PgLiveInv defs s) (as : List TPLAct) :
    ∃ bs : List TPSAct, PgSys.trace hash defs s.plain bs =
        (PgLive.trace hash parses defs s as).filterMap (fun e => e.ev.visible.map fun v => ⟨e.now, v⟩) ∧
      PgSys.run hash defs s.plain bs = (PgLive.run hash parses defs s as).plain := by
  induction as generalizing s with
  | nil => exact ⟨[], rfl, rfl⟩
  | cons a as ih =>
    obtain ⟨bs, h1, h2⟩ := ih (I.act hash parses a.tie a.now a.act)
    rcases pgLive_sim I hash parses a.tie a.now a.act with ⟨g1, g2⟩ | ⟨b, g1, g2⟩
    · refine ⟨bs, ?_, ?_⟩
      · simp only [PgLive.trace, List.filterMap_cons, g1, Option.map_none]
        rw [← g2]
        exact h1
      · simp only [PgLive.run]
        rw [← g2]
        exact h2
    · refine ⟨⟨a.now, a.tie, b⟩ :: bs, ?_, ?_⟩
      · simp only [PgLive.trace, List.filterMap_cons, g1, Option.map_some, PgSys.trace]
        rw [← g2, h1]
      · simp only [PgLive.run, PgSys.run]
        rw [← g2, h2]

end Rexecutor
