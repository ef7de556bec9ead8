import Verif.Model.Live
import Verif.Props.OnTime

/-! # Runners with their streams: what an action does to the streams -/

namespace Rexecutor

theorem live_run_append (defs : List Runner) (s : Live) (as bs : List TLvAct) :
    s.run defs (as ++ bs) = (s.run defs as).run defs bs := by
  induction as generalizing s with
  | nil => rfl
  | cons a as ih => exact ih _

/-- The step of the streams an action amounts to, if any. -/
def liveView (defs : List Runner) (s : Live) : LvAct → Option StAct
  | .client a => some (.client a)
  | .begin r =>
    match defs[r]?, s.runners[r]? with
    | some d, some { stream := none, .. } => some (.subscribe d.name)
    | _, _ => none
  | .step r timer =>
    match defs[r]?, s.runners[r]? with
    | some _, some { stream := some n, inPoll := true, .. } => some (.stream n timer)
    | _, _ => none
  | .report r i =>
    match s.runners[r]? with
    | some { inPoll := false, state, .. } =>
      match state.flights[i]? with
      | some { phase := .reporting o, .. } => some (.client (.op o))
      | _ => none
    | _ => none
  | _ => none

/-- The event hands out job `id`, to a runner or to another client. -/
def LvEv.handsOut (id : Int) : LvEv → Bool
  | .moved _ (.returned _ j) _ => j.id == id
  | .client ev => ev.handsOut id
  | .reported _ _ ev => ev.handsOut id
  | _ => false

/-- Clients, and executions of other jobs that report, leave the waiting job `j` alone and put
nothing in front of it. -/
def LvEv.LetsPass (j : Job) (now : Time) : LvEv → Prop
  | .client ev => ev.finishes j.id = false ∧ ev.putsBack j.id = false ∧ ev.KeepsWaiting ∧ ev.QueuesBehind j now
  | .reported _ _ ev => ev.finishes j.id = false ∧ ev.putsBack j.id = false ∧ ev.KeepsWaiting ∧ ev.QueuesBehind j now
  | _ => True

instance (j : Job) (now : Time) (e : LvEv) : Decidable (e.LetsPass j now) := by
  unfold LvEv.LetsPass; split <;> infer_instance

/-- The stream of runner `r` made a step. -/
def LvEv.isMove (r : Nat) : LvEv → Bool
  | .moved n _ _ => n == r
  | _ => false

/-- A step of a stream in which nothing happens. -/
theorem stream_nothing {s : Streams} {now : Time} {n : Nat} {b : Bool}
    (h : (s.step now (.stream n b)).1.isSomething = false) : (s.step now (.stream n b)).2 = s := by
  cases hr : s.readers[n]? with
  | none => simp [Streams.step, hr]
  | some rd =>
    rcases onTime_own_cases (now := now) (b := b) hr with ⟨h1, -⟩ | ⟨-, h1⟩
    · rw [h1] at h; cases h
    · exact h1

/-- What an action does to the streams, and what it shows of it. -/
theorem live_view (defs : List Runner) (now : Time) (s : Live) (a : LvAct) :
    (s.act defs now a).2.streams = (match liveView defs s a with
      | none => s.streams
      | some sa => (s.streams.step now sa).2) ∧
    (∀ id, (s.act defs now a).1.handsOut id = (match liveView defs s a with
      | none => false
      | some sa => (s.streams.step now sa).1.handsOut id)) ∧
    (∀ j, (s.act defs now a).1.LetsPass j now → ∀ sa, liveView defs s a = some sa → (s.streams.step now sa).1.LetsPass j now) := by
  cases a with
  | client a => exact ⟨rfl, fun _ => rfl, fun j h sa hsa => by cases hsa; exact h⟩
  | begin r =>
    simp only [Live.act, liveView]
    cases hd : defs[r]? with
    | none => exact ⟨rfl, fun _ => rfl, fun j _ sa h => by cases h⟩
    | some d =>
      cases hq : s.runners[r]? with
      | none => exact ⟨rfl, fun _ => rfl, fun j _ sa h => by cases h⟩
      | some q =>
        obtain ⟨st, ip, rs⟩ := q
        cases st with
        | none => exact ⟨rfl, fun _ => rfl, fun j _ sa h => by cases h; trivial⟩
        | some n => exact ⟨rfl, fun _ => rfl, fun j _ sa h => by cases h⟩
  | poll r =>
    simp only [Live.act, liveView]
    cases hd : defs[r]? with
    | none => exact ⟨rfl, fun _ => rfl, fun j _ sa h => by cases h⟩
    | some d =>
      cases hq : s.runners[r]? with
      | none => exact ⟨rfl, fun _ => rfl, fun j _ sa h => by cases h⟩
      | some q =>
        obtain ⟨st, ip, rs⟩ := q
        cases st with
        | none => exact ⟨rfl, fun _ => rfl, fun j _ sa h => by cases h⟩
        | some n =>
          cases ip with
          | true => exact ⟨rfl, fun _ => rfl, fun j _ sa h => by cases h⟩
          | false =>
            simp only
            split
            · split
              · exact ⟨rfl, fun _ => rfl, fun j _ sa h => by cases h⟩
              · exact ⟨rfl, fun _ => rfl, fun j _ sa h => by cases h⟩
            · exact ⟨rfl, fun _ => rfl, fun j _ sa h => by cases h⟩
  | step r timer =>
    simp only [Live.act, liveView]
    cases hd : defs[r]? with
    | none => exact ⟨rfl, fun _ => rfl, fun j _ sa h => by cases h⟩
    | some d =>
      cases hq : s.runners[r]? with
      | none => exact ⟨rfl, fun _ => rfl, fun j _ sa h => by cases h⟩
      | some q =>
        obtain ⟨st, ip, rs⟩ := q
        cases st with
        | none => exact ⟨rfl, fun _ => rfl, fun j _ sa h => by cases h⟩
        | some n =>
          cases ip with
          | false => exact ⟨rfl, fun _ => rfl, fun j _ sa h => by cases h⟩
          | true =>
            simp only
            have hn := @stream_nothing s.streams now n timer
            have hc : ∀ ev, (s.streams.step now (.stream n timer)).1 ≠ .client ev := by
              intro ev
              simp only [Streams.step]
              cases s.streams.readers[n]? with
              | none => simp
              | some rd =>
                simp only [Streams.streamStep]
                cases rd.wait with
                | ready => simp
                | looked f => simp
                | decided c d =>
                  simp only
                  split
                  · split <;> simp
                  · simp
                | asleep c si d =>
                  simp only
                  split
                  · simp
                  · split <;> simp
            refine ⟨?_, ?_, ?_⟩
            · generalize hz : s.streams.step now (.stream n timer) = z at hn
              obtain ⟨ev, st'⟩ := z
              cases ev with
              | nothing => simp only at hn ⊢; exact (hn rfl).symm
              | _ => rfl
            · intro id
              generalize s.streams.step now (.stream n timer) = z at hc
              obtain ⟨ev, st'⟩ := z
              cases ev with
              | client ev => exact (hc ev rfl).elim
              | _ => rfl
            · intro j _ sa h
              cases h
              generalize s.streams.step now (.stream n timer) = z at hc ⊢
              obtain ⟨ev, st'⟩ := z
              cases ev with
              | client ev => exact (hc ev rfl).elim
              | _ => trivial
  | finish r i b =>
    simp only [Live.act, liveView]
    cases hd : defs[r]? with
    | none => exact ⟨rfl, fun _ => rfl, fun j _ sa h => by cases h⟩
    | some d =>
      cases hq : s.runners[r]? with
      | none => exact ⟨rfl, fun _ => rfl, fun j _ sa h => by cases h⟩
      | some q =>
        obtain ⟨st, ip, rs⟩ := q
        cases ip with
        | true => exact ⟨rfl, fun _ => rfl, fun j _ sa h => by cases h⟩
        | false =>
          simp only
          cases hf : rs.flights[i]? with
          | none => exact ⟨rfl, fun _ => rfl, fun j _ sa h => by cases h⟩
          | some fl =>
            obtain ⟨t, ph⟩ := fl
            cases ph with
            | reporting o => exact ⟨rfl, fun _ => rfl, fun j _ sa h => by cases h⟩
            | running =>
              simp only
              cases t.join b with
              | none => exact ⟨rfl, fun _ => rfl, fun j _ sa h => by cases h⟩
              | some jn =>
                simp only
                cases d.report now t jn with
                | none => exact ⟨rfl, fun _ => rfl, fun j _ sa h => by cases h⟩
                | some o => exact ⟨rfl, fun _ => rfl, fun j _ sa h => by cases h⟩
  | report r i =>
    simp only [Live.act, liveView]
    cases hq : s.runners[r]? with
    | none => exact ⟨rfl, fun _ => rfl, fun j _ sa h => by cases h⟩
    | some q =>
      obtain ⟨st, ip, rs⟩ := q
      cases ip with
      | true => exact ⟨rfl, fun _ => rfl, fun j _ sa h => by cases h⟩
      | false =>
        simp only
        cases hf : rs.flights[i]? with
        | none => exact ⟨rfl, fun _ => rfl, fun j _ sa h => by cases h⟩
        | some fl =>
          obtain ⟨t, ph⟩ := fl
          cases ph with
          | running => exact ⟨rfl, fun _ => rfl, fun j _ sa h => by cases h⟩
          | reporting o => exact ⟨rfl, fun _ => rfl, fun j h sa hsa => by cases hsa; exact h⟩
  | shutdown => exact ⟨rfl, fun _ => rfl, fun j _ sa h => by cases h⟩

/-- Streams belong to one runner each; a runner that has not begun executes nothing. -/
structure LiveInv (s : Live) : Prop where
  inv : StreamInv s.streams
  bound : ∀ (r : Nat) (q : LiveRunner) (n : Nat), s.runners[r]? = some q → q.stream = some n → n < s.streams.readers.length
  distinct : ∀ (r r' : Nat) (q q' : LiveRunner) (n : Nat), s.runners[r]? = some q → s.runners[r']? = some q' → q.stream = some n → q'.stream = some n → r = r'
  idle : ∀ (r : Nat) (q : LiveRunner), s.runners[r]? = some q → q.stream = none → q.inPoll = false ∧ q.state.flights = []
  reports : ∀ (r : Nat) (q : LiveRunner), s.runners[r]? = some q → ∀ fl ∈ q.state.flights, ∀ o x, fl.phase = .reporting o → o ≠ .load x

/-- What an action does to the runners. -/
inductive LiveMove (defs : List Runner) (now : Time) (s s' : Live) (r : Nat) (q q' : LiveRunner) (ev : LvEv) : Prop
  /-- nothing -/
  | same (h : q' = q)
  /-- it subscribed -/
  | begun (hs : q.stream = none) (h : q' = { q with stream := some s.streams.readers.length })
      (hl : s'.streams.readers.length = s.streams.readers.length + 1)
  /-- a poll began -/
  | polls (n : Nat) (d : Runner) (hs : q.stream = some n) (hd : defs[r]? = some d) (h : q' = { q with inPoll := true })
      (hi : q.inPoll = false) (hp : q.state.polling = true) (hc : s.cancelled = false)
      (hr : belowLimit d.maxConcurrency q.state.flights.length = true) (he : ev = .polling r)
  /-- the token was noticed -/
  | stops (n : Nat) (hs : q.stream = some n) (hi : q.inPoll = false) (h : q' = { q with state := { q.state with polling := false } })
      (he : ev = .stopped r)
  /-- the poll is over -/
  | pends (n : Nat) (hs : q.stream = some n) (hi : q.inPoll = true) (h : q' = { q with inPoll := false }) (he : ev = .pending r)
  /-- the stream returned a job -/
  | takes (n k : Nat) (d : Runner) (j : Job) (hs : q.stream = some n) (hi : q.inPoll = true) (hd : defs[r]? = some d)
      (h : q' = q.take d j) (he : ev = .moved r (.returned k j) (some (d.start j)))
  /-- an execution ended -/
  | ends (t : Task) (jn : Joined) (o : Option Op) (hi : q.inPoll = false) (hs : q.state.flights ≠ [])
      (h : (∃ i fl, (∀ o x, fl.phase = .reporting o → o ≠ .load x) ∧ q' = { q with state := { q.state with flights := q.state.flights.set i fl } }) ∨ q' = { q with state := q.state.crash })
      (he : ev = .ended r t jn o)
  /-- an execution reported -/
  | reports (t : Task) (e : Ev) (i : Nat) (hi : q.inPoll = false) (hs : q.state.flights ≠ [])
      (h : q' = { q with state := { q.state with flights := q.state.flights.eraseIdx i } }) (he : ev = .reported r t e)

/-- A report is no request for a job. -/
theorem report_not_load {d : Runner} {now : Time} {t : Task} {j : Joined} {o : Op} (h : d.report now t j = some o) (x : String) :
    o ≠ .load x := by
  rintro rfl
  have he : ∀ e, t.handleError now e ≠ some (.load x) := by
    intro e h
    simp only [Task.handleError] at h
    split at h
    · cases h
    · cases ha : addTime now t.delay <;> rw [ha] at h <;> cases h
  cases j with
  | result r =>
    cases r with
    | done => cases h
    | cancel reason => cases h
    | snooze delay =>
      simp only [Runner.report] at h
      cases ha : addTime now delay <;> rw [ha] at h <;> cases h
    | error type message => exact he _ h
  | elapsed l => exact he _ h
  | joinError p msg => exact he _ h

private theorem live_set {l : List LiveRunner} {r n : Nat} {q p : LiveRunner} (h : l[r]? = some q) :
    (l.set n p)[r]? = some (if n = r then p else q) := by
  by_cases hn : n = r
  · subst hn
    simp [(List.getElem?_eq_some_iff.mp h).1]
  · simp [hn, h]

/-- Every action moves every runner in one of these ways. -/
theorem live_moves (defs : List Runner) (now : Time) (s : Live) (a : LvAct) (r : Nat) (q : LiveRunner) (hq : s.runners[r]? = some q) :
    ∃ q', (s.act defs now a).2.runners[r]? = some q' ∧ LiveMove defs now s (s.act defs now a).2 r q q' (s.act defs now a).1 := by
  have one : ∀ (n : Nat) (p : LiveRunner) (s' : Live) (ev : LvEv), s'.runners = s.runners.set n p →
      (∀ q₀, s.runners[n]? = some q₀ → LiveMove defs now s s' n q₀ p ev) →
      ∃ q', s'.runners[r]? = some q' ∧ LiveMove defs now s s' r q q' ev := by
    intro n p s' ev h hm
    rw [h, live_set hq]
    refine ⟨_, rfl, ?_⟩
    by_cases hn : n = r
    · subst hn; rw [if_pos rfl]; exact hm q hq
    · rw [if_neg hn]; exact .same rfl
  cases a with
  | client a => exact ⟨q, hq, .same rfl⟩
  | begin n =>
    simp only [Live.act]
    cases hd : defs[n]? with
    | none => exact ⟨q, hq, .same rfl⟩
    | some d =>
      cases hq' : s.runners[n]? with
      | none => exact ⟨q, hq, .same rfl⟩
      | some q₀ =>
        obtain ⟨st, ip, rs⟩ := q₀
        cases st with
        | none =>
          refine one n _ _ _ rfl fun q₀ h => ?_
          rw [hq', Option.some.injEq] at h; subst h
          exact .begun rfl rfl (by simp [Streams.step])
        | some n => exact ⟨q, hq, .same rfl⟩
  | poll n =>
    simp only [Live.act]
    cases hd : defs[n]? with
    | none => exact ⟨q, hq, .same rfl⟩
    | some d =>
      cases hq' : s.runners[n]? with
      | none => exact ⟨q, hq, .same rfl⟩
      | some q₀ =>
        obtain ⟨st, ip, rs⟩ := q₀
        cases st with
        | none => exact ⟨q, hq, .same rfl⟩
        | some k =>
          cases ip with
          | true => exact ⟨q, hq, .same rfl⟩
          | false =>
            simp only
            by_cases hb : (rs.polling && belowLimit d.maxConcurrency rs.flights.length) = true
            · rw [if_pos hb]
              simp only [Bool.and_eq_true] at hb
              cases hc : s.cancelled with
              | true =>
                refine one n _ _ _ rfl fun q₀ h => ?_
                rw [hq', Option.some.injEq] at h; subst h
                exact .stops k rfl rfl rfl rfl
              | false =>
                refine one n _ _ _ rfl fun q₀ h => ?_
                rw [hq', Option.some.injEq] at h; subst h
                exact .polls k d rfl hd rfl rfl hb.1 hc hb.2 rfl
            · rw [if_neg hb]; exact ⟨q, hq, .same rfl⟩
  | step n timer =>
    simp only [Live.act]
    cases hd : defs[n]? with
    | none => exact ⟨q, hq, .same rfl⟩
    | some d =>
      cases hq' : s.runners[n]? with
      | none => exact ⟨q, hq, .same rfl⟩
      | some q₀ =>
        obtain ⟨st, ip, rs⟩ := q₀
        cases st with
        | none => exact ⟨q, hq, .same rfl⟩
        | some k =>
          cases ip with
          | false => exact ⟨q, hq, .same rfl⟩
          | true =>
            simp only
            generalize s.streams.step now (.stream k timer) = z
            obtain ⟨ev, st'⟩ := z
            cases ev with
            | nothing =>
              refine one n _ _ _ rfl fun q₀ h => ?_
              rw [hq', Option.some.injEq] at h; subst h
              exact .pends k rfl rfl rfl rfl
            | returned k' j =>
              refine one n _ _ _ rfl fun q₀ h => ?_
              rw [hq', Option.some.injEq] at h; subst h
              exact .takes k k' d j rfl rfl hd rfl rfl
            | _ => exact ⟨q, hq, .same rfl⟩
  | finish n i b =>
    simp only [Live.act]
    cases hd : defs[n]? with
    | none => exact ⟨q, hq, .same rfl⟩
    | some d =>
      cases hq' : s.runners[n]? with
      | none => exact ⟨q, hq, .same rfl⟩
      | some q₀ =>
        obtain ⟨st, ip, rs⟩ := q₀
        cases ip with
        | true => exact ⟨q, hq, .same rfl⟩
        | false =>
          simp only
          cases hf : rs.flights[i]? with
          | none => exact ⟨q, hq, .same rfl⟩
          | some fl =>
            obtain ⟨t, ph⟩ := fl
            cases ph with
            | reporting o => exact ⟨q, hq, .same rfl⟩
            | running =>
              have hne : rs.flights ≠ [] := by rintro h; rw [h] at hf; simp at hf
              simp only
              cases t.join b with
              | none => exact ⟨q, hq, .same rfl⟩
              | some jn =>
                simp only
                cases hrep : d.report now t jn with
                | none =>
                  refine one n _ _ _ rfl fun q₀ h => ?_
                  rw [hq', Option.some.injEq] at h; subst h
                  exact .ends t jn none rfl hne (.inr rfl) rfl
                | some o =>
                  refine one n _ _ _ rfl fun q₀ h => ?_
                  rw [hq', Option.some.injEq] at h; subst h
                  exact .ends t jn (some o) rfl hne (.inl ⟨i, _, fun o' x h => by cases h; exact report_not_load hrep x, rfl⟩) rfl
  | report n i =>
    simp only [Live.act]
    cases hq' : s.runners[n]? with
    | none => exact ⟨q, hq, .same rfl⟩
    | some q₀ =>
      obtain ⟨st, ip, rs⟩ := q₀
      cases ip with
      | true => exact ⟨q, hq, .same rfl⟩
      | false =>
        simp only
        cases hf : rs.flights[i]? with
        | none => exact ⟨q, hq, .same rfl⟩
        | some fl =>
          obtain ⟨t, ph⟩ := fl
          cases ph with
          | running => exact ⟨q, hq, .same rfl⟩
          | reporting o =>
            have hne : rs.flights ≠ [] := by rintro h; rw [h] at hf; simp at hf
            refine one n _ _ _ rfl fun q₀ h => ?_
            rw [hq', Option.some.injEq] at h; subst h
            exact .reports t _ i rfl hne rfl rfl
  | shutdown => exact ⟨q, hq, .same rfl⟩

private theorem readers_length (s : Streams) (now : Time) (a : StAct) :
    s.readers.length ≤ (s.step now a).2.readers.length := by
  cases a with
  | client a => exact Nat.le_refl _
  | subscribe x => simp [Streams.step]
  | stream n b =>
    simp only [Streams.step]
    cases s.readers[n]? with
    | none => exact Nat.le_refl _
    | some rd =>
      simp only [Streams.streamStep]
      cases rd.wait with
      | ready => simp [Streams.setWait]
      | looked f => simp [Streams.setWait]
      | decided c d =>
        simp only
        split
        · split <;> simp [Streams.setWait, Streams.setMem]
        · simp [Streams.setWait]
      | asleep c si d =>
        simp only
        split
        · simp [Streams.setWait, Streams.setMem]
        · split <;> simp [Streams.setWait]

private theorem take_stream (d : Runner) (j : Job) (q : LiveRunner) : (q.take d j).stream = q.stream ∧ (q.take d j).inPoll = false := by
  unfold LiveRunner.take
  split <;> exact ⟨rfl, rfl⟩

private theorem live_back {defs : List Runner} {now : Time} {s : Live} {a : LvAct} {r : Nat} {q' : LiveRunner}
    (h : (s.act defs now a).2.runners[r]? = some q') :
    ∃ q, s.runners[r]? = some q ∧ LiveMove defs now s (s.act defs now a).2 r q q' (s.act defs now a).1 := by
  have hlen : (s.act defs now a).2.runners.length = s.runners.length := by
    cases a with
    | client a => rfl
    | begin n =>
      simp only [Live.act]
      split <;> simp
    | poll n =>
      simp only [Live.act]
      split
      · split
        · split <;> simp
        · rfl
      · rfl
    | step n b =>
      simp only [Live.act]
      split
      · split <;> simp
      · rfl
    | finish n i b =>
      simp only [Live.act]
      split
      · split
        · split
          · rfl
          · split <;> simp
        · rfl
      · rfl
    | report n i =>
      simp only [Live.act]
      split
      · split
        · simp
        · rfl
      · rfl
    | shutdown => rfl
  have hr : r < s.runners.length := hlen ▸ (List.getElem?_eq_some_iff.mp h).1
  obtain ⟨q, hq⟩ : ∃ q, s.runners[r]? = some q := ⟨_, List.getElem?_eq_getElem hr⟩
  obtain ⟨p, h1, h2⟩ := live_moves defs now s a r q hq
  rw [h, Option.some.injEq] at h1
  subst h1
  exact ⟨q, hq, h2⟩

private theorem move_stream {defs : List Runner} {now : Time} {s s' : Live} {r : Nat} {q q' : LiveRunner} {ev : LvEv}
    (h : LiveMove defs now s s' r q q' ev) :
    q'.stream = q.stream ∨ (q.stream = none ∧ q'.stream = some s.streams.readers.length ∧
      s'.streams.readers.length = s.streams.readers.length + 1) := by
  cases h with
  | same h => exact .inl (by rw [h])
  | begun hs h hl => exact .inr ⟨hs, by rw [h], hl⟩
  | polls n d hs hd h => exact .inl (by rw [h])
  | stops n hs hi h => exact .inl (by rw [h])
  | pends n hs hi h => exact .inl (by rw [h])
  | takes n k d j hs hi hd h => exact .inl (by rw [h, (take_stream d j q).1])
  | ends t jn o hi hs h =>
    rcases h with ⟨i, fl, -, h⟩ | h
    · exact .inl (by rw [h])
    · exact .inl (by rw [h])
  | reports t e i hi hs h => exact .inl (by rw [h])

theorem liveInv_init (defs : List Runner) (p : Bool) : LiveInv (Live.init defs p) := by
  have h : ∀ (r : Nat) (q : LiveRunner), (Live.init defs p).runners[r]? = some q → q = {} := by
    intro r q h
    have := List.mem_of_getElem? h
    simp only [Live.init, List.mem_map] at this
    obtain ⟨_, -, h⟩ := this
    exact h.symm
  refine ⟨streamInv_init p, ?_, ?_, ?_, ?_⟩
  · intro r q n hq hn; rw [h r q hq] at hn; cases hn
  · intro r r' q q' n hq _ hn; rw [h r q hq] at hn; cases hn
  · intro r q hq _; rw [h r q hq]; exact ⟨rfl, rfl⟩
  · intro r q hq fl hfl; rw [h r q hq] at hfl; simp at hfl

theorem liveInv_act {defs : List Runner} {s : Live} (H : LiveInv s) (now : Time) (a : LvAct) : LiveInv (s.act defs now a).2 := by
  have hview := (live_view defs now s a).1
  have hlen : s.streams.readers.length ≤ (s.act defs now a).2.streams.readers.length := by
    rw [hview]
    cases liveView defs s a with
    | none => exact Nat.le_refl _
    | some sa => exact readers_length _ _ _
  refine ⟨?_, ?_, ?_, ?_, ?_⟩
  · rw [hview]
    cases liveView defs s a with
    | none => exact H.inv
    | some sa => exact streamInv_step H.inv now sa
  · intro r q' n hq' hn
    obtain ⟨q, hq, hm⟩ := live_back hq'
    rcases move_stream hm with h | ⟨h1, h2, h3⟩
    · exact Nat.lt_of_lt_of_le (H.bound r q n hq (h ▸ hn)) hlen
    · rw [hn, Option.some.injEq] at h2
      omega
  · intro r r' q₁ q₂ n h1 h2 hn1 hn2
    obtain ⟨p₁, g1, m1⟩ := live_back h1
    obtain ⟨p₂, g2, m2⟩ := live_back h2
    rcases move_stream m1 with e1 | ⟨-, e1, l1⟩ <;> rcases move_stream m2 with e2 | ⟨-, e2, l2⟩
    · exact H.distinct r r' p₁ p₂ n g1 g2 (e1 ▸ hn1) (e2 ▸ hn2)
    · rw [hn2, Option.some.injEq] at e2
      have := H.bound r p₁ n g1 (e1 ▸ hn1)
      omega
    · rw [hn1, Option.some.injEq] at e1
      have := H.bound r' p₂ n g2 (e2 ▸ hn2)
      omega
    · -- both subscribed in one action
      refine Classical.byContradiction fun hne => ?_
      cases a with
      | begin k =>
        have hother : ∀ (x : Nat) (p : LiveRunner), s.runners[x]? = some p → k ≠ x →
            (s.act defs now (.begin k)).2.runners[x]? = some p := by
          intro x p hp hk
          simp only [Live.act]
          split
          · rw [live_set hp, if_neg hk]
          · exact hp
        by_cases hk : k = r
        · have := hother r' p₂ g2 (fun h => hne (hk.symm.trans h))
          rw [h2, Option.some.injEq] at this
          subst this
          have := H.bound r' q₂ n g2 hn2
          rw [hn2, Option.some.injEq] at e2
          omega
        · have := hother r p₁ g1 hk
          rw [h1, Option.some.injEq] at this
          subst this
          have := H.bound r q₁ n g1 hn1
          rw [hn1, Option.some.injEq] at e1
          omega
      | client a => simp [Live.act] at l1
      | shutdown => simp [Live.act] at l1
      | poll k => rw [(live_view defs now s (.poll k)).1] at l1; simp [liveView] at l1
      | finish k i b => rw [(live_view defs now s (.finish k i b)).1] at l1; simp [liveView] at l1
      | report k i =>
        rw [(live_view defs now s (.report k i)).1] at l1
        simp only [liveView] at l1
        split at l1
        · simp at l1
        · rename_i sa hsa
          split at hsa
          · split at hsa
            · cases hsa; simp [Streams.step] at l1
            · cases hsa
          · cases hsa
      | step k b =>
        rw [(live_view defs now s (.step k b)).1] at l1
        simp only [liveView] at l1
        split at l1
        · simp at l1
        · rename_i sa hsa
          split at hsa
          · cases hsa
            rename_i x _ _ _ _
            have hs : ∀ x, (s.streams.step now (.stream x b)).2.readers.length = s.streams.readers.length := by
              intro x
              simp only [Streams.step]
              cases s.streams.readers[x]? with
              | none => rfl
              | some rd =>
                simp only [Streams.streamStep]
                cases rd.wait with
                | ready => simp [Streams.setWait]
                | looked f => simp [Streams.setWait]
                | decided c d =>
                  simp only
                  split
                  · split <;> simp [Streams.setWait, Streams.setMem]
                  · simp [Streams.setWait]
                | asleep c si d =>
                  simp only
                  split
                  · simp [Streams.setWait, Streams.setMem]
                  · split <;> simp [Streams.setWait]
            rw [hs] at l1
            omega
          · cases hsa
  · intro r q' hq' hn
    obtain ⟨q, hq, hm⟩ := live_back hq'
    have hqn : q.stream = none := by
      rcases move_stream hm with h | ⟨-, h, -⟩
      · rw [← h]; exact hn
      · rw [hn] at h; cases h
    obtain ⟨i1, i2⟩ := H.idle r q hq hqn
    cases hm with
    | same h => rw [h]; exact ⟨i1, i2⟩
    | begun hs h hl => rw [h] at hn; cases hn
    | polls n d hs => rw [hqn] at hs; cases hs
    | stops n hs => rw [hqn] at hs; cases hs
    | pends n hs => rw [hqn] at hs; cases hs
    | takes n k d j hs => rw [hqn] at hs; cases hs
    | ends t jn o hi hs => exact (hs i2).elim
    | reports t e i hi hs => exact (hs i2).elim
  · intro r q' hq' fl hfl
    obtain ⟨q, hq, hm⟩ := live_back hq'
    have old := H.reports r q hq
    cases hm with
    | same h => rw [h] at hfl; exact old fl hfl
    | begun hs h hl => rw [h] at hfl; exact old fl hfl
    | polls n d hs hd h => rw [h] at hfl; exact old fl hfl
    | stops n hs hi h => rw [h] at hfl; exact old fl hfl
    | pends n hs hi h => rw [h] at hfl; exact old fl hfl
    | takes n k d j hs hi hd h =>
      rw [h] at hfl
      unfold LiveRunner.take at hfl
      split at hfl
      · simp only [List.mem_append, List.mem_singleton] at hfl
        rcases hfl with hfl | hfl
        · exact old fl hfl
        · subst hfl; intro o x h; cases h
      · exact old fl hfl
      · simp [RunnerState.crash] at hfl
    | ends t jn o hi hs h =>
      rcases h with ⟨i, g, hg, h⟩ | h
      · rw [h] at hfl
        rcases List.mem_or_eq_of_mem_set hfl with hfl | hfl
        · exact old fl hfl
        · rw [hfl]; exact hg
      · rw [h] at hfl; simp [RunnerState.crash] at hfl
    | reports t e i hi hs h => rw [h] at hfl; exact old fl (List.mem_of_mem_eraseIdx hfl)

theorem liveInv_run {defs : List Runner} {s : Live} (H : LiveInv s) (as : List TLvAct) : LiveInv (s.run defs as) := by
  induction as generalizing s with
  | nil => exact H
  | cons a as ih => exact ih (liveInv_act H a.now a.act)

end Rexecutor
