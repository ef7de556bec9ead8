import Verif.Lemmas.PgLiveSys
import Verif.Props.PgLifecycle
import Verif.Props.PgStream
import Verif.Props.OwnJobs

/-!
# C125 and C75, on Postgres, with the streams of the runners
-/

namespace Rexecutor

/-- What a schedule of runners with streams on Postgres looks like from outside. -/
def PgLive.seen (hash : HashFn) (parses : Parses) (defs : List Runner) (on : List Nat) (as : List TPLAct) : List TPSEv :=
  ((PgLive.init defs on).trace hash parses defs as).filterMap fun e => e.ev.visible.map fun v => ⟨e.now, v⟩

private theorem plain_init (defs : List Runner) (on : List Nat) : (PgLive.init defs on).plain = PgSys.init defs := by
  simp only [PgLive.plain, PgLive.init, PgSys.init, List.map_map]
  congr 1
  apply List.ext_getElem?
  intro n
  simp only [List.getElem?_map, List.getElem?_zipIdx]
  cases defs[n]? <;> rfl

/-- **C125, on Postgres.** Whatever runners with streams do is what runners do that ask the database directly: for
every schedule of the former, with any nodes and notifications, there is one of the latter with the same database
actions, hand-out statements and answers, ends of executions, reports, failures and stops, at the same times and in
the same order, and in the end the same table, the same statements under way and the same executions in flight. -/
theorem C125_on_postgres (hash : HashFn) (parses : Parses) (defs : List Runner) (on : List Nat) (as : List TPLAct) :
    ∃ bs : List TPSAct, (PgSys.init defs).trace hash defs bs = PgLive.seen hash parses defs on as ∧
      ((PgSys.init defs).run hash defs bs).conc = ((PgLive.init defs on).run hash parses defs as).net.conc ∧
      ∀ (r : Nat) (q : PgLiveRunner), ((PgLive.init defs on).run hash parses defs as).runners[r]? = some q →
        ∃ rs, ((PgSys.init defs).run hash defs bs).runners[r]? = some rs ∧ rs.flights = q.flights ∧ rs.polling = q.polling := by
  obtain ⟨bs, h1, h2⟩ := pgLive_refines hash parses (pgLiveInv_init defs on) as
  rw [plain_init] at h1 h2
  refine ⟨bs, h1, by rw [h2]; rfl, fun r q hq => ?_⟩
  rw [h2]
  exact ⟨_, plain_runner hq, rfl, rfl⟩

/-- **C125, limit, on Postgres.** A runner with its stream never has more executions in flight than its limit. -/
theorem C125_limit_on_postgres (hash : HashFn) (parses : Parses) (defs : List Runner) (on : List Nat) (as : List TPLAct)
    (r k : Nat) (d : Runner) (q : PgLiveRunner) (hd : defs[r]? = some d) (hk : d.maxConcurrency = some k) (hk1 : 1 ≤ k)
    (hq : ((PgLive.init defs on).run hash parses defs as).runners[r]? = some q) : (q.flights.filterMap id).length ≤ k := by
  obtain ⟨bs, -, -, h⟩ := C125_on_postgres hash parses defs on as
  obtain ⟨rs, h1, h2, -⟩ := h r q hq
  have := C73_limit hash defs bs r k d rs hd hk hk1 h1
  rw [← h2]
  exact Nat.le_trans (Nat.le_add_right _ _) this

/-- **C125, own jobs, on Postgres.** A runner's stream returns jobs of the runner's executor only, marked as
executing, and an execution that is started is of the job returned. -/
theorem C125_own_jobs_on_postgres (hash : HashFn) (parses : Parses) (defs : List Runner) (on : List Nat) (as : List TPLAct)
    (e : TPLEv) (he : e ∈ (PgLive.init defs on).trace hash parses defs as) (r i : Nat) (d : Runner) (j : Job) (c : Time) (dl : Delta) (k : Nat)
    (st : Option Started) (hd : defs[r]? = some d) (hev : e.ev = .moved r (.loading c dl k) (some (.job (some j))) (.returned i j) st) :
    j.executor = d.name ∧ j.status = .executing ∧ ∀ t, st = some (.running t) → t.id = j.id := by
  obtain ⟨bs, h, -⟩ := C125_on_postgres hash parses defs on as
  have hmem : (⟨e.now, .took r (.job (some j)) st⟩ : TPSEv) ∈ (PgSys.init defs).trace hash defs bs := by
    rw [h]
    exact List.mem_filterMap.mpr ⟨e, he, by rw [hev]; rfl⟩
  obtain ⟨pre, post, hsp⟩ := List.append_of_mem hmem
  obtain ⟨h1, h2, -, h4⟩ := C89_own_jobs_postgres hash defs bs pre post _ hsp r d j st hd rfl
  exact ⟨h1, h2, h4⟩

/-- **C125, attempts, on Postgres.** A job enqueued with `max_attempts = n ≥ 1` that other clients leave alone fails
at most `n` times and is handed out at most `n` times plus once for every snooze, by runners with their streams. -/
theorem C125_attempts_on_postgres (hash : HashFn) (parses : Parses) (defs : List Runner) (on : List Nat) (as : List TPLAct)
    (id : Int) (n : Nat) (hn : 1 ≤ n) (hq : OthersLeave id (PgLive.seen hash parses defs on as))
    (hi : PgEnqueuedWith id n (dbHistory (PgLive.seen hash parses defs on as))) :
    countPg (PSEv.failsRun id) (PgLive.seen hash parses defs on as) ≤ n ∧
    pgHandouts id (dbHistory (PgLive.seen hash parses defs on as)) ≤
      n + pgSnoozes id (dbHistory (PgLive.seen hash parses defs on as)) := by
  obtain ⟨bs, h, -⟩ := C125_on_postgres hash parses defs on as
  rw [← h] at hq hi ⊢
  exact C68_failures_bounded hash defs bs id n hn hq hi

/-- **C125, one execution, on Postgres.** As long as other clients leave a job alone, at most one execution of it is
in flight among all runners of all nodes. -/
theorem C125_one_execution_on_postgres (hash : HashFn) (parses : Parses) (defs : List Runner) (on : List Nat) (as : List TPLAct)
    (id : Int) (hq : OthersLeave id (PgLive.seen hash parses defs on as)) (r r' i i' : Nat) (q q' : PgLiveRunner) (f f' : Flight)
    (hr : ((PgLive.init defs on).run hash parses defs as).runners[r]? = some q)
    (hr' : ((PgLive.init defs on).run hash parses defs as).runners[r']? = some q')
    (hf : q.flights[i]? = some (some f)) (hf' : q'.flights[i']? = some (some f')) (hid : f.task.id = id) (hid' : f'.task.id = id) :
    r = r' ∧ i = i' := by
  obtain ⟨bs, h, -, hf0⟩ := C125_on_postgres hash parses defs on as
  rw [← h] at hq
  obtain ⟨rs, h1, h2, -⟩ := hf0 r q hr
  obtain ⟨rs', h1', h2', -⟩ := hf0 r' q' hr'
  exact (C76_one_execution hash defs bs id hq r r' rs rs' h1 h1' i f (by rw [h2]; exact hf) hid).1 i' f' (by rw [h2']; exact hf') hid'

/-- Runner `r` took a job from its stream. -/
def PLEv.takes (r : Nat) : PLEv → Bool
  | .moved r' _ _ (.returned _ _) _ => r' == r
  | _ => false

/-- The stream of runner `r` made a step. -/
def PLEv.moves (r : Nat) : PLEv → Bool
  | .moved r' _ _ _ _ => r' == r
  | _ => false

private def pgInPoll (s : PgLive) (r : Nat) : Bool :=
  match s.runners[r]? with
  | some q => q.inPoll
  | none => false

private def pgTold (s : PgLive) (r : Nat) : Prop := ∀ q, s.runners[r]? = some q → q.told = true

private theorem told_put {s : PgLive} {x r : Nat} {p q : PgLiveRunner} {net : PgNet} (hq : s.runners[x]? = some q) (ht : q.told = true → p.told = true)
    (hi : p.inPoll = true → q.inPoll = true) :
    (pgTold s r → pgTold { net := net, runners := s.runners.set x p } r) ∧
    (pgInPoll { net := net, runners := s.runners.set x p } r = true → pgInPoll s r = true) := by
  simp only [pgTold, pgInPoll, List.getElem?_set]
  by_cases e : x = r
  · subst e
    have hl := (List.getElem?_eq_some_iff.mp hq).1
    simp only [if_true, hl, hq, Option.some.injEq]
    exact ⟨fun h q' hq' => by rw [← hq']; exact ht (h q rfl), hi⟩
  · simp only [e, if_false]
    exact ⟨id, id⟩

/-- After runner `r` was told, none of its polls begins, and one that returns a job is over. -/
private theorem told_step (hash : HashFn) (parses : Parses) {defs : List Runner} (tie : Int → Nat) {now : Time} {s : PgLive} (a : PLAct) {r : Nat}
    (hc : pgTold s r) :
    pgTold (s.act hash parses defs tie now a).2 r ∧
    (pgInPoll (s.act hash parses defs tie now a).2 r = true → pgInPoll s r = true) ∧
    ((s.act hash parses defs tie now a).1.moves r = true → pgInPoll s r = true) ∧
    ((s.act hash parses defs tie now a).1.takes r = true → pgInPoll (s.act hash parses defs tie now a).2 r = false) := by
  have stay : pgTold s r ∧ (pgInPoll s r = true → pgInPoll s r = true) ∧ (PLEv.quiet.moves r = true → pgInPoll s r = true) ∧
      (PLEv.quiet.takes r = true → pgInPoll s r = false) := ⟨hc, id, nofun, nofun⟩
  cases a with
  | db a => exact ⟨hc, id, nofun, nofun⟩
  | connect => exact stay
  | deliver n => exact stay
  | reconnect n => exact stay
  | fail n => exact stay
  | begin x =>
    simp only [PgLive.act]
    split
    · rename_i d q hd hq
      split
      · obtain ⟨h1, h2⟩ := told_put (r := r) (net := (s.net.step hash parses tie now (.subscribe q.node d.name)).2)
          (p := { q with stream := some s.net.readers.length }) hq id id
        exact ⟨h1 hc, h2, nofun, nofun⟩
      · exact stay
    · exact stay
  | poll x =>
    simp only [PgLive.act]
    split
    · rename_i d q hd hq
      split
      · rename_i n hs
        split
        · rename_i hb
          simp only [Bool.and_eq_true, Bool.not_eq_true'] at hb
          split
          · obtain ⟨h1, h2⟩ := told_put (r := r) (net := s.net) (p := { q with polling := false }) hq id id
            exact ⟨h1 hc, h2, nofun, nofun⟩
          · rename_i ht
            by_cases e : x = r
            · subst e
              exact absurd (hc q hq) ht
            · refine ⟨?_, ?_, nofun, nofun⟩
              · simpa only [pgTold, List.getElem?_set, e, if_false] using hc
              · simp only [pgInPoll, List.getElem?_set, e, if_false]; exact id
        · exact stay
      · exact stay
    · exact stay
  | pend x =>
    simp only [PgLive.act]
    split
    · rename_i q hq
      obtain ⟨h1, h2⟩ := told_put (r := r) (net := s.net) (p := { q with inPoll := false }) hq id nofun
      exact ⟨h1 hc, h2, nofun, nofun⟩
    · exact stay
  | step x b =>
    simp only [PgLive.act]
    split
    · rename_i d q hd hq
      split
      · rename_i n hs
        split
        · split
          · rename_i hi
            have hx : ∀ r', (x == r') = true → pgInPoll s r' = true := by
              intro r' e
              have e := beq_iff_eq.mp e
              subst e
              simp [pgInPoll, hq, hi]
            split
            · rename_i i j hev
              have hin : (q.take d j).inPoll = false := by unfold PgLiveRunner.take; split <;> rfl
              have htl : (q.take d j).told = q.told := by unfold PgLiveRunner.take; split <;> rfl
              obtain ⟨h1, h2⟩ := told_put (r := r) (net := (s.net.step hash parses tie now (.stream n b)).2) (p := q.take d j) hq
                (fun h => htl.trans h) (fun h => by rw [hin] at h; cases h)
              refine ⟨h1 hc, h2, hx r, fun h => ?_⟩
              rw [hev] at h
              have e := beq_iff_eq.mp (show (x == r) = true from h)
              subst e
              simp only [pgInPoll, List.getElem?_set_self (List.getElem?_eq_some_iff.mp hq).1, hin]
            · rename_i i hev
              obtain ⟨h1, h2⟩ := told_put (r := r) (net := (s.net.step hash parses tie now (.stream n b)).2)
                (p := { q with inPoll := false }) hq id nofun
              refine ⟨h1 hc, h2, hx r, fun h => ?_⟩
              rw [hev] at h; cases h
            · rename_i hne _
              refine ⟨hc, id, hx r, fun h => ?_⟩
              generalize (s.net.step hash parses tie now (.stream n b)).1 = ev at *
              cases ev with
              | returned i j => exact absurd rfl (hne i j)
              | _ => cases h
          · exact stay
        · exact stay
      · exact stay
    · exact stay
  | streamFails x =>
    simp only [PgLive.act]
    split
    · rename_i q hq
      split
      · rename_i n hs
        split
        · split
          · split
            · rename_i net _
              obtain ⟨h1, h2⟩ := told_put (r := r) (net := net) (p := { q with inPoll := false }) hq id nofun
              exact ⟨h1 hc, h2, nofun, nofun⟩
            · exact stay
          · exact stay
        · exact stay
      · exact stay
    · exact stay
  | finish x i b =>
    simp only [PgLive.act]
    split
    · rename_i d q hd hq
      split
      · split
        · exact stay
        · split
          · refine ⟨(told_put hq ?_ ?_).1 hc, (told_put hq ?_ ?_).2, nofun, nofun⟩ <;> exact id
          · obtain ⟨h1, h2⟩ := told_put (r := r) (net := s.net) (p := q.crash) hq id nofun
            exact ⟨h1 hc, h2, nofun, nofun⟩
      · exact stay
    · exact stay
  | report x i =>
    simp only [PgLive.act]
    split
    · rename_i q hq
      split
      · rename_i t o hf
        split
        · exact stay
        · obtain ⟨h1, h2⟩ := told_put (r := r) (net := (s.net.step hash parses tie now (.db (.stmt o))).2)
            (p := { q with flights := q.flights.set i none }) hq id id
          exact ⟨h1 hc, h2, nofun, nofun⟩
      · exact stay
    · exact stay
  | lose x i =>
    simp only [PgLive.act]
    split
    · rename_i q hq
      split
      · obtain ⟨h1, h2⟩ := told_put (r := r) (net := s.net) (p := { q with flights := q.flights.set i none }) hq id id
        exact ⟨h1 hc, h2, nofun, nofun⟩
      · exact stay
    · exact stay
  | tell x =>
    simp only [PgLive.act]
    split
    · rename_i q hq
      obtain ⟨h1, h2⟩ := told_put (r := r) (net := s.net) (p := { q with told := true }) hq (fun _ => rfl) id
      exact ⟨h1 hc, h2, nofun, nofun⟩
    · exact stay
  | kill x =>
    simp only [PgLive.act]
    split
    · rename_i q hq
      obtain ⟨h1, h2⟩ := told_put (r := r) (net := s.net) (p := q.crash) hq id nofun
      exact ⟨h1 hc, h2, nofun, nofun⟩
    · exact stay

private theorem told_run (hash : HashFn) (parses : Parses) {defs : List Runner} {s : PgLive} (as : List TPLAct) {r : Nat} (hc : pgTold s r) :
    (s.trace hash parses defs as).countP (fun e => e.ev.takes r) ≤ (if pgInPoll s r then 1 else 0) ∧
    (pgInPoll s r = false → ∀ e ∈ s.trace hash parses defs as, e.ev.moves r = false) := by
  induction as generalizing s with
  | nil => exact ⟨by simp [PgLive.trace], fun _ e he => by cases he⟩
  | cons a as ih =>
    obtain ⟨h1, h2, h3, h4⟩ := told_step hash parses (defs := defs) a.tie (now := a.now) a.act hc
    obtain ⟨ih1, ih2⟩ := ih h1
    refine ⟨?_, ?_⟩
    · simp only [PgLive.trace, List.countP_cons]
      cases ht : (s.act hash parses defs a.tie a.now a.act).1.takes r with
      | true =>
        have hm : (s.act hash parses defs a.tie a.now a.act).1.moves r = true := by
          generalize (s.act hash parses defs a.tie a.now a.act).1 = ev at *
          cases ev with
          | moved r' w an e st =>
            cases e with
            | returned i j => exact ht
            | _ => cases ht
          | _ => cases ht
        rw [h4 ht] at ih1
        rw [h3 hm]
        simp only [Bool.false_eq_true, if_false, if_true] at *
        omega
      | false =>
        cases hi : pgInPoll (s.act hash parses defs a.tie a.now a.act).2 r with
        | true =>
          rw [h2 hi]
          rw [hi] at ih1
          simpa using ih1
        | false =>
          rw [hi] at ih1
          simp only [Bool.false_eq_true, if_false] at *
          omega
    · intro hno e he
      simp only [PgLive.trace, List.mem_cons] at he
      rcases he with rfl | he
      · cases hm : (s.act hash parses defs a.tie a.now a.act).1.moves r with
        | false => rfl
        | true => rw [h3 hm] at hno; cases hno
      · refine ih2 ?_ e he
        cases hi : pgInPoll (s.act hash parses defs a.tie a.now a.act).2 r with
        | false => rfl
        | true => rw [h2 hi] at hno; cases hno

/-- **C75, at most one more.** From any state: after a runner has been told to stop it takes at most one more job
from its stream; unless a poll of its stream was under way then, it takes none, and its stream sends no further
statement. Missing: that it takes none, which is false (`C75_violated`). -/
theorem C75_at_most_one_partial (hash : HashFn) (parses : Parses) (defs : List Runner) (s : PgLive) (a : TPLAct) (r : Nat) (ha : a.act = .tell r)
    (after : List TPLAct) :
    ((s.run hash parses defs [a]).trace hash parses defs after).countP (fun e => e.ev.takes r) ≤ 1 ∧
    ((∀ q, s.runners[r]? = some q → q.inPoll = false) →
      ∀ e ∈ (s.run hash parses defs [a]).trace hash parses defs after, e.ev.moves r = false) := by
  have hs : s.run hash parses defs [a] = (s.act hash parses defs a.tie a.now (.tell r)).2 := by rw [← ha]; rfl
  have ht : pgTold (s.run hash parses defs [a]) r := by
    intro q hq
    rw [hs] at hq
    simp only [PgLive.act] at hq
    cases h : s.runners[r]? with
    | none => rw [h] at hq; simp only at hq; rw [h] at hq; cases hq
    | some p =>
      rw [h] at hq
      simp only [List.getElem?_set_self (List.getElem?_eq_some_iff.mp h).1] at hq
      cases hq
      rfl
  obtain ⟨h1, h2⟩ := told_run hash parses (defs := defs) after ht
  refine ⟨Nat.le_trans h1 (by split <;> omega), fun hq => h2 ?_⟩
  rw [hs]
  simp only [PgLive.act, pgInPoll]
  cases h : s.runners[r]? with
  | none => simp only [h]
  | some p =>
    simp only [List.getElem?_set_self (List.getElem?_eq_some_iff.mp h).1]
    exact hq p h

/-- An action of the samples. -/
def plAct (now : Time) (a : PLAct) : TPLAct := ⟨now, fun _ => 0, a⟩

/-- A node, a runner on it, and a due job; the hand-out statement the runner's stream has sent has been executed and
the answer has come. -/
def toldBefore : List TPLAct :=
  [plAct 0 .connect, plAct 0 (.begin 0), plAct 0 (.db (.plain sampleEnq)), plAct sec (.poll 0), plAct sec (.step 0 false),
   plAct sec (.step 0 false), plAct sec (.step 0 false), plAct sec (.pend 0), plAct sec (.db (.advance 0)), plAct sec (.db (.advance 0)),
   plAct sec (.db (.advance 0)), plAct sec (.poll 0)]

/-- **C75 is false of the code** on a runtime with several threads: a poll is under way when the runner is told to
stop; it receives the answer to the hand-out statement, and the runner executes the job. -/
theorem C75_violated : ∃ (hash : HashFn) (parses : Parses) (defs : List Runner) (before after : List TPLAct) (a : TPLAct),
    a.act = .tell 0 ∧
    ∃ e ∈ ((PgLive.init defs [0]).run hash parses defs (before ++ [a])).trace hash parses defs after,
      ∃ w an i j t, e.ev = .moved 0 w an (.returned i j) (some (.running t)) := by
  refine ⟨sampleHash, sampleParses, [eagerRunner (some 1)], toldBefore, [plAct sec (.step 0 false)], plAct sec (.tell 0), rfl, _, List.mem_cons_self, ?_⟩
  exact ⟨_, _, _, _, _, rfl⟩

/-- Told before the poll begins, the runner stops and takes nothing, and the job is stranded (C69). -/
example : ((PgLive.init [eagerRunner (some 1)] [0]).trace sampleHash sampleParses [eagerRunner (some 1)]
    (toldBefore.take 11 ++ [plAct sec (.tell 0), plAct sec (.poll 0), plAct sec (.step 0 false), plAct sec (.poll 0)])).map (fun e => match e.ev with
      | .db _ => 1
      | .begun _ => 2
      | .moved .. => 3
      | .told _ => 4
      | .stopped _ true => 5
      | _ => 0) = [0, 2, 1, 0, 3, 3, 3, 0, 1, 1, 1, 4, 5, 0, 0] ∧
    ((PgLive.init [eagerRunner (some 1)] [0]).run sampleHash sampleParses [eagerRunner (some 1)]
      (toldBefore.take 11 ++ [plAct sec (.tell 0), plAct sec (.poll 0)])).net.conc.pg.rows.map (·.status) = [.executing] := by decide +kernel

/-- The runner takes the job, executes it, fails and reports; the notification wakes its stream, which sleeps until
the job is due again. From outside: enqueue, hand-out, three steps of it, the answer, the end and the report. The
hypotheses of `C125_attempts_on_postgres` and `C125_one_execution_on_postgres` are met with 2 attempts. -/
example :
    let as := toldBefore ++ [plAct sec (.step 0 false), plAct (2 * sec) (.finish 0 0 { ending := .returns (.error "oops" "it broke") }),
      plAct (2 * sec) (.report 0 0), plAct (2 * sec) (.deliver 0), plAct (2 * sec) (.poll 0), plAct (2 * sec) (.step 0 false)]
    let h := PgLive.seen sampleHash sampleParses [eagerRunner (some 1)] [0] as
    h.map (fun e => match e.ev with
      | .db _ => 1
      | .pulled _ => 2
      | .took .. => 3
      | .ended .. => 4
      | .reported .. => 5
      | _ => 0) = [1, 2, 1, 1, 1, 3, 4, 5] ∧
    countPg (PSEv.failsRun 1) h = 1 ∧ pgHandouts 1 (dbHistory h) = 1 ∧
    (h.all fun e => match e.ev with
      | .db ev => !ev.touches 1 || ev.handsOut 1
      | _ => true) = true ∧
    ((dbHistory h).all fun e => match e.ev with
      | .inserted row _ => row.id != 1 || row.maxAttempts == 2
      | _ => true) = true ∧
    ((PgLive.init [eagerRunner (some 1)] [0]).run sampleHash sampleParses [eagerRunner (some 1)] as).net.conc.pg.rows.map
      (fun r => (r.status, r.attempt)) = [(.retryable, 1)] := by decide +kernel

end Rexecutor
