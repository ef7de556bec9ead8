import Verif.Props.PgStream
import Verif.Props.PgProgress

/-! # C112: a due job is returned by a stream in bounded time (Postgres backend) -/

namespace Rexecutor

/-- What happened in the database. -/
def NetEv.back : NetEv → Option PgEv
  | .db ev _ => some ev
  | _ => none

/-- What happened in the database during a schedule. -/
def PgNet.dbEvents (hash : HashFn) (parses : Parses) (s : PgNet) (as : List TNetAct) : List PgEv :=
  (s.trace hash parses as).filterMap NetEv.back

/-- The action is a step of stream `i`. -/
def NetAct.isStream (i : Nat) : NetAct → Bool
  | .stream n _ => n == i
  | _ => false

/-- The action is the failure of a statement: of a session, or of one of stream `i`. -/
def NetAct.fails (i : Nat) : NetAct → Bool
  | .db (.abort _) => true
  | .streamFails n => n == i
  | _ => false

/-! ## The schedule of the database -/

theorem pgnet_back (hash : HashFn) (parses : Parses) (tie : Int → Nat) (now : Time) (s : PgNet) (a : NetAct) :
    ((s.step hash parses tie now a).1.back = none ∧ (s.step hash parses tie now a).2.conc = s.conc) ∨
    ∃ b, (s.step hash parses tie now a).1.back = some (s.conc.step hash tie now b).1 ∧
      (s.step hash parses tie now a).2.conc = (s.conc.step hash tie now b).2 ∧
      ∀ i, b = .abort i → a = .db (.abort i) := by
  cases a with
  | db b => exact .inr ⟨b, rfl, rfl, fun i h => by rw [h]⟩
  | connect => exact .inl ⟨rfl, rfl⟩
  | subscribe n x => exact .inl ⟨rfl, rfl⟩
  | deliver n =>
    refine .inl ⟨rfl, ?_⟩
    simp only [PgNet.step, PgNet.deliver]
    split
    · rfl
    · split
      · rfl
      · split <;> rfl
  | reconnect n => exact .inl ⟨rfl, rfl⟩
  | fail n => exact .inl ⟨rfl, rfl⟩
  | stream i timer =>
    simp only [PgNet.step]
    split
    · exact .inl ⟨rfl, rfl⟩
    · rename_i r _
      simp only [PgNet.streamStep]
      split
      · exact .inl ⟨rfl, rfl⟩
      · exact .inl ⟨rfl, rfl⟩
      · split
        · exact .inr ⟨.handout r.executor, rfl, rfl, fun i h => by cases h⟩
        · exact .inl ⟨rfl, rfl⟩
      · rename_i k _
        split
        · exact .inl ⟨rfl, rfl⟩
        · exact .inl ⟨rfl, rfl⟩
        · exact .inl ⟨rfl, rfl⟩
        · exact .inr ⟨.advance k, rfl, rfl, fun i h => by cases h⟩
      · split
        · split <;> exact .inl ⟨rfl, rfl⟩
        · split <;> exact .inl ⟨rfl, rfl⟩
  | streamFails i =>
    simp only [PgNet.step]
    split <;> exact .inl ⟨rfl, rfl⟩

theorem pgnet_acts (hash : HashFn) (parses : Parses) (s : PgNet) (as : List TNetAct) :
    ∃ bs : List TPgAct, (s.run hash parses as).conc = s.conc.run hash bs ∧
      s.dbEvents hash parses as = (s.conc.history hash bs).map (·.ev) ∧
      (bs.map (·.now)).Sublist (as.map (·.now)) ∧
      (∀ m, ∃ n, (s.run hash parses (as.take m)).conc = s.conc.run hash (bs.take n)) ∧
      ∀ (n : Nat) (b : TPgAct), bs[n]? = some b → ∃ (m : Nat) (a : TNetAct), as[m]? = some a ∧ b.now = a.now ∧
        (s.run hash parses (as.take m)).conc = s.conc.run hash (bs.take n) ∧
        ((s.run hash parses (as.take m)).step hash parses a.tie a.now a.act).1.back =
          some ((s.conc.run hash (bs.take n)).step hash b.tie b.now b.act).1 ∧
        ∀ i, b.act = .abort i → a.act = .db (.abort i) := by
  induction as generalizing s with
  | nil => exact ⟨[], rfl, rfl, List.Sublist.refl _, fun m => ⟨0, by cases m <;> rfl⟩, by simp⟩
  | cons a as ih =>
    obtain ⟨bs, h1, h2, h3, h5, h4⟩ := ih (s.step hash parses a.tie a.now a.act).2
    rcases pgnet_back hash parses a.tie a.now s a.act with ⟨hb, hc⟩ | ⟨b, hb, hc, hab⟩
    · rw [hc] at h1 h2 h4 h5
      refine ⟨bs, h1, ?_, List.Sublist.cons _ h3, ?_, ?_⟩
      · simp only [PgNet.dbEvents, PgNet.trace, List.filterMap_cons, hb] at h2 ⊢
        exact h2
      · intro m
        cases m with
        | zero => exact ⟨0, rfl⟩
        | succ m => obtain ⟨n, hn⟩ := h5 m; exact ⟨n, hn⟩
      · intro n b hn
        obtain ⟨m, a', k1, k2, k3, k4, k5⟩ := h4 n b hn
        exact ⟨m + 1, a', k1, k2, k3, k4, k5⟩
    · rw [hc] at h1 h2 h4 h5
      refine ⟨⟨a.now, a.tie, b⟩ :: bs, h1, ?_, List.Sublist.cons_cons _ h3, ?_, ?_⟩
      · simp only [PgNet.dbEvents, PgNet.trace, List.filterMap_cons, hb, PgConc.history, List.map_cons] at h2 ⊢
        exact congrArg _ h2
      · intro m
        cases m with
        | zero => exact ⟨0, rfl⟩
        | succ m => obtain ⟨n, hn⟩ := h5 m; exact ⟨n + 1, hn⟩
      · intro n b' hn
        cases n with
        | zero =>
          cases hn
          exact ⟨0, a, rfl, rfl, rfl, hb, hab⟩
        | succ n =>
          obtain ⟨m, a', k1, k2, k3, k4, k5⟩ := h4 n b' hn
          exact ⟨m + 1, a', k1, k2, k3, k4, k5⟩

/-! ## A round of the stream -/

/-- the steps left until the session of a hand-out for `x` commits; one that has is at the
beginning of the next round -/
private def Session.left : Session → Nat
  | .handout _ => 4
  | .looking _ _ _ => 3
  | .locked _ _ _ => 2
  | _ => 8

private def Session.onWay (j : Row) (x : String) : Session → Prop
  | .handout y => y = x
  | .looking y t snap => y = x ∧ j ∈ snap ∧ j.ready t x = true
  | .locked y _ _ => y = x
  | .done res => res ≠ .job none
  | _ => False

private def PgWait.left (c : PgConc) : PgWait → Nat
  | .asleep _ _ _ => 8
  | .ready => 7
  | .looked _ => 6
  | .decided _ _ => 5
  | .loading _ _ k => match c.sessions[k]? with
    | some ss => ss.left
    | none => 0

private def PgWait.onWay (j : Row) (x : String) (T : Time) (c : PgConc) (queue : List Time) : PgWait → Prop
  | .asleep _ since delay => queue ≠ [] ∨ since + delay ≤ T
  | .ready => True
  | .looked none => False
  | .looked (some f) => f ≤ j.scheduledAt
  | .decided _ delay => delay ≤ pollDelta
  | .loading _ _ k => ∃ ss, c.sessions[k]? = some ss ∧ ss.onWay j x

private theorem due_ready {j : Row} {now : Time} (hw : j.Waiting) (hdue : j.scheduledAt ≤ now) :
    j.ready now j.executor = true := by
  have hp : now - 1000 ≤ pgTime now := by
    have := Int.tmod_lt_of_pos (now - epoch2000) (show (0 : Int) < 1000 by decide)
    simp only [pgTime, Time] at *
    omega
  simp only [Row.ready, Bool.and_eq_true, Bool.or_eq_true, decide_eq_true_eq, beq_iff_eq]
  refine ⟨⟨?_, hw⟩, trivial⟩
  simp only [ms, Time, Delta] at *
  omega

/-- a session on its way takes a step -/
private theorem session_goes {c : PgConc} (H : PgInv c) {hash : HashFn} {tie : Int → Nat} {now : Time} {j : Row} {k : Nat}
    {ss : Session} (hs : c.sessions[k]? = some ss) (hway : ss.onWay j j.executor) (hj : j ∈ c.pg.rows) (hw : j.Waiting)
    (hfree : c.rowLocked j.id = false) (hdue : j.scheduledAt ≤ now) :
    ∃ ss', (c.step hash tie now (.advance k)).2.sessions[k]? = some ss' ∧ ss'.onWay j j.executor ∧
      ((∃ res, ss = .done res ∧ ss' = ss) ∨
        ss'.left + 1 ≤ ss.left + if (c.step hash tie now (.advance k)).1.handsOutFor j.executor then 7 else 0) := by
  have hlt := (List.getElem?_eq_some_iff.mp hs).1
  simp only [PgConc.step, hs]
  refine ⟨(c.advance hash tie now ss).2.1, by simp [hlt], ?_⟩
  cases ss with
  | handout y =>
    cases hway
    simp only [PgConc.advance]
    exact ⟨⟨rfl, hj, due_ready hw hdue⟩, .inr (by simp [Session.left])⟩
  | looking y t snap =>
    obtain ⟨rfl, h1, h2⟩ := hway
    obtain ⟨r, hr⟩ : ∃ r, ((sortBy (Row.before tie) (snap.filter (Row.ready t j.executor))).find? fun r =>
        !c.rowLocked r.id && c.pg.rows.any fun r' => r'.id == r.id && r'.ready t j.executor) = some r := by
      rw [← Option.isSome_iff_exists, List.find?_isSome]
      have hany : (c.pg.rows.any fun r' => r'.id == j.id && r'.ready t j.executor) = true := by
        rw [List.any_eq_true]; exact ⟨j, hj, by simp [h2]⟩
      exact ⟨j, (sortBy_perm _ _).mem_iff.mpr (List.mem_filter.mpr ⟨h1, h2⟩), by simp [hfree, hany]⟩
    simp only [PgConc.advance, hr]
    exact ⟨rfl, .inr (by simp [Session.left])⟩
  | locked y t id =>
    cases hway
    obtain ⟨r, hr, hid, hrd⟩ := H.lockedReady k _ t id hs
    obtain ⟨z, hz⟩ : ∃ z, (c.pg.rows.find? fun z => z.id == id) = some z := by
      rw [← Option.isSome_iff_exists, List.find?_isSome]
      exact ⟨r, hr, by simpa using hid⟩
    have hzr : z = r := row_unique H.nodup (List.mem_of_find?_eq_some hz) hr
      (Eq.trans (by simpa using List.find?_some hz) hid.symm)
    have hzx : z.executor = j.executor := by
      rw [hzr]
      simp only [Row.ready, Bool.and_eq_true, beq_iff_eq] at hrd
      exact hrd.2
    simp only [PgConc.advance, hz]
    refine ⟨?_, .inr ?_⟩
    · simp only [Session.onWay]
      split <;> simp
    · simp [Session.left, PgEv.handsOutFor, Row.markExecuting, hzx]
  | done res => exact ⟨hway, .inl ⟨res, rfl, rfl⟩⟩
  | _ => exact hway.elim

/-- any action in the database but the failure of a statement -/
private theorem session_db {c : PgConc} (H : PgInv c) {hash : HashFn} {tie : Int → Nat} {now : Time} {b : PgAct} {j : Row} {k : Nat}
    {ss : Session} (hs : c.sessions[k]? = some ss) (hway : ss.onWay j j.executor) (hj : j ∈ c.pg.rows) (hw : j.Waiting)
    (hfree : c.rowLocked j.id = false) (hdue : j.scheduledAt ≤ now) (hb : ∀ i, b ≠ .abort i) :
    ∃ ss', (c.step hash tie now b).2.sessions[k]? = some ss' ∧ ss'.onWay j j.executor ∧
      ss'.left ≤ ss.left + if (c.step hash tie now b).1.handsOutFor j.executor then 7 else 0 := by
  by_cases hk : b = .advance k
  · subst hk
    obtain ⟨ss', h1, h2, h3⟩ := session_goes H (hash := hash) (tie := tie) hs hway hj hw hfree hdue
    refine ⟨ss', h1, h2, ?_⟩
    rcases h3 with ⟨res, -, rfl⟩ | h3 <;> omega
  · exact ⟨ss, session_unmoved hs hk (hb k), hway, Nat.le_add_right _ _⟩

private def NetEv.gain (x : String) (e : NetEv) : Nat :=
  match e.back with
  | some ev => if ev.handsOutFor x then 7 else 0
  | none => 0

private theorem way_queue {j : Row} {x : String} {T : Time} {c : PgConc} {q q' : List Time} {w : PgWait}
    (h : w.onWay j x T c q) (hq : q ≠ [] → q' ≠ []) : w.onWay j x T c q' := by
  cases w with
  | asleep a b d => exact h.imp hq id
  | ready => trivial
  | looked f => cases f <;> exact h
  | decided a d => exact h
  | loading a d k => exact h

/-- A step of the network, for stream `i`. -/
private theorem net_goes {s : PgNet} (H : PgInv s.conc) {hash : HashFn} {parses : Parses} {tie : Int → Nat} {now T : Time} {a : NetAct}
    {i : Nat} {r : PgReader} {j : Row} (hr : s.readers[i]? = some r) (hx : r.executor = j.executor)
    (hway : r.wait.onWay j j.executor T s.conc r.queue) (hj : j ∈ s.conc.pg.rows) (hw : j.Waiting)
    (hfree : s.conc.rowLocked j.id = false) (hdue : j.scheduledAt ≤ now) (ha : a.fails i = false) :
    ∃ r', (s.step hash parses tie now a).2.readers[i]? = some r' ∧ r'.executor = j.executor ∧
      r'.wait.onWay j j.executor T (s.step hash parses tie now a).2.conc r'.queue ∧
      r'.wait.left (s.step hash parses tie now a).2.conc + (if a.isStream i && decide (T ≤ now) then 1 else 0) ≤
        r.wait.left s.conc + (s.step hash parses tie now a).1.gain j.executor := by
  -- the database moves and the stream does not
  have moved : ∀ (b : PgAct) (w : PgWait) (q q' : List Time), (∀ n, b ≠ .abort n) → w.onWay j j.executor T s.conc q → (q ≠ [] → q' ≠ []) →
      w.onWay j j.executor T (s.conc.step hash tie now b).2 q' ∧
      w.left (s.conc.step hash tie now b).2 ≤ w.left s.conc +
        if (s.conc.step hash tie now b).1.handsOutFor j.executor then 7 else 0 := by
    intro b w q q' hb h hq
    cases w with
    | loading c d k =>
      obtain ⟨ss, h1, h2⟩ := h
      obtain ⟨ss', g1, g2, g3⟩ := session_db H (hash := hash) (tie := tie) h1 h2 hj hw hfree hdue hb
      refine ⟨⟨ss', g1, g2⟩, ?_⟩
      simp only [PgWait.left, g1, h1]
      exact g3
    | asleep c t d => exact ⟨h.imp hq id, Nat.le_add_right _ _⟩
    | ready => exact ⟨trivial, Nat.le_add_right _ _⟩
    | looked f => exact ⟨by cases f <;> exact h, Nat.le_add_right _ _⟩
    | decided c d => exact ⟨h, Nat.le_add_right _ _⟩
  have quiet : ∀ (ev : NetEv) (w : PgWait) (n : Nat), n ≤ w.left s.conc → n ≤ w.left s.conc + ev.gain j.executor :=
    fun ev w n h => Nat.le_add_right_of_le h
  cases a with
  | db b =>
    have hb : ∀ n, b ≠ .abort n := by rintro n rfl; cases ha
    obtain ⟨h1, h2⟩ := moved b r.wait r.queue r.queue hb hway id
    exact ⟨r, hr, hx, h1, h2⟩
  | connect => exact ⟨r, hr, hx, hway, Nat.le_add_right _ _⟩
  | subscribe n x =>
    refine ⟨r, ?_, hx, hway, Nat.le_add_right _ _⟩
    simp only [PgNet.step]
    rw [List.getElem?_append_left (List.getElem?_eq_some_iff.mp hr).1, hr]
  | deliver n =>
    simp only [PgNet.step, PgNet.deliver]
    split
    · exact ⟨r, hr, hx, hway, Nat.le_add_right _ _⟩
    · split
      · exact ⟨r, hr, hx, hway, Nat.le_add_right _ _⟩
      · split
        · refine ⟨_, by simp only [List.getElem?_map, hr, Option.map_some]; rfl, ?_, ?_, ?_⟩
          · split <;> exact hx
          · split
            · exact way_queue hway (by simp)
            · exact hway
          · split <;> exact Nat.le_add_right _ _
        · exact ⟨r, hr, hx, hway, Nat.le_add_right _ _⟩
  | reconnect n => exact ⟨r, hr, hx, hway, Nat.le_add_right _ _⟩
  | fail n => exact ⟨r, hr, hx, hway, Nat.le_add_right _ _⟩
  | streamFails n =>
    have hni : n ≠ i := by simpa [NetAct.fails] using ha
    simp only [PgNet.step]
    split
    · exact ⟨r, hr, hx, hway, Nat.le_add_right _ _⟩
    · refine ⟨r, ?_, hx, hway, Nat.le_add_right _ _⟩
      rw [pgnet_setWait_wait hr, if_neg hni]
    · exact ⟨r, hr, hx, hway, Nat.le_add_right _ _⟩
  | stream n timer =>
    by_cases hni : n = i
    · -- its own step
      subst hni
      have hown : (NetAct.stream n timer).isStream n = true := by simp [NetAct.isStream]
      have one : ∀ (b : Bool), (if b = true then 1 else 0) ≤ 1 := by decide
      have set : ∀ (s' : PgNet) (w : PgWait), s'.readers = s.readers → s'.conc = s.conc →
          (s'.setWait n w).readers[n]? = some { r with wait := w } := by
        intro s' w h1 h2
        rw [pgnet_setWait_wait (h1 ▸ hr)]; simp
      simp only [PgNet.step, hr, hown, Bool.true_and, PgNet.streamStep]
      have one := one (decide (T ≤ now))
      have hown : ¬ T ≤ now → (if decide (T ≤ now) = true then 1 else 0) = 0 := by intro h; simp [h]
      generalize (if decide (T ≤ now) = true then 1 else 0) = own at one hown ⊢
      cases hwt : r.wait with
      | ready =>
        refine ⟨_, set s _ rfl rfl, hx, ?_, by simp only [PgWait.left]; omega⟩
        have := pg_next_covers hj hw hx.symm
        cases hn : s.conc.pg.nextAvailable r.executor with
        | none => rw [hn] at this; exact this.elim
        | some f => rw [hn] at this; exact this
      | looked f =>
        rw [hwt] at hway
        refine ⟨_, set s _ rfl rfl, hx, ?_, by simp only [PgWait.left]; omega⟩
        cases f with
        | none => exact hway.elim
        | some f =>
          simp only [PgWait.onWay, streamDelay, defaultDelay, pollDelta, sec, ms, Time, Delta] at *
          split <;> omega
      | decided c d =>
        rw [hwt] at hway
        have hd : d ≤ pollDelta := hway
        simp only [hd, if_true]
        refine ⟨_, by rw [pgnet_setWait_wait (s := (s.dbStep hash tie now (.handout r.executor)).2) (by exact hr)], ?_, ?_, ?_⟩
        · simp [hx]
        · simp only [if_true]
          exact ⟨.handout r.executor, by simp [PgNet.setWait, PgNet.dbStep, PgConc.step], hx⟩
        · simp only [PgWait.left, PgNet.setWait, PgNet.dbStep, PgConc.step, if_true]
          simp only [List.getElem?_concat_length, Session.left]
          omega
      | loading c d k =>
        rw [hwt] at hway
        obtain ⟨ss, h1, h2⟩ := hway
        simp only [h1]
        cases ss with
        | done res =>
          have h8 : PgWait.left s.conc (.loading c d k) = 8 := by simp [PgWait.left, h1, Session.left]
          rw [h8]
          have h2 : res ≠ .job none := h2
          cases res with
          | job o =>
            cases o with
            | none => exact (h2 rfl).elim
            | some o => exact ⟨_, set s _ rfl rfl, hx, trivial, by simp only [PgWait.left]; omega⟩
          | _ => exact ⟨_, set s _ rfl rfl, hx, trivial, by simp only [PgWait.left]; omega⟩
        | _ =>
          obtain ⟨ss', g1, g2, g3⟩ := session_goes H (hash := hash) (tie := tie) h1 h2 hj hw hfree hdue
          refine ⟨r, hr, hx, ?_, ?_⟩
          · rw [hwt]; exact ⟨ss', g1, g2⟩
          · rcases g3 with ⟨res, h, -⟩ | g3
            · cases h
            · rw [hwt]
              simp only [PgWait.left, PgNet.dbStep, g1, h1]
              exact Nat.le_trans (Nat.add_le_add_left one _) g3
      | asleep c t d =>
        rw [hwt] at hway
        simp only
        cases hq : r.queue with
        | nil =>
          by_cases hdu : t + d ≤ now
          · simp only [hdu, decide_true, if_true]
            exact ⟨_, set s _ rfl rfl, hx, trivial, by simp only [PgWait.left]; omega⟩
          · have hT : ¬ T ≤ now := by
              rcases hway with h | h
              · exact (h hq).elim
              · simp only [Time, Delta] at *; omega
            simp only [hdu, decide_false, Bool.false_eq_true, if_false]
            refine ⟨r, hr, hx, ?_, ?_⟩
            · rw [hwt]; exact hway
            · rw [hwt, hown hT]; exact Nat.le_add_right _ _
        | cons m rest =>
          simp only
          split
          · exact ⟨_, set s _ rfl rfl, hx, trivial, by simp only [PgWait.left]; omega⟩
          · exact ⟨{ r with queue := rest, wait := .ready }, by simp [hr], hx, trivial, by simp only [PgWait.left]; omega⟩
    · -- another stream
      have hown : (NetAct.stream n timer).isStream i = false := by simpa [NetAct.isStream] using hni
      have other : ∀ (s' : PgNet) (w : PgWait), s'.readers = s.readers → (s'.setWait n w).readers[i]? = some r := by
        intro s' w h1
        rw [pgnet_setWait_wait (h1 ▸ hr), if_neg hni]
      simp only [PgNet.step, hown]
      cases hq : s.readers[n]? with
      | none => exact ⟨r, hr, hx, hway, Nat.le_add_right _ _⟩
      | some q =>
        simp only [PgNet.streamStep]
        split
        · exact ⟨r, other s _ rfl, hx, hway, Nat.le_add_right _ _⟩
        · exact ⟨r, other s _ rfl, hx, hway, Nat.le_add_right _ _⟩
        · split
          · obtain ⟨h1, h2⟩ := moved (.handout q.executor) r.wait r.queue r.queue (fun n h => by cases h) hway id
            exact ⟨r, other _ _ rfl, hx, h1, h2⟩
          · exact ⟨r, other s _ rfl, hx, hway, Nat.le_add_right _ _⟩
        · rename_i k _
          split
          · exact ⟨r, other s _ rfl, hx, hway, Nat.le_add_right _ _⟩
          · exact ⟨r, other s _ rfl, hx, hway, Nat.le_add_right _ _⟩
          · exact ⟨r, other s _ rfl, hx, hway, Nat.le_add_right _ _⟩
          · obtain ⟨h1, h2⟩ := moved (.advance k) r.wait r.queue r.queue (fun n h => by cases h) hway id
            exact ⟨r, hr, hx, h1, h2⟩
        · split
          · split
            · exact ⟨r, other s _ rfl, hx, hway, Nat.le_add_right _ _⟩
            · exact ⟨r, by simp [hni, hr], hx, hway, Nat.le_add_right _ _⟩
          · split
            · exact ⟨r, other s _ rfl, hx, hway, Nat.le_add_right _ _⟩
            · exact ⟨r, hr, hx, hway, Nat.le_add_right _ _⟩

/-! ## The schedule -/

private theorem way_left {j : Row} {x : String} {T : Time} {c : PgConc} {q : List Time} {w : PgWait} (h : w.onWay j x T c q) :
    2 ≤ w.left c := by
  cases w with
  | loading a d k =>
    obtain ⟨ss, h1, h2⟩ := h
    simp only [PgWait.left, h1]
    cases ss <;> simp [Session.left]
  | _ => simp [PgWait.left]

/-- while row `j` is not locked -/
private theorem net_run {hash : HashFn} {parses : Parses} {T : Time} {i : Nat} {j : Row} (hw : j.Waiting) (as : List TNetAct) {s : PgNet}
    (H : PgInv s.conc) {r : PgReader} (hr : s.readers[i]? = some r) (hx : r.executor = j.executor)
    (hway : r.wait.onWay j j.executor T s.conc r.queue) (hj : j ∈ s.conc.pg.rows)
    (hdue : ∀ a ∈ as, j.scheduledAt ≤ a.now) (hno : ∀ a ∈ as, a.act.fails i = false)
    (hfree : ∀ n, (s.run hash parses (as.take n)).conc.rowLocked j.id = false)
    (hleft : ∀ ev ∈ s.dbEvents hash parses as, ev.touches j.id = true → ev.handsOut j.id = true)
    (hprune : ∀ spec res, PgEv.stmt (.prune spec) res ∈ s.dbEvents hash parses as → spec.status ≠ .scheduled ∧ spec.status ≠ .retryable) :
    2 + as.countP (fun a => a.act.isStream i && decide (T ≤ a.now)) ≤
      r.wait.left s.conc + 7 * (s.dbEvents hash parses as).countP (PgEv.handsOutFor j.executor) := by
  induction as generalizing s r with
  | nil => have := way_left hway; simp only [List.countP_nil]; omega
  | cons a as ih =>
    obtain ⟨r', g1, g2, g3, g4⟩ := net_goes H (hash := hash) (parses := parses) (tie := a.tie) (now := a.now) (a := a.act) hr hx hway hj hw
      (hfree 0) (hdue a List.mem_cons_self) (hno a List.mem_cons_self)
    have hev : s.dbEvents hash parses (a :: as) =
        (match (s.step hash parses a.tie a.now a.act).1.back with | some ev => [ev] | none => []) ++
          (s.step hash parses a.tie a.now a.act).2.dbEvents hash parses as := by
      simp only [PgNet.dbEvents, PgNet.trace, List.filterMap_cons]
      cases (s.step hash parses a.tie a.now a.act).1.back <;> rfl
    rw [hev] at hleft hprune ⊢
    have hj' : j ∈ (s.step hash parses a.tie a.now a.act).2.conc.pg.rows := by
      rcases pgnet_back hash parses a.tie a.now s a.act with ⟨-, hc⟩ | ⟨b, hb, hc, -⟩
      · rw [hc]; exact hj
      · rw [hc]
        rw [hb] at hleft hprune
        refine waiting_row_stays H hj hw ?_ ?_
        · cases ht : (s.conc.step hash a.tie a.now b).1.touches j.id with
          | false => rfl
          | true =>
            have := hleft _ List.mem_cons_self ht
            cases he : (s.conc.step hash a.tie a.now b).1 with
            | handedOut row res =>
              simp only [he, PgEv.handsOut, beq_iff_eq] at this
              obtain ⟨-, -, -, -, x, t, hs, -, -⟩ := handedOut_mem H he
              obtain ⟨i, hi⟩ := List.mem_iff_getElem?.mp hs
              have := rowLocked_iff.mpr ⟨i, _, hi, by rw [Session.rowLock, this]⟩
              rw [show s.conc.rowLocked j.id = false from hfree 0] at this; cases this
            | _ => simp [he, PgEv.handsOut] at this
        · intro spec res he
          exact hprune spec res (by rw [← he]; exact List.mem_cons_self)
    have := ih (pgnet_inv_step H a.tie a.now a.act) g1 g2 g3 hj' (fun b hb => hdue b (List.mem_cons_of_mem _ hb))
      (fun b hb => hno b (List.mem_cons_of_mem _ hb)) (fun n => by have := hfree (n + 1); simpa [PgNet.run] using this)
      (fun ev he => hleft ev (List.mem_append_right _ he)) (fun spec res he => hprune spec res (List.mem_append_right _ he))
    have hgain : (s.step hash parses a.tie a.now a.act).1.gain j.executor =
        7 * (match (s.step hash parses a.tie a.now a.act).1.back with | some ev => [ev] | none => []).countP
          (PgEv.handsOutFor j.executor) := by
      unfold NetEv.gain
      cases (s.step hash parses a.tie a.now a.act).1.back with
      | none => rfl
      | some ev => cases h : ev.handsOutFor j.executor <;> simp [h]
    rw [List.countP_append, List.countP_cons]
    omega

/-- **C112.** Take a stream of a Postgres backend that is beginning a round, or asleep and
either notified or asleep since no later than 30 s before `T`; and a row `j` of its
executor that is waiting. Let the clock go forward, let `j` be due all the time, let
nobody change `j` except by handing it out, let nothing be queued in front of it, and let
no statement fail. When the stream has been polled, from `T` on, seven times for each
waiting row ahead of `j`, for each hand-out under way at the start, and for `j` itself,
and no hand-out under way has locked `j`, then `j` has been handed out. Whatever else the
network does: notifications may be late or lost, listeners may break down. -/
theorem C112_bounded_wait (hash : HashFn) (parses : Parses) (as₁ as₂ : List TNetAct) (i : Nat) (r : PgReader) (j : Row) (T : Time)
    (hr : (PgNet.run hash parses {} as₁).readers[i]? = some r)
    (hwait : r.wait = .ready ∨ ∃ clock since delay, r.wait = .asleep clock since delay ∧ (r.queue ≠ [] ∨ since + 30 * sec ≤ T))
    (hj : j ∈ (PgNet.run hash parses {} as₁).conc.pg.rows) (hw : j.Waiting) (hx : j.executor = r.executor)
    (hmono : as₂.Pairwise fun a b => a.now ≤ b.now) (hdue : ∀ a ∈ as₂, j.scheduledAt ≤ a.now)
    (hleft : ∀ ev ∈ (PgNet.run hash parses {} as₁).dbEvents hash parses as₂, ev.touches j.id = true → ev.handsOut j.id = true)
    (hbehind : ∀ (n : Nat) (h : n < as₂.length),
      ∀ ev ∈ ((PgNet.run hash parses {} (as₁ ++ as₂.take n)).step hash parses as₂[n].tie as₂[n].now as₂[n].act).1.back,
        ev.QueuesBehind j as₂[n].now (PgNet.run hash parses {} (as₁ ++ as₂.take n)).conc.pg.rows)
    (hno : ∀ a ∈ as₂, a.act.fails i = false)
    (hend : (PgNet.run hash parses {} (as₁ ++ as₂)).conc.rowLocked j.id = false)
    (hmany : 7 * ((PgNet.run hash parses {} as₁).conc.pg.rows.countP (fun a => decide (RowAhead j a))
        + (PgNet.run hash parses {} as₁).conc.sessions.countP (fun s => s.takesFor j.executor) + 1)
      ≤ as₂.countP (fun a => a.act.isStream i && decide (T ≤ a.now))) :
    ∃ ev ∈ (PgNet.run hash parses {} as₁).dbEvents hash parses as₂, ev.handsOut j.id = true := by
  have hrun : ∀ cs, PgNet.run hash parses {} (as₁ ++ cs) = (PgNet.run hash parses {} as₁).run hash parses cs :=
    fun cs => pgnet_run_append as₁ cs
  simp only [hrun] at hbehind hend
  have H := pgnet_reach_inv (hash := hash) (parses := parses) as₁
  obtain ⟨cs, c1, -, -, -, -⟩ := pgnet_acts hash parses {} as₁
  have hc : (PgNet.run hash parses {} as₁).conc = PgConc.run hash {} cs := c1
  have hdel : ∀ clock since delay, r.wait = .asleep clock since delay → delay ≤ 30 * sec :=
    fun clock since delay h => (C60_bounded_sleep hash parses as₁ i r clock since delay hr h).2
  generalize PgNet.run hash parses {} as₁ = s at *
  obtain ⟨bs, h1, h2, h3, h5, h4⟩ := pgnet_acts hash parses s as₂
  rw [h2] at hleft ⊢
  have hleft' : ∀ e ∈ s.conc.history hash bs, e.ev.touches j.id = true → e.ev.handsOut j.id = true :=
    fun e he => hleft e.ev (List.mem_map_of_mem he)
  have hnob : ∀ b ∈ bs, ∀ k, b.act ≠ .abort k := by
    intro b hb k he
    obtain ⟨n, hn⟩ := List.mem_iff_getElem?.mp hb
    obtain ⟨m, a, g1, -, -, -, g5⟩ := h4 n b hn
    have := hno a (List.mem_of_getElem? g1)
    rw [g5 k he] at this
    cases this
  have hqb : ∀ (n : Nat) (b : TPgAct), bs[n]? = some b →
      ((s.conc.run hash (bs.take n)).step hash b.tie b.now b.act).1.QueuesBehind j b.now (s.conc.run hash (bs.take n)).pg.rows := by
    intro n b hn
    obtain ⟨m, a, g1, g2, g3, g4, -⟩ := h4 n b hn
    obtain ⟨hlt, rfl⟩ := List.getElem?_eq_some_iff.mp g1
    have := hbehind m hlt _ g4
    rw [g3, ← g2] at this
    exact this
  rw [h1] at hend
  -- some transaction locks the row
  have hlock : ∃ n, (s.conc.run hash (bs.take n)).rowLocked j.id = true := by
    apply Classical.byContradiction
    intro hnone
    have hfree : ∀ n, (s.conc.run hash (bs.take n)).rowLocked j.id = false := by
      intro n
      cases hl : (s.conc.run hash (bs.take n)).rowLocked j.id with
      | false => rfl
      | true => exact absurd ⟨n, hl⟩ hnone
    have hway : r.wait.onWay j j.executor T s.conc r.queue := by
      rcases hwait with h | ⟨clock, since, delay, h, h'⟩
      · rw [h]; trivial
      · rw [h]
        refine h'.imp id fun h' => ?_
        have := hdel _ _ _ h
        simp only [Time, Delta] at *
        omega
    have hl8 : r.wait.left s.conc ≤ 8 := by
      rcases hwait with h | ⟨clock, since, delay, h, h'⟩ <;> rw [h] <;> simp [PgWait.left]
    have := net_run (hash := hash) (parses := parses) hw as₂ H hr hx.symm hway hj hdue hno
      (fun n => by obtain ⟨m, hm⟩ := h5 n; rw [hm]; exact hfree m) (by rw [h2]; exact hleft) (by
        intro spec res he
        rw [h2, List.mem_map] at he
        obtain ⟨e, he, hee⟩ := he
        obtain ⟨n, b, hn, hev⟩ : ∃ (n : Nat) (b : TPgAct), bs[n]? = some b ∧
            e.ev = ((s.conc.run hash (bs.take n)).step hash b.tie b.now b.act).1 := by
          have key : ∀ (bs : List TPgAct) (c : PgConc), e ∈ c.history hash bs → ∃ (n : Nat) (b : TPgAct), bs[n]? = some b ∧
              e.ev = ((c.run hash (bs.take n)).step hash b.tie b.now b.act).1 := by
            intro bs
            induction bs with
            | nil => intro c h; cases h
            | cons b bs ih =>
              intro c h
              rcases List.mem_cons.mp h with rfl | h
              · exact ⟨0, b, rfl, rfl⟩
              · obtain ⟨n, b', h1, h2⟩ := ih _ h
                exact ⟨n + 1, b', h1, h2⟩
          exact key bs s.conc he
        have := hqb n b hn
        rw [← hev, hee] at this
        exact this)
    rw [h2, List.countP_map] at this
    rw [hc] at hj hleft' hqb hfree hmany hl8 this
    obtain ⟨n, hn⟩ := C85_overtaking hash cs bs j hj hw (by
        have h : (as₂.map (·.now)).Pairwise (· ≤ ·) := List.pairwise_map.mpr hmono
        exact List.pairwise_map.mp (h.sublist h3))
      (by
        intro b hb
        have hm := h3.subset (List.mem_map_of_mem hb)
        obtain ⟨a, ha, he⟩ := List.mem_map.mp hm
        have := hdue a ha
        rw [he] at this
        have hp : b.now - 1000 ≤ pgTime b.now := by
          have := Int.tmod_lt_of_pos (b.now - epoch2000) (show (0 : Int) < 1000 by decide)
          simp only [pgTime, Time] at *
          omega
        simp only [Time] at *
        omega) hleft'
      (fun n h => by rw [PgConc.run_append]; exact hqb n _ (List.getElem?_eq_getElem h))
      (by
        have e : ((PgConc.run hash {} cs).history hash bs).countP (fun e => e.ev.handsOutFor j.executor) =
          ((PgConc.run hash {} cs).history hash bs).countP (PgEv.handsOutFor j.executor ∘ fun e => e.ev) := rfl
        omega)
    rw [PgConc.run_append, hfree n] at hn
    cases hn
  obtain ⟨n, hn⟩ := hlock
  obtain ⟨k, ss, hs, hl⟩ := rowLocked_iff.mp hn
  have hsplit : s.conc.history hash bs =
      s.conc.history hash (bs.take n) ++ (s.conc.run hash (bs.take n)).history hash (bs.drop n) := by
    rw [← PgConc.history_append, List.take_append_drop]
  have hHn : PgInv (s.conc.run hash (bs.take n)) := by
    rw [hc, ← PgConc.run_append]; exact pgInv hash _
  rw [hsplit] at hleft'
  obtain ⟨e, he, h⟩ := row_lock_resolves hash j.id (bs.drop n) hHn hs hl
    (fun a ha => hnob a (List.mem_of_mem_drop ha)) (fun e he => hleft' e (List.mem_append_right _ he))
    (by
      have : (s.conc.run hash (bs.take n)).run hash (bs.drop n) = s.conc.run hash bs := by
        rw [← PgConc.run_append, List.take_append_drop]
      rw [this]; exact hend)
  refine ⟨e.ev, List.mem_map.mpr ⟨e, ?_, rfl⟩, h⟩
  rw [hsplit]
  exact List.mem_append_right _ he

/-- The stream has gone to sleep; then a job scheduled before the first is enqueued, its
notification is lost with the connection, and somebody else begins to take a job. -/
def lateHistory : List TNetAct :=
  sleepHistory ++ [netAct (5 * sec) (.fail 0), netAct (5 * sec) (.db (.plain { sampleEnq with scheduledAt := 6 * sec })),
    netAct (8 * sec) (.db (.handout "mail"))]

/-- A job behind the first is enqueued; the other hand-out locks the earlier job; the
stream is polled, once before `T = 34 s`; the other hand-out is finished last. -/
def lateSchedule : List TNetAct :=
  [netAct (8 * sec) (.db (.advance 0)), netAct (8 * sec) (.stream 0 false),
   netAct (8 * sec) (.db (.plain { sampleEnq with scheduledAt := 9 * sec })), netAct (8 * sec) (.db (.advance 0))] ++
  List.replicate 21 (netAct (34 * sec) (.stream 0 false)) ++ [netAct (35 * sec) (.db (.advance 0))]

/-- The hypotheses are met by the first job, with one row ahead of it and one hand-out
under way, so that 21 polls are enough. -/
example : ∃ r, (PgNet.run sampleHash sampleParses {} lateHistory).readers[0]? = some r ∧
    r.wait = .asleep (4 * sec) (4 * sec) (3 * sec) ∧ r.queue = [] ∧ r.executor = "mail" ∧
    ∃ j ∈ (PgNet.run sampleHash sampleParses {} lateHistory).conc.pg.rows, j.id = 1 ∧ j.Waiting ∧ j.executor = "mail" ∧
      (lateSchedule.Pairwise fun a b => a.now ≤ b.now) ∧ (∀ a ∈ lateSchedule, j.scheduledAt ≤ a.now) ∧
      (∀ ev ∈ (PgNet.run sampleHash sampleParses {} lateHistory).dbEvents sampleHash sampleParses lateSchedule,
        ev.touches j.id = true → ev.handsOut j.id = true) ∧
      (∀ (n : Nat) (h : n < lateSchedule.length),
        ∀ ev ∈ ((PgNet.run sampleHash sampleParses {} (lateHistory ++ lateSchedule.take n)).step sampleHash sampleParses
            lateSchedule[n].tie lateSchedule[n].now lateSchedule[n].act).1.back,
          ev.QueuesBehind j lateSchedule[n].now (PgNet.run sampleHash sampleParses {} (lateHistory ++ lateSchedule.take n)).conc.pg.rows) ∧
      (∀ a ∈ lateSchedule, a.act.fails 0 = false) ∧
      (PgNet.run sampleHash sampleParses {} (lateHistory ++ lateSchedule)).conc.rowLocked j.id = false ∧
      (PgNet.run sampleHash sampleParses {} lateHistory).conc.pg.rows.countP (fun a => decide (RowAhead j a)) = 1 ∧
      (PgNet.run sampleHash sampleParses {} lateHistory).conc.sessions.countP (fun s => s.takesFor j.executor) = 1 ∧
      lateSchedule.countP (fun a => a.act.isStream 0 && decide (34 * sec ≤ a.now)) = 21 := by
  refine ⟨_, rfl, by decide, by decide, by decide, _, List.getElem_mem (n := 0) (by decide), by decide, by decide, by decide,
    by decide, by decide, by decide, by decide, by decide, by decide, by decide, by decide, by decide⟩

end Rexecutor
