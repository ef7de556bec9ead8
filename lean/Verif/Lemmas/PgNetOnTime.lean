import Verif.Props.Poll
import Verif.Lemmas.History

/-!
# A due row and a stream of Postgres, over several rounds

What `C124` needs of the network: how long it takes until a stream whose runner is not always ready
for another job returns a row that is due, when other rows are handed out before it.
-/

namespace Rexecutor

/-- As `PromptNet`, for a stream that may be held up for `D` at the beginning of a round. The listener is
as prompt as there if `L`. -/
def NetPrompt (L : Prop) (hash : HashFn) (parses : Parses) (ε δ D : Delta) (i n : Nat) : Time → Time → PgNet → List TNetAct → Prop
  | _, _, _, [] => True
  | m, u, s, a :: as =>
    a.now ≤ m + ε ∧ (L → s.busyListener n = true → a.now ≤ u + δ) ∧
    ∃ m', (∀ r', (s.step hash parses a.tie a.now a.act).2.readers[i]? = some r' →
        NextMove D (a.act.isStream i && (s.step hash parses a.tie a.now a.act).1.isSomething) m
          ((s.step hash parses a.tie a.now a.act).2.movesFrom i a.now) a.now r' m') ∧
      NetPrompt L hash parses ε δ D i n m' (if s.busyListener n && !a.act.delivers n then u else a.now)
        (s.step hash parses a.tie a.now a.act).2 as

/-- The stream returned a job. -/
def NetEv.gives (i : Nat) : NetEv → Bool
  | .returned k _ => k == i
  | _ => false

/-- The stream returned an error. -/
def NetEv.errs (i : Nat) : NetEv → Bool
  | .failed k => k == i
  | _ => false

/-- How often stream `i` has returned a job. -/
def PgNet.returns (hash : HashFn) (parses : Parses) (s : PgNet) (i : Nat) (as : List TNetAct) : Nat :=
  (s.trace hash parses as).countP (NetEv.gives i)

/-- The stream has a job to return. -/
def PgNet.holdsJob (s : PgNet) (i : Nat) : Bool :=
  match s.readers[i]? with
  | some { wait := .loading _ _ k, .. } =>
    match s.conc.sessions[k]? with
    | some (.done (.job (some _))) => true
    | _ => false
  | _ => false

theorem returned_session {hash : HashFn} {parses : Parses} {tie : Int → Nat} {now : Time} {s : PgNet} {a : NetAct} {i : Nat} {jb : Job}
    (h : (s.step hash parses tie now a).1 = .returned i jb) :
    ∃ r clock d k, s.readers[i]? = some r ∧ r.wait = .loading clock d k ∧ s.conc.sessions[k]? = some (.done (.job (some jb))) ∧
      ∃ r', (s.step hash parses tie now a).2.readers[i]? = some r' ∧ r'.wait = .ready := by
  cases a with
  | db a => cases h
  | connect => cases h
  | subscribe n x => cases h
  | deliver n => cases h
  | reconnect n => cases h
  | fail n => cases h
  | streamFails k =>
    simp only [PgNet.step] at h
    split at h <;> cases h
  | stream k b =>
    simp only [PgNet.step] at h
    cases hr : s.readers[k]? with
    | none => rw [hr] at h; cases h
    | some r =>
      rw [hr] at h
      simp only [PgNet.streamStep] at h
      cases hw : r.wait with
      | ready => rw [hw] at h; cases h
      | looked f => rw [hw] at h; cases h
      | decided c d =>
        rw [hw] at h
        simp only at h
        split at h <;> cases h
      | asleep c since d =>
        rw [hw] at h
        simp only at h
        split at h <;> split at h <;> cases h
      | loading c d m =>
        rw [hw] at h
        simp only at h
        split at h
        · rename_i j hs
          injection h with h1 h2
          subst h1 h2
          refine ⟨r, c, d, m, hr, hw, hs, { r with wait := .ready }, ?_, rfl⟩
          simp only [PgNet.step, hr, PgNet.streamStep, hw, hs]
          exact (pgnet_setWait_wait hr).trans (by rw [if_pos rfl])
        · cases h
        · cases h
        · cases h

private theorem pgnet_run_snoc (hash : HashFn) (parses : Parses) (s : PgNet) (as : List TNetAct) (a : TNetAct) :
    s.run hash parses (as ++ [a]) = ((s.run hash parses as).step hash parses a.tie a.now a.act).2 := by
  rw [pgnet_run_append]; rfl

private theorem pgnet_trace_append (hash : HashFn) (parses : Parses) (s : PgNet) (as bs : List TNetAct) :
    s.trace hash parses (as ++ bs) = s.trace hash parses as ++ (s.run hash parses as).trace hash parses bs := by
  induction as generalizing s with
  | nil => rfl
  | cons a as ih => simp only [List.cons_append, PgNet.trace, PgNet.run, ih]

theorem returns_snoc (hash : HashFn) (parses : Parses) (s : PgNet) (i : Nat) (as : List TNetAct) (a : TNetAct) :
    s.returns hash parses i (as ++ [a]) = s.returns hash parses i as +
      (if ((s.run hash parses as).step hash parses a.tie a.now a.act).1.gives i then 1 else 0) := by
  simp only [PgNet.returns, pgnet_trace_append, List.countP_append, PgNet.trace, List.countP_cons, List.countP_nil, Nat.zero_add]

/-- How many rows of executor `x` have been handed out. -/
def PgNet.handouts (hash : HashFn) (parses : Parses) (s : PgNet) (x : String) (as : List TNetAct) : Nat :=
  (s.dbEvents hash parses as).countP (PgEv.handsOutFor x)

theorem handouts_snoc (hash : HashFn) (parses : Parses) (s : PgNet) (x : String) (as : List TNetAct) (a : TNetAct) :
    s.handouts hash parses x (as ++ [a]) = s.handouts hash parses x as +
      (match ((s.run hash parses as).step hash parses a.tie a.now a.act).1.back with
        | some ev => if ev.handsOutFor x then 1 else 0
        | none => 0) := by
  simp only [PgNet.handouts, PgNet.dbEvents, pgnet_trace_append, List.filterMap_append, List.countP_append, PgNet.trace,
    List.filterMap_cons, List.filterMap_nil]
  cases ((s.run hash parses as).step hash parses a.tie a.now a.act).1.back with
  | none => rfl
  | some ev => simp [List.countP_cons]

/-! ## A stream, while a row waits -/

/-- Stream `i` on node `n` at time `t`, while row `j` of its executor waits. If `L`, the node listens; if
not, it is the timer that helps, half a minute after `t₁`. -/
structure OnItsWay (L : Prop) (ε δ D : Delta) (i n : Nat) (j : Row) (t₁ V T' : Time) (s : PgNet) (r : PgReader) (node : PgNode) (m u t : Time) : Prop where
  inv : PgInv s.conc
  reader : s.readers[i]? = some r
  on : r.node = n
  there : L → s.nodes[n]? = some node
  listens : L → node.listening = true
  lag : pgLag ε D m t s.conc r
  near : (pgDozing ε t₁ m r.wait ∧ t₁ + 30000000000 + 2 * ε ≤ T') ∨ pgNear ε D j T' m (L ∧ heardBy δ r.executor u V node) s.conc r
  row : j ∈ s.conc.pg.rows
  exec : j.executor = r.executor

theorem pgNear_later {ε D : Delta} {j : Row} {T' T'' m : Time} {heard : Prop} {c : PgConc} {r : PgReader}
    (h : pgNear ε D j T' m heard c r) (hT : T' ≤ T'') : pgNear ε D j T'' m heard c r := by
  have st : ∀ ss, pgStage ε D j T' m ss → pgStage ε D j T'' m ss := by
    intro ss h
    unfold pgStage at h ⊢
    split at h <;> first
      | (simp only [Time, Delta, ms] at *; omega)
      | exact ⟨by simp only [Time, Delta, ms] at *; omega, h.2.imp (fun h => by simp only [Time, Delta, ms] at *; omega) id⟩
      | exact h
  simp only [pgNear] at h ⊢
  cases hw : r.wait with
  | ready => rw [hw] at h; simp only [Time, Delta, ms] at *; omega
  | looked f =>
    rw [hw] at h
    exact ⟨by simp only [Time, Delta, ms] at *; omega, h.2.imp id fun h => ⟨by simp only [Time, Delta, ms] at *; omega, h.2⟩⟩
  | decided clock d =>
    rw [hw] at h
    exact ⟨by simp only [Time, Delta, ms] at *; omega, h.2.imp id fun h => ⟨by simp only [Time, Delta, ms] at *; omega, h.2⟩⟩
  | loading clock d k =>
    rw [hw] at h
    obtain ⟨ss, h1, h2⟩ := h
    exact ⟨ss, h1, st ss h2⟩
  | asleep clock since d =>
    rw [hw] at h
    exact h.imp (fun h => by simp only [Time, Delta, ms] at *; omega) id

/-- When the next action comes. -/
theorem OnItsWay.next {L : Prop} {hash : HashFn} {parses : Parses} {ε δ D : Delta} (hε : 0 ≤ ε) (hδ : 0 ≤ δ) (hD : 0 ≤ D) {i n : Nat} {j : Row}
    {t₁ V T' : Time} {s : PgNet} {r : PgReader} {node : PgNode} {m u t : Time} (h : OnItsWay L ε δ D i n j t₁ V T' s r node m u t)
    (hV : V ≤ T') {a : TNetAct} {as : List TNetAct} (hp : NetPrompt L hash parses ε δ D i n m u s (a :: as)) :
    a.now ≤ T' + 15 * ms + 10 * ε + D := by
  obtain ⟨hpa, hpb, -⟩ := hp
  rcases h.near with ⟨h', h''⟩ | h'
  · have := pgDozing_le hε h'
    simp only [Time, Delta, ms] at *; omega
  rcases pgNear_le hε hD h' with h' | ⟨hL, p, z, h1, h2, h3⟩
  · simp only [Time, Delta, ms] at *; omega
  · have hbusy : s.busyListener n = true := by
      simp only [PgNet.busyListener, h.there hL]
      cases hi : node.inbox with
      | nil => rw [hi] at h1; simp at h1
      | cons y l => rfl
    have hnow := hpb hL hbusy
    have hq : (0 : Int) ≤ p * δ := Int.mul_nonneg (Int.natCast_nonneg p) hδ
    have he : ((p : Int) + 1) * δ = p * δ + δ := by rw [Int.add_mul, Int.one_mul]
    rw [he] at h3
    simp only [Time, Delta, ms] at *; omega

/-- One action, after which the row still waits. -/
theorem OnItsWay.step {L : Prop} {hash : HashFn} {parses : Parses} {ε δ D : Delta} (hε : 0 ≤ ε) (hδ : 0 ≤ δ) (hD : 0 ≤ D) {i n : Nat} {j : Row}
    {t₁ V T' : Time} {s : PgNet} {r : PgReader} {node : PgNode} {m u t : Time} (h : OnItsWay L ε δ D i n j t₁ V T' s r node m u t)
    (hT : j.scheduledAt ≤ T') (hV : V ≤ T') (hw : j.Waiting) {a : TNetAct} {as : List TNetAct}
    (hp : NetPrompt L hash parses ε δ D i n m u s (a :: as)) (hta : t ≤ a.now)
    (hun : L → a.act ≠ .reconnect n)
    (hend : L → ∃ node₂, (s.run hash parses (a :: as)).nodes[n]? = some node₂ ∧ node₂.listening = true)
    (hlock : ¬ s.otherHolds i j.id) (hj' : j ∈ (s.step hash parses a.tie a.now a.act).2.conc.pg.rows)
    (hno : (s.step hash parses a.tie a.now a.act).1.errs i = false) :
    ∃ r' node' m' u',
      OnItsWay L ε δ D i n j t₁ V (if (s.step hash parses a.tie a.now a.act).1.gives i then T' + (7 * ε + D) else T')
        (s.step hash parses a.tie a.now a.act).2 r' node' m' u' a.now ∧
      NetPrompt L hash parses ε δ D i n m' u' (s.step hash parses a.tie a.now a.act).2 as := by
  have hnow := h.next hε hδ hD hV hp
  obtain ⟨hpa, hpb, m', hm', hp⟩ := hp
  obtain ⟨r', hr', hs⟩ := net_seen hash parses a.tie a.now a.act h.reader
  obtain ⟨hk1, hk2⟩ := net_seen_kept hs
  obtain ⟨node₁, g1, g2, g3⟩ : ∃ node₁, (L → (s.step hash parses a.tie a.now a.act).2.nodes[n]? = some node₁) ∧ (L → node₁.listening = true) ∧
      (L → heardBy δ r.executor u V node → a.now ≤ V ∧
        (heardBy δ r.executor (if s.busyListener n && !a.act.delivers n then u else a.now) V node₁ ∨ r'.queue ≠ [])) := by
    by_cases hL : L
    · obtain ⟨node₁, g1, g2⟩ := net_node_seen hash parses a.tie a.now a.act h.reader h.on (h.there hL) (h.listens hL) (hun hL) hr'
      have g2 := g2.resolve_left fun hd => by
        obtain ⟨node₂, hend, hend'⟩ := hend hL
        obtain ⟨nd, hd1, hd2⟩ := pgnet_dead_run (hash := hash) (parses := parses) g1 hd as
        have : (s.run hash parses (a :: as)).nodes[n]? = some nd := hd1
        rw [hend, Option.some.injEq] at this
        subst this
        rw [hend'] at hd2
        cases hd2
      exact ⟨node₁, fun _ => g1, fun _ => g2.1, fun _ hd => heard_step hδ (h.there hL) (hpb hL) hd g2.2⟩
    · exact ⟨node, fun h => (hL h).elim, fun h => (hL h).elim, fun h => (hL h).elim⟩
  have hh : (L ∧ heardBy δ r.executor u V node) → a.now ≤ T' ∧
      ((L ∧ heardBy δ r.executor (if s.busyListener n && !a.act.delivers n then u else a.now) V node₁) ∨ r'.queue ≠ []) := by
    rintro ⟨hL, hd⟩
    obtain ⟨e1, e2⟩ := g3 hL hd
    exact ⟨Int.le_trans e1 hV, e2.imp (fun h => ⟨hL, h⟩) id⟩
  have hlag := pgLag_step hD hs hr' h.lag hta hpa (hm' r' hr')
  refine ⟨r', node₁, m', _, ?_, hp⟩
  have mk : ∀ T'', (pgDozing ε t₁ m' r'.wait ∧ t₁ + 30000000000 + 2 * ε ≤ T'') ∨
      pgNear ε D j T'' m' (L ∧ heardBy δ r'.executor (if s.busyListener n && !a.act.delivers n then u else a.now) V node₁)
        (s.step hash parses a.tie a.now a.act).2.conc r' →
      OnItsWay L ε δ D i n j t₁ V T'' (s.step hash parses a.tie a.now a.act).2 r' node₁ m'
        (if s.busyListener n && !a.act.delivers n then u else a.now) a.now := fun T'' hn =>
    ⟨pgnet_inv_step h.inv a.tie a.now a.act, hr', hk1.trans h.on, g1, g2, hlag, hn, hj', h.exec.trans hk2.symm⟩
  have hstep : (∃ jb, (s.step hash parses a.tie a.now a.act).1 = .returned i jb) ∨ (s.step hash parses a.tie a.now a.act).1 = .failed i ∨
      ((pgDozing ε t₁ m' r'.wait ∧ t₁ + 30000000000 + 2 * ε ≤ T') ∨
        pgNear ε D j T' m' (L ∧ heardBy δ r.executor (if s.busyListener n && !a.act.delivers n then u else a.now) V node₁)
          (s.step hash parses a.tie a.now a.act).2.conc r') := by
    rcases h.near with ⟨hn, h'⟩ | hn
    · exact (pgDozing_step hε hD hs hr' hn hpa h' (hm' r' hr')).imp id fun h => h.imp id fun h => h.imp (fun h => ⟨h, h'⟩) id
    · exact (pgNear_step hε hD h.inv hs h.reader hr' h.lag hn hta hpa (hm' r' hr') hh h.row hw h.exec hT hlock).imp id fun h => h.imp id .inr
  rcases hstep with ⟨jb, e⟩ | e | hn
  · have hret : (s.step hash parses a.tie a.now a.act).1.gives i = true := by rw [e]; simp [NetEv.gives]
    rw [if_pos hret]
    refine mk _ (.inr ?_)
    obtain ⟨-, -, -, -, -, -, -, r₀, e1, hready⟩ := returned_session e
    rw [hr', Option.some.injEq] at e1
    subst e1
    have hm₂ := (hm' r' hr').2
    rw [pgMovesFrom_eq hr', hready] at hm₂
    simp only [pgNear, hready]
    rcases hm₂ with h' | ⟨-, h'⟩ <;> simp only [Time, Delta, ms] at * <;> omega
  · rw [e] at hno; simp [NetEv.errs] at hno
  · rw [hk2] at mk
    by_cases hret : (s.step hash parses a.tie a.now a.act).1.gives i = true
    · rw [if_pos hret]
      exact mk _ (hn.imp (fun h => ⟨h.1, by have := h.2; simp only [Time, Delta] at *; omega⟩) fun h => pgNear_later h (by simp only [Time, Delta] at *; omega))
    · rw [if_neg hret]
      exact mk _ hn

/-! ## Counting -/

/-- A hand-out that has a job has committed. -/
theorem handout_commits {c : PgConc} (H : PgInv c) {hash : HashFn} {tie : Int → Nat} {now : Time} (b : PgAct) {k : Nat} {x : String} {ss : Session}
    {jb : Job} (hk : c.sessions[k]? = some ss) (hx : ss.handsOutTo x)
    (h' : (c.step hash tie now b).2.sessions[k]? = some (.done (.job (some jb)))) :
    ss = .done (.job (some jb)) ∨ (c.step hash tie now b).1.handsOutFor x = true := by
  have hlt := (List.getElem?_eq_some_iff.mp hk).1
  have same : (c.step hash tie now b).2.sessions[k]? = c.sessions[k]? → ss = .done (.job (some jb)) := by
    intro e
    rw [e, hk, Option.some.injEq] at h'
    exact h'
  cases b with
  | handout y =>
    refine .inl (same ?_)
    simp only [PgConc.step]
    rw [List.getElem?_append_left hlt]
  | unique e uc =>
    refine .inl (same ?_)
    simp only [PgConc.step]
    rw [List.getElem?_append_left hlt]
  | plain e =>
    refine .inl (same ?_)
    simp only [PgConc.step]
    split <;> rfl
  | stmt o =>
    refine .inl (same ?_)
    cases o <;> simp only [PgConc.step] <;> first | rfl | (split <;> rfl)
  | abort n =>
    simp only [PgConc.step] at h' same ⊢
    cases hn : c.sessions[n]? with
    | none => rw [hn] at same; exact .inl (same rfl)
    | some z =>
      by_cases e : n = k
      · subst e
        rw [hk, Option.some.injEq] at hn
        subst hn
        cases ss <;> simp only [hk] at h' same <;> first | exact .inl (same trivial) | simp [hlt] at h'
      · rw [hn] at same
        cases z <;> first | exact .inl (same rfl) | exact .inl (same (by simp [List.getElem?_set_ne e]))
  | advance n =>
    by_cases e : n = k
    · subst e
      rw [conc_session_self hk, Option.some.injEq] at h'
      simp only [PgConc.step, hk]
      cases ss with
      | locked y t id =>
        obtain ⟨q, g1, g2, g3⟩ := H.lockedReady n y t id hk
        have hy : y = x := hx
        subst hy
        simp only [PgConc.advance] at h' ⊢
        cases hf : c.pg.rows.find? fun r => r.id == id with
        | none => rw [hf] at h'; simp at h'
        | some q' =>
          have hid : q'.id = id := by simpa using List.find?_some hf
          have := row_unique H.nodup g1 (List.mem_of_find?_eq_some hf) (g2.trans hid.symm)
          subst this
          refine .inr ?_
          have hex : q.executor = y := by
            simp only [Row.ready, Bool.and_eq_true, beq_iff_eq] at g3
            exact g3.2
          simp [PgEv.handsOutFor, Row.markExecuting, hex]
      | handout y => simp [PgConc.advance] at h'
      | looking y t snap =>
        simp only [PgConc.advance] at h'
        split at h' <;> simp at h'
      | done r => exact .inl h'
      | _ => exact hx.elim
    · refine .inl (same ?_)
      simp only [PgConc.step]
      cases hs : c.sessions[n]? with
      | none => rfl
      | some z => simp [List.getElem?_set_ne e]

private def one (b : Bool) : Nat := if b then 1 else 0

/-- A job that a stream returns has been handed out. -/
private theorem hold_step {hash : HashFn} {parses : Parses} {ε D : Delta} {i : Nat} {s : PgNet} {r : PgReader} {m t : Time} (H : PgInv s.conc)
    (hr : s.readers[i]? = some r) (hl : pgLag ε D m t s.conc r) (tie : Int → Nat) (now : Time) (a : NetAct) :
    one ((s.step hash parses tie now a).1.gives i) + one ((s.step hash parses tie now a).2.holdsJob i) ≤
      (match (s.step hash parses tie now a).1.back with
        | some ev => if ev.handsOutFor r.executor then 1 else 0
        | none => 0) + one (s.holdsJob i) := by
  cases hg : (s.step hash parses tie now a).1.gives i with
  | true =>
    obtain ⟨jb, e⟩ : ∃ jb, (s.step hash parses tie now a).1 = .returned i jb := by
      cases hev : (s.step hash parses tie now a).1 with
      | returned k jb => rw [hev] at hg; simp only [NetEv.gives, beq_iff_eq] at hg; exact ⟨jb, by rw [hg]⟩
      | _ => rw [hev] at hg; simp [NetEv.gives] at hg
    obtain ⟨r₀, c, d, k, h1, h2, h3, r', h4, h5⟩ := returned_session e
    have e1 : s.holdsJob i = true := by
      simp only [PgNet.holdsJob, h1]
      obtain ⟨x1, x2, x3, w⟩ := r₀
      simp only at h2
      subst h2
      simp [h3]
    have e2 : (s.step hash parses tie now a).2.holdsJob i = false := by
      simp only [PgNet.holdsJob, h4]
      obtain ⟨x1, x2, x3, w⟩ := r'
      simp only at h5
      subst h5
      rfl
    rw [e1, e2]
    simp [one]
  | false =>
    cases hh : (s.step hash parses tie now a).2.holdsJob i with
    | false => simp [one]
    | true =>
      obtain ⟨r', hr', hs⟩ := net_seen hash parses tie now a hr
      obtain ⟨c, d, k, jb, hw', hk'⟩ : ∃ c d k jb, r'.wait = .loading c d k ∧
          (s.step hash parses tie now a).2.conc.sessions[k]? = some (.done (.job (some jb))) := by
        simp only [PgNet.holdsJob, hr'] at hh
        obtain ⟨x1, x2, x3, w⟩ := r'
        cases w with
        | loading c d k =>
          simp only at hh
          split at hh
          · rename_i jb h; exact ⟨c, d, k, jb, rfl, h⟩
          · cases hh
        | _ => simp at hh
      have main : r.wait = .loading c d k → 1 ≤ (match (s.step hash parses tie now a).1.back with
          | some ev => if ev.handsOutFor r.executor then 1 else 0
          | none => 0) + one (s.holdsJob i) := by
        intro hw
        simp only [pgLag, hw] at hl
        obtain ⟨-, -, -, ss, g1, g2⟩ := hl
        have hold : ss = .done (.job (some jb)) → s.holdsJob i = true := by
          intro e
          subst e
          simp only [PgNet.holdsJob, hr]
          obtain ⟨x1, x2, x3, w⟩ := r
          simp only at hw
          subst hw
          simp [g1]
        rcases pgnet_back hash parses tie now s a with ⟨hb, hc⟩ | ⟨b, hb, hc, -⟩
        · rw [hc, g1, Option.some.injEq] at hk'
          rw [hold hk']
          simp [one]
        · rw [hc] at hk'
          rcases handout_commits H b g1 g2 hk' with e | e
          · rw [hold e]; simp [one]
          · rw [hb]; simp [e]
      have : one false + one true = 1 := rfl
      rw [this]
      apply main
      cases hs with
      | still q h ho hc => subst h; exact hw'
      | goesOn c' d' k' hw hk h ho hc => subst h; exact hw'
      | opens c' d' hw hd h ho hc =>
        subst h
        simp only [PgWait.loading.injEq] at hw'
        obtain ⟨-, -, e⟩ := hw'
        subst e
        rw [hc] at hk'
        simp [PgConc.step] at hk'
      | failed h => subst h; cases hw'
      | returned j h => subst h; cases hw'
      | ready hw h => subst h; cases hw'
      | looked f hw h => subst h; cases hw'
      | sleeps c' d' hw hd h => subst h; cases hw'
      | gotNone c' d' k' hw hk h => subst h; cases hw'
      | wakes c' since d' q hw h => subst h; cases hw'

/-- Along a schedule during which the row waits. -/
theorem OnItsWay.along {L : Prop} {hash : HashFn} {parses : Parses} {ε δ D : Delta} (hε : 0 ≤ ε) (hδ : 0 ≤ δ) (hD : 0 ≤ D) {i n : Nat} {j : Row}
    {t₁ V T' : Time} {s : PgNet} {r : PgReader} {node : PgNode} {m u t : Time} (h : OnItsWay L ε δ D i n j t₁ V T' s r node m u t)
    (hT : j.scheduledAt ≤ T') (hV : V ≤ T') (hw : j.Waiting) (as₁ as₂ : List TNetAct)
    (hc : (t :: (as₁ ++ as₂).map (·.now)).Pairwise (· ≤ ·))
    (hp : NetPrompt L hash parses ε δ D i n m u s (as₁ ++ as₂)) (hun : L → Unbroken n (as₁ ++ as₂))
    (hend : L → ∃ node₂, (s.run hash parses (as₁ ++ as₂)).nodes[n]? = some node₂ ∧ node₂.listening = true)
    (hok : ∀ p a q, as₁ = p ++ a :: q → ¬ (s.run hash parses p).otherHolds i j.id ∧
      j ∈ ((s.run hash parses p).step hash parses a.tie a.now a.act).2.conc.pg.rows ∧
      ((s.run hash parses p).step hash parses a.tie a.now a.act).1.errs i = false) :
    ∃ r' node' m' u' t',
      OnItsWay L ε δ D i n j t₁ V (T' + s.returns hash parses i as₁ * (7 * ε + D)) (s.run hash parses as₁) r' node' m' u' t' ∧
      NetPrompt L hash parses ε δ D i n m' u' (s.run hash parses as₁) as₂ ∧ (t' :: as₂.map (·.now)).Pairwise (· ≤ ·) ∧
      s.returns hash parses i as₁ + one ((s.run hash parses as₁).holdsJob i) ≤
        s.handouts hash parses j.executor as₁ + one (s.holdsJob i) := by
  induction as₁ generalizing s r node m u t T' with
  | nil =>
    refine ⟨r, node, m, u, t, ?_, hp, hc, ?_⟩
    · have : T' + (s.returns hash parses i [] : Nat) * (7 * ε + D) = T' := by simp [PgNet.returns, PgNet.trace]
      rw [this]
      exact h
    · simp [PgNet.returns, PgNet.trace, PgNet.run]
  | cons a as ih =>
    rw [List.cons_append, List.map_cons] at hc
    have hta : t ≤ a.now := List.rel_of_pairwise_cons hc (by simp)
    obtain ⟨k1, k2, k3⟩ := hok [] a as rfl
    obtain ⟨r', node', m', u', h', hp'⟩ := h.step hε hδ hD hT hV hw hp hta (fun hL => hun hL a (by simp)) hend k1 k2 k3
    have hle : T' ≤ (if (s.step hash parses a.tie a.now a.act).1.gives i then T' + (7 * ε + D) else T') := by
      split <;> simp only [Time, Delta] at * <;> omega
    obtain ⟨r₂, node₃, m₂, u₂, t₂, e1, e2, e3, e4⟩ := ih h' (Int.le_trans hT hle) (Int.le_trans hV hle) (List.Pairwise.of_cons hc) hp'
      (fun hL b hb => hun hL b (by rw [List.cons_append]; exact List.mem_cons_of_mem _ hb)) hend
      (fun p b q e => hok (a :: p) b q (by rw [e]; rfl))
    have hret : s.returns hash parses i (a :: as) = one ((s.step hash parses a.tie a.now a.act).1.gives i) +
        (s.step hash parses a.tie a.now a.act).2.returns hash parses i as := by
      simp only [PgNet.returns, PgNet.trace, List.countP_cons, one]
      omega
    have hhan : s.handouts hash parses j.executor (a :: as) = (match (s.step hash parses a.tie a.now a.act).1.back with
          | some ev => if ev.handsOutFor j.executor then 1 else 0
          | none => 0) + (s.step hash parses a.tie a.now a.act).2.handouts hash parses j.executor as := by
      simp only [PgNet.handouts, PgNet.dbEvents, PgNet.trace, List.filterMap_cons]
      cases (s.step hash parses a.tie a.now a.act).1.back with
      | none => simp
      | some ev => simp only [List.countP_cons]; omega
    refine ⟨r₂, node₃, m₂, u₂, t₂, ?_, e2, e3, ?_⟩
    · have : T' + (s.returns hash parses i (a :: as) : Nat) * (7 * ε + D) =
          (if (s.step hash parses a.tie a.now a.act).1.gives i then T' + (7 * ε + D) else T') +
            ((s.step hash parses a.tie a.now a.act).2.returns hash parses i as : Nat) * (7 * ε + D) := by
        rw [hret, Int.natCast_add, Int.add_mul]
        cases (s.step hash parses a.tie a.now a.act).1.gives i <;> simp [one, Int.add_assoc]
      rw [this]
      exact e1
    · have := hold_step (hash := hash) (parses := parses) h.inv h.reader h.lag a.tie a.now a.act
      rw [← h.exec] at this
      rw [hret, hhan]
      have e5 : s.run hash parses (a :: as) = (s.step hash parses a.tie a.now a.act).2.run hash parses as := rfl
      rw [e5]
      omega

/-! ## Until a transaction locks the row -/

private theorem pgnet_inv_run {hash : HashFn} {parses : Parses} {s : PgNet} (H : PgInv s.conc) (as : List TNetAct) :
    PgInv (s.run hash parses as).conc := by
  induction as generalizing s with
  | nil => exact H
  | cons a as ih => exact ih (pgnet_inv_step H a.tie a.now a.act)

private theorem dbEvents_snoc (hash : HashFn) (parses : Parses) (s : PgNet) (as : List TNetAct) (a : TNetAct) :
    s.dbEvents hash parses (as ++ [a]) = s.dbEvents hash parses as ++
      (match ((s.run hash parses as).step hash parses a.tie a.now a.act).1.back with
        | some ev => [ev]
        | none => []) := by
  simp only [PgNet.dbEvents, pgnet_trace_append, List.filterMap_append, PgNet.trace, List.filterMap_cons, List.filterMap_nil]
  cases ((s.run hash parses as).step hash parses a.tie a.now a.act).1.back <;> rfl

/-- From now on, until row `j` is handed out, nobody else changes it, and nothing is queued in front
of it. -/
def PgNet.LeftAlone (hash : HashFn) (parses : Parses) (s : PgNet) (j : Row) (as : List TNetAct) : Prop :=
  ∀ p a q, as = p ++ a :: q → (∀ ev ∈ s.dbEvents hash parses p, ev.handsOut j.id = false) →
    ∀ ev, ((s.run hash parses p).step hash parses a.tie a.now a.act).1.back = some ev →
      (ev.touches j.id = true → ev.handsOut j.id = true) ∧ ev.QueuesBehind j a.now (s.run hash parses p).conc.pg.rows

private theorem unlocked_step {hash : HashFn} {parses : Parses} {s : PgNet} (H : PgInv s.conc) {j : Row} (hj : j ∈ s.conc.pg.rows) (hw : j.Waiting)
    (a : TNetAct) (hfree : s.conc.rowLocked j.id = false)
    (hleft : ∀ ev, (s.step hash parses a.tie a.now a.act).1.back = some ev →
      (ev.touches j.id = true → ev.handsOut j.id = true) ∧ ev.QueuesBehind j a.now s.conc.pg.rows) :
    j ∈ (s.step hash parses a.tie a.now a.act).2.conc.pg.rows ∧
      ∀ ev, (s.step hash parses a.tie a.now a.act).1.back = some ev → ev.handsOut j.id = false := by
  rcases pgnet_back hash parses a.tie a.now s a.act with ⟨hb, hc⟩ | ⟨b, hb, hc, -⟩
  · rw [hc, hb]
    exact ⟨hj, fun ev h => by cases h⟩
  · have hno : (s.conc.step hash a.tie a.now b).1.handsOut j.id = false := by
      cases he : (s.conc.step hash a.tie a.now b).1 with
      | handedOut row res =>
        simp only [PgEv.handsOut]
        cases hid : row.id == j.id with
        | false => rfl
        | true =>
          obtain ⟨-, -, -, -, x, t, hs, -, -⟩ := handedOut_mem H he
          obtain ⟨i, hi⟩ := List.mem_iff_getElem?.mp hs
          have := rowLocked_iff.mpr ⟨i, _, hi, by rw [Session.rowLock, show row.id = j.id by simpa using hid]⟩
          rw [hfree] at this
          cases this
      | _ => rfl
    obtain ⟨h1, h2⟩ := hleft _ hb
    rw [hc, hb]
    refine ⟨waiting_row_stays H hj hw ?_ ?_, fun ev h => by cases h; exact hno⟩
    · cases ht : (s.conc.step hash a.tie a.now b).1.touches j.id with
      | false => rfl
      | true => rw [h1 ht] at hno; cases hno
    · intro spec res he
      rw [he] at h2
      exact h2

/-- As long as nobody has locked the row it stays, and is not handed out. -/
private theorem unlocked_run {hash : HashFn} {parses : Parses} {s : PgNet} (H : PgInv s.conc) {j : Row} (hj : j ∈ s.conc.pg.rows) (hw : j.Waiting)
    {as : List TNetAct} (hleft : s.LeftAlone hash parses j as) (p : List TNetAct) :
    ∀ q, as = p ++ q → (∀ p₁ q₁, p = p₁ ++ q₁ → q₁ ≠ [] → (s.run hash parses p₁).conc.rowLocked j.id = false) →
      j ∈ (s.run hash parses p).conc.pg.rows ∧ ∀ ev ∈ s.dbEvents hash parses p, ev.handsOut j.id = false := by
  induction p using snocInduction with
  | nil => exact fun q _ _ => ⟨hj, fun ev h => by cases h⟩
  | snoc p a ih =>
    intro q e hfree
    obtain ⟨h1, h2⟩ := ih (a :: q) (by rw [e]; simp) fun p₁ q₁ e₁ hne => hfree p₁ (q₁ ++ [a]) (by rw [e₁]; simp) (by simp)
    have := unlocked_step (pgnet_inv_run H p) h1 hw a (hfree p [a] rfl (by simp)) (hleft p a q (by rw [e]; simp) h2)
    rw [pgnet_run_snoc, dbEvents_snoc]
    refine ⟨this.1, ?_⟩
    intro ev hev
    rcases List.mem_append.mp hev with h | h
    · exact h2 ev h
    · cases hb : ((s.run hash parses p).step hash parses a.tie a.now a.act).1.back with
      | none => rw [hb] at h; cases h
      | some ev' =>
        rw [hb, List.mem_singleton] at h
        subst h
        exact this.2 ev hb

/-- Few rows are handed out before anybody locks `j`. -/
private theorem unlocked_handouts {hash : HashFn} {parses : Parses} (before as p : List TNetAct) {j : Row}
    (hj : j ∈ (PgNet.run hash parses {} before).conc.pg.rows) (hw : j.Waiting)
    (hleft : (PgNet.run hash parses {} before).LeftAlone hash parses j as) (q : List TNetAct) (e : as = p ++ q)
    (hmono : (p.map (·.now)).Pairwise (· ≤ ·)) (hdue : ∀ a ∈ p, j.scheduledAt ≤ a.now)
    (hfree : ∀ p₁ q₁, p = p₁ ++ q₁ → ((PgNet.run hash parses {} before).run hash parses p₁).conc.rowLocked j.id = false) :
    (PgNet.run hash parses {} before).handouts hash parses j.executor p ≤
      (PgNet.run hash parses {} before).conc.pg.rows.countP (fun a => decide (RowAhead j a)) +
        (PgNet.run hash parses {} before).conc.sessions.countP (fun s => s.takesFor j.executor) := by
  obtain ⟨cs, c1, -, -, -, -⟩ := pgnet_acts hash parses {} before
  have hc : (PgNet.run hash parses {} before).conc = PgConc.run hash {} cs := c1
  have H : PgInv (PgNet.run hash parses {} before).conc := pgnet_reach_inv before
  generalize PgNet.run hash parses {} before = s at *
  obtain ⟨bs, h1, h2, h3, h5, h4⟩ := pgnet_acts hash parses s p
  refine Nat.le_of_not_lt fun hmany => ?_
  have split : ∀ (k : Nat) (a : TNetAct), p[k]? = some a → p = p.take k ++ a :: p.drop (k + 1) := by
    intro k a h
    obtain ⟨hlt, rfl⟩ := List.getElem?_eq_some_iff.mp h
    rw [← List.drop_eq_getElem_cons hlt, List.take_append_drop]
  have hev : ∀ (n : Nat) (b : TPgAct), bs[n]? = some b →
      (((s.conc.run hash (bs.take n)).step hash b.tie b.now b.act).1.touches j.id = true →
        ((s.conc.run hash (bs.take n)).step hash b.tie b.now b.act).1.handsOut j.id = true) ∧
      ((s.conc.run hash (bs.take n)).step hash b.tie b.now b.act).1.QueuesBehind j b.now (s.conc.run hash (bs.take n)).pg.rows := by
    intro n b hn
    obtain ⟨m, a, g1, g2, g3, g4, -⟩ := h4 n b hn
    have hs := split m a g1
    generalize p.take m = p₁ at *
    generalize p.drop (m + 1) = p₂ at *
    have he : as = p₁ ++ a :: (p₂ ++ q) := by rw [e, hs]; simp
    have hh := (unlocked_run H hj hw hleft p₁ (a :: (p₂ ++ q)) he
      fun p' q' e₁ _ => hfree p' (q' ++ a :: p₂) (by rw [hs, e₁]; simp)).2
    have := hleft p₁ a (p₂ ++ q) he hh _ g4
    rw [g3, ← g2] at this
    exact this
  have hfr : ∀ n, (s.conc.run hash (bs.take n)).rowLocked j.id = false := by
    intro n
    cases hn : bs[n]? with
    | none =>
      rw [List.take_of_length_le (List.getElem?_eq_none_iff.mp hn), ← h1]
      exact hfree p [] (by simp)
    | some b =>
      obtain ⟨m, a, g1, -, g3, -, -⟩ := h4 n b hn
      rw [← g3]
      exact hfree (p.take m) (p.drop m) (List.take_append_drop m p).symm
  have key : ∀ (e : TPgEv) (bs : List TPgAct) (c : PgConc), e ∈ c.history hash bs → ∃ (n : Nat) (b : TPgAct), bs[n]? = some b ∧
      e.ev = ((c.run hash (bs.take n)).step hash b.tie b.now b.act).1 := by
    intro e bs
    induction bs with
    | nil => intro c h; cases h
    | cons b bs ih =>
      intro c h
      rcases List.mem_cons.mp h with rfl | h
      · exact ⟨0, b, rfl, rfl⟩
      · obtain ⟨n, b', h1, h2⟩ := ih _ h
        exact ⟨n + 1, b', h1, h2⟩
  rw [PgNet.handouts, h2, List.countP_map] at hmany
  rw [hc] at hj hev hfr hmany
  obtain ⟨n, hn⟩ := C85_overtaking hash cs bs j hj hw (List.pairwise_map.mp (hmono.sublist h3))
    (by
      intro b hb
      have hm := h3.subset (List.mem_map_of_mem hb)
      obtain ⟨a, ha, he⟩ := List.mem_map.mp hm
      have := hdue a ha
      rw [he] at this
      have hp : b.now - 1000 ≤ pgTime b.now := by
        have := Int.tmod_lt_of_pos (b.now - epoch2000) (show (0 : Int) < 1000 by decide)
        simp only [pgTime, Time] at *
        omega
      simp only [Time] at *
      omega)
    (by
      intro e he
      obtain ⟨n, b, hn, hee⟩ := key e bs _ he
      rw [hee]
      exact (hev n b hn).1)
    (fun n h => by rw [PgConc.run_append]; exact (hev n _ (List.getElem?_eq_getElem h)).2)
    (by
      have e : ((PgConc.run hash {} cs).history hash bs).countP (fun e => e.ev.handsOutFor j.executor) =
        ((PgConc.run hash {} cs).history hash bs).countP (PgEv.handsOutFor j.executor ∘ fun e => e.ev) := rfl
      omega)
  rw [PgConc.run_append, hfr n] at hn
  cases hn

/-! ## When the stream's own hand-out has locked the row -/

/-- The hand-out has locked row `id`, or has the answer. -/
private def Held (ε : Delta) (id : Int) (K m : Time) : Session → Prop
  | .locked _ _ id' => id' = id ∧ m ≤ K
  | .done (.job (some jb)) => jb.id = id ∧ m ≤ K + ε
  | .done (.err _) => m ≤ K + ε
  | _ => False

private theorem held_mono {ε : Delta} {id : Int} {K m m' : Time} {ss : Session} (h : Held ε id K m ss) (hm : m' ≤ m) : Held ε id K m' ss := by
  unfold Held at h ⊢
  split at h
  · exact ⟨h.1, Int.le_trans hm h.2⟩
  · exact ⟨h.1, Int.le_trans hm h.2⟩
  · exact Int.le_trans hm h
  · exact h

private theorem held_le {ε : Delta} (hε : 0 ≤ ε) {id : Int} {K m : Time} {ss : Session} (h : Held ε id K m ss) : m ≤ K + ε := by
  unfold Held at h
  split at h <;> first | (simp only [Time, Delta] at *; omega) | exact h.elim

private theorem decoded_id {r : Row} {j : Job} (h : r.decode = some j) : r.id = j.id := by
  simp only [Row.decode] at h
  split at h
  · simp at h
  · simp only [Option.some.injEq] at h
    subst h
    rfl

private theorem held_advance {c : PgConc} (H : PgInv c) {hash : HashFn} {tie : Int → Nat} {now : Time} {ε : Delta} {id : Int} {K m m' : Time} {k : Nat} {ss : Session}
    (hk : c.sessions[k]? = some ss) (h : Held ε id K m ss) (hm : m' ≤ K + ε) (hd : ∀ res, ss = .done res → m' ≤ m) :
    Held ε id K m' (c.advance hash tie now ss).2.1 := by
  cases ss with
  | locked y t id' =>
    obtain ⟨z, g1, g2, -⟩ := H.lockedReady k y t id' hk
    simp only [PgConc.advance]
    cases hf : c.pg.rows.find? fun r => r.id == id' with
    | none =>
      rw [List.find?_eq_none] at hf
      exact (hf z g1 (by simpa using g2)).elim
    | some q =>
      have hid : q.id = id' := by simpa using List.find?_some hf
      simp only
      cases hdec : (q.markExecuting t).decode with
      | none => exact hm
      | some jb =>
        refine ⟨?_, hm⟩
        exact (decoded_id hdec).symm.trans (hid.trans h.1)
  | done r => exact held_mono h (hd r rfl)
  | _ => exact h.elim

/-- It returns the row. -/
private theorem held_returns {L : Prop} {hash : HashFn} {parses : Parses} {ε δ D : Delta} (hε : 0 ≤ ε) {i n : Nat} {id : Int} {K m u : Time} {s : PgNet}
    (H : PgInv s.conc) {r : PgReader} {clock : Time} {d : Delta} {k : Nat} {ss : Session} (as : List TNetAct)
    (hr : s.readers[i]? = some r) (hw : r.wait = .loading clock d k) (hk : s.conc.sessions[k]? = some ss) (hh : Held ε id K m ss)
    (hp : NetPrompt L hash parses ε δ D i n m u s as)
    (hno : ∀ p a q, as = p ++ a :: q → ((s.run hash parses p).step hash parses a.tie a.now a.act).1.errs i = false)
    {b : TNetAct} (hb : b ∈ as) (hlate : K + 2 * ε < b.now) :
    ∃ p a q jb, as = p ++ a :: q ∧ a.now ≤ K + 2 * ε ∧
      ((s.run hash parses p).step hash parses a.tie a.now a.act).1 = .returned i jb ∧ jb.id = id := by
  induction as generalizing s r m u ss with
  | nil => cases hb
  | cons a as ih =>
    obtain ⟨hpa, -, m', hm', hp⟩ := hp
    have hle := held_le hε hh
    have hnow : a.now ≤ K + 2 * ε := by simp only [Time, Delta] at *; omega
    have hb' : b ∈ as := by
      rcases List.mem_cons.mp hb with h' | h'
      · subst h'; exact (Int.not_le.mpr hlate hnow).elim
      · exact h'
    have hno0 := hno [] a as rfl
    simp only [PgNet.run] at hno0
    obtain ⟨r', hr', hs⟩ := net_seen hash parses a.tie a.now a.act hr
    have hmv := hm' r' hr'
    have go : ∀ ss', r'.wait = .loading clock d k → (s.step hash parses a.tie a.now a.act).2.conc.sessions[k]? = some ss' →
        Held ε id K m' ss' → ∃ p c q jb, a :: as = p ++ c :: q ∧ c.now ≤ K + 2 * ε ∧
          ((s.run hash parses p).step hash parses c.tie c.now c.act).1 = .returned i jb ∧ jb.id = id := by
      intro ss' g1 g2 g3
      obtain ⟨p, c, q, jb, e1, e2, e3, e4⟩ := ih (pgnet_inv_step H a.tie a.now a.act) hr' g1 g2 g3 hp
        (fun p c q e => hno (a :: p) c q (by rw [e]; rfl)) hb'
      exact ⟨a :: p, c, q, jb, by rw [e1]; rfl, e2, e3, e4⟩
    generalize hown : (a.act.isStream i && (s.step hash parses a.tie a.now a.act).1.isSomething) = own at hs hmv
    rw [pgMovesFrom_eq hr'] at hmv
    cases hs with
    | returned jb h he hc =>
      obtain ⟨r₀, c₀, d₀, k₀, e1, e2, e3, -⟩ := returned_session he
      rw [hr, Option.some.injEq] at e1
      subst e1
      rw [hw] at e2
      injection e2 with _ _ e2
      subst e2
      rw [hk, Option.some.injEq] at e3
      subst e3
      exact ⟨[], a, as, jb, rfl, hnow, he, hh.1⟩
    | failed h he hc => rw [he] at hno0; simp [NetEv.errs] at hno0
    | still q h ho hc =>
      have hm₁ := hmv.1 ho
      subst h
      rcases hc with e | ⟨b', e⟩
      · exact go ss hw (by rw [e]; exact hk) (held_mono hh hm₁)
      · obtain ⟨z, g1, g2⟩ := net_session_seen (hash := hash) (tie := a.tie) (now := a.now) b' hk
        refine go z hw (by rw [e]; exact g1) ?_
        rcases g2 with rfl | rfl | rfl
        · exact held_mono hh hm₁
        · exact held_advance H hk hh (Int.le_trans hm₁ hle) fun _ _ => hm₁
        · exact Int.le_trans hm₁ hle
    | goesOn c₀ d₀ k₀ hw' hk' h ho hc =>
      subst h
      rw [hw] at hw'
      injection hw' with _ _ e
      subst e
      have hm₂ : m' ≤ a.now := by
        rcases hmv.2 with h' | h'
        · rw [hw] at h'; exact h'
        · rw [hw] at h'; cases h'.1
      refine go (s.conc.advance hash a.tie a.now ss).2.1 hw (by rw [hc]; exact conc_session_self hk) ?_
      refine held_advance H hk hh ?_ fun res e => (hk' res (by rw [hk, e])).elim
      cases ss with
      | locked y t id' => have := hh.2; simp only [Time, Delta] at *; omega
      | done res => exact (hk' res hk).elim
      | _ => exact hh.elim
    | gotNone c₀ d₀ k₀ hw' hk' h ho hc =>
      rw [hw] at hw'
      injection hw' with _ _ e
      subst e
      rw [hk, Option.some.injEq] at hk'
      subst hk'
      exact hh.elim
    | ready hw' h => rw [hw] at hw'; cases hw'
    | looked f hw' h => rw [hw] at hw'; cases hw'
    | opens c₀ d₀ hw' hd h => rw [hw] at hw'; cases hw'
    | sleeps c₀ d₀ hw' hd h => rw [hw] at hw'; cases hw'
    | wakes c₀ since d₀ q hw' h => rw [hw] at hw'; cases hw'

/-! ## Together -/

/-- The first time. -/
private theorem first_prefix {α : Type _} {P : List α → Prop} (l : List α) (h : ∃ p q, l = p ++ q ∧ P p) :
    ∃ p q, l = p ++ q ∧ P p ∧ ∀ p₁ q₁, p = p₁ ++ q₁ → q₁ ≠ [] → ¬ P p₁ := by
  induction l using snocInduction with
  | nil =>
    obtain ⟨p, q, e, hp⟩ := h
    have e' := List.append_eq_nil_iff.mp e.symm
    refine ⟨p, q, e, hp, ?_⟩
    intro p₁ q₁ e₁ hne
    rw [e'.1] at e₁
    exact (hne (List.append_eq_nil_iff.mp e₁.symm).2).elim
  | snoc l a ih =>
    by_cases h' : ∃ p q, l = p ++ q ∧ P p
    · obtain ⟨p, q, e, hp, hmin⟩ := ih h'
      exact ⟨p, q ++ [a], by rw [e]; simp, hp, hmin⟩
    · obtain ⟨p, q, e, hp⟩ := h
      have hq : q = [] := by
        refine Classical.byContradiction fun hq => h' ?_
        rw [← List.dropLast_concat_getLast hq, ← List.append_assoc] at e
        exact ⟨p, q.dropLast, (List.append_inj' e rfl).1, hp⟩
      subst hq
      rw [List.append_nil] at e
      refine ⟨p, [], by simpa using e, hp, ?_⟩
      intro p₁ q₁ e₁ hne hp₁
      refine h' ⟨p₁, q₁.dropLast, ?_, hp₁⟩
      rw [← List.dropLast_concat_getLast hne, ← List.append_assoc, ← e] at e₁
      exact (List.append_inj' e₁ rfl).1

private theorem one_le (b : Bool) : one b ≤ 1 := by cases b <;> simp [one]

/-- A stream returns a row that is due in time, or another session locks the row. -/
theorem OnItsWay.returns {L : Prop} {hash : HashFn} {parses : Parses} {ε δ D : Delta} (hε : 0 ≤ ε) (hδ : 0 ≤ δ) (hD : 0 ≤ D) {i n : Nat} {j : Row}
    {t₁ V T' : Time} {before : List TNetAct} {r : PgReader} {node : PgNode} {m u t : Time} {N : Nat}
    (h : OnItsWay L ε δ D i n j t₁ V T' (PgNet.run hash parses {} before) r node m u t)
    (hT : j.scheduledAt ≤ T') (hV : V ≤ T') (hw : j.Waiting) (as : List TNetAct)
    (hc : (t :: as.map (·.now)).Pairwise (· ≤ ·)) (hdue : ∀ a ∈ as, j.scheduledAt ≤ a.now)
    (hp : NetPrompt L hash parses ε δ D i n m u (PgNet.run hash parses {} before) as) (hun : L → Unbroken n as)
    (hend : L → ∃ node₂, ((PgNet.run hash parses {} before).run hash parses as).nodes[n]? = some node₂ ∧ node₂.listening = true)
    (hleft : (PgNet.run hash parses {} before).LeftAlone hash parses j as)
    (hno : ∀ p a q, as = p ++ a :: q →
      (((PgNet.run hash parses {} before).run hash parses p).step hash parses a.tie a.now a.act).1.errs i = false)
    (hfree : ¬ (PgNet.run hash parses {} before).otherHolds i j.id)
    (hN : (PgNet.run hash parses {} before).conc.pg.rows.countP (fun a => decide (RowAhead j a)) +
        (PgNet.run hash parses {} before).conc.sessions.countP (fun s => s.takesFor j.executor) ≤ N)
    (hlate : ∃ b ∈ as, T' + 15 * ms + 10 * ε + D + (N + 1) * (7 * ε + D) < b.now) :
    ∃ p a q, as = p ++ a :: q ∧ a.now ≤ T' + 15 * ms + 10 * ε + D + (N + 1) * (7 * ε + D) ∧
      ((∃ jb, (((PgNet.run hash parses {} before).run hash parses p).step hash parses a.tie a.now a.act).1 = .returned i jb ∧
          jb.id = j.id) ∨
        (((PgNet.run hash parses {} before).run hash parses p).step hash parses a.tie a.now a.act).2.otherHolds i j.id) := by
  obtain ⟨b, hb, hlate⟩ := hlate
  obtain ⟨as₁, as₂, rfl⟩ := List.append_of_mem hb
  have hmul : ∀ c : Nat, c ≤ N + 1 → T' + c * (7 * ε + D) ≤ T' + (N + 1) * (7 * ε + D) := by
    intro c hc
    have : (c : Int) * (7 * ε + D) ≤ ((N : Int) + 1) * (7 * ε + D) :=
      Int.mul_le_mul_of_nonneg_right (by omega) (by simp only [Delta] at *; omega)
    simp only [Time, Delta] at *; omega
  have H : PgInv (PgNet.run hash parses {} before).conc := pgnet_reach_inv before
  -- along a prefix during which nobody has locked the row
  have along : ∀ p q, as₁ ++ b :: as₂ = p ++ q →
      (∀ p₁ q₁, p = p₁ ++ q₁ → ((PgNet.run hash parses {} before).run hash parses p₁).conc.rowLocked j.id = false) →
      ∃ r' node' m' u' t',
        OnItsWay L ε δ D i n j t₁ V (T' + (PgNet.run hash parses {} before).returns hash parses i p * (7 * ε + D))
          ((PgNet.run hash parses {} before).run hash parses p) r' node' m' u' t' ∧
        NetPrompt L hash parses ε δ D i n m' u' ((PgNet.run hash parses {} before).run hash parses p) q ∧
        (t' :: q.map (·.now)).Pairwise (· ≤ ·) ∧ (PgNet.run hash parses {} before).returns hash parses i p ≤ N + 1 := by
    intro p q e hf
    rw [e] at hc hdue hp hun hend hleft hno
    obtain ⟨r', node', m', u', t', k1, k2, k3, k4⟩ := h.along hε hδ hD hT hV hw p q hc hp hun hend (by
      intro p₁ a q₁ e₁
      have hl := hf p₁ (a :: q₁) e₁
      obtain ⟨f1, f2⟩ := unlocked_run H h.row hw hleft p₁ (a :: q₁ ++ q) (by rw [e₁]; simp)
        fun p₂ q₂ e₂ _ => hf p₂ (q₂ ++ a :: q₁) (by rw [e₁, e₂]; simp)
      refine ⟨?_, ?_, hno p₁ a (q₁ ++ q) (by rw [e₁]; simp)⟩
      · rintro ⟨k, ss, g1, g2, -⟩
        rw [rowLocked_iff.mpr ⟨k, ss, g1, g2⟩] at hl
        cases hl
      · exact (unlocked_step (pgnet_inv_run H p₁) f1 hw a hl (hleft p₁ a (q₁ ++ q) (by rw [e₁]; simp) f2)).1)
    have hfew := unlocked_handouts before (p ++ q) p h.row hw hleft q rfl
      ((List.Pairwise.of_cons hc).sublist (by rw [List.map_append]; exact List.sublist_append_left _ _))
      (fun a ha => hdue a (List.mem_append_left _ ha)) hf
    have := one_le ((PgNet.run hash parses {} before).holdsJob i)
    exact ⟨r', node', m', u', t', k1, k2, k3, by omega⟩
  -- the stream's own hand-out has locked the row
  have own : ∀ p q, as₁ ++ b :: as₂ = p ++ q → b ∈ q → ∀ r' node' m' u' t',
      (PgNet.run hash parses {} before).returns hash parses i p ≤ N + 1 →
      OnItsWay L ε δ D i n j t₁ V (T' + (PgNet.run hash parses {} before).returns hash parses i p * (7 * ε + D))
        ((PgNet.run hash parses {} before).run hash parses p) r' node' m' u' t' →
      NetPrompt L hash parses ε δ D i n m' u' ((PgNet.run hash parses {} before).run hash parses p) q →
      ((PgNet.run hash parses {} before).run hash parses p).conc.rowLocked j.id = true →
      ¬ ((PgNet.run hash parses {} before).run hash parses p).otherHolds i j.id →
      ∃ p' a q', as₁ ++ b :: as₂ = p' ++ a :: q' ∧ a.now ≤ T' + 15 * ms + 10 * ε + D + (N + 1) * (7 * ε + D) ∧
        ∃ jb, (((PgNet.run hash parses {} before).run hash parses p').step hash parses a.tie a.now a.act).1 = .returned i jb ∧
          jb.id = j.id := by
    intro p q e hbq r' node' m' u' t' hret hW hP hl hf
    obtain ⟨k, ss, g1, g2⟩ := rowLocked_iff.mp hl
    obtain ⟨clock, d, hwt⟩ : ∃ clock d, r'.wait = .loading clock d k := by
      refine Classical.byContradiction fun hno => hf ⟨k, ss, g1, g2, ?_⟩
      intro r₀ hr₀ clock d e
      rw [hW.reader, Option.some.injEq] at hr₀
      subst hr₀
      exact hno ⟨clock, d, e⟩
    have hnear := hW.near.resolve_left fun h => by rw [hwt] at h; exact h.1
    have hlag := hW.lag
    simp only [pgNear, pgLag, hwt] at hnear hlag
    obtain ⟨ss', g3, g4⟩ := hnear
    obtain ⟨-, -, -, ss'', g5, g6⟩ := hlag
    rw [g1, Option.some.injEq] at g3 g5
    subst g3 g5
    have hb' := hmul _ hret
    obtain ⟨p', a, q', jb, e1, e2, e3, e4⟩ := held_returns (id := j.id)
      (K := T' + (PgNet.run hash parses {} before).returns hash parses i p * (7 * ε + D) + 15 * ms + 8 * ε + D) hε hW.inv q hW.reader hwt g1 (by
        cases ss with
        | locked y t id =>
          simp only [Session.rowLock, Option.some.injEq] at g2
          exact ⟨g2, g4⟩
        | replacing e uc rep id => exact g6.elim
        | _ => cases g2) hP
      (by
        intro p' a q' e'
        rw [← pgnet_run_append]
        exact hno (p ++ p') a q' (by rw [e, e']; simp)) hbq (by simp only [Time, Delta, ms] at *; omega)
    refine ⟨p ++ p', a, q', by rw [e, e1]; simp, by simp only [Time, Delta, ms] at *; omega, jb, ?_, e4⟩
    rw [pgnet_run_append]
    exact e3
  by_cases hlocked : ∃ p q, as₁ = p ++ q ∧ ((PgNet.run hash parses {} before).run hash parses p).conc.rowLocked j.id = true
  · obtain ⟨p, q, e, hl, hmin⟩ := first_prefix as₁ hlocked
    have unl : ∀ p₁ q₁, p = p₁ ++ q₁ → q₁ ≠ [] →
        ((PgNet.run hash parses {} before).run hash parses p₁).conc.rowLocked j.id = false := by
      intro p₁ q₁ e₁ hne
      exact Bool.not_eq_true _ ▸ hmin p₁ q₁ e₁ hne
    cases hps : p.reverse with
    | nil =>
      have hp0 : p = [] := by simpa using hps
      subst hp0
      obtain ⟨p', a, q', k1, k2, k3⟩ := own [] (as₁ ++ b :: as₂) rfl (by simp) r node m u t (by simp [PgNet.returns, PgNet.trace])
        (by simpa [PgNet.returns, PgNet.trace, PgNet.run] using h) hp hl hfree
      exact ⟨p', a, q', k1, k2, .inl k3⟩
    | cons a p₀r =>
      have hp0 : p = p₀r.reverse ++ [a] := by
        have := congrArg List.reverse hps
        simpa using this
      generalize p₀r.reverse = p₀ at hp0
      subst hp0
      have efull : as₁ ++ b :: as₂ = p₀ ++ a :: (q ++ b :: as₂) := by rw [e]; simp
      obtain ⟨r', node', m', u', t', k1, k2, k3, k4⟩ := along p₀ (a :: (q ++ b :: as₂)) efull
        fun p₁ q₁ e₁ => unl p₁ (q₁ ++ [a]) (by rw [e₁]; simp) (by simp)
      have hbound := hmul _ k4
      have hle : V ≤ T' + (PgNet.run hash parses {} before).returns hash parses i p₀ * (7 * ε + D) ∧
          j.scheduledAt ≤ T' + (PgNet.run hash parses {} before).returns hash parses i p₀ * (7 * ε + D) := by
        have : (0 : Int) ≤ ((PgNet.run hash parses {} before).returns hash parses i p₀ : Int) * (7 * ε + D) :=
          Int.mul_nonneg (Int.natCast_nonneg _) (by simp only [Delta] at *; omega)
        simp only [Time, Delta] at *; omega
      have hnow := k1.next hε hδ hD hle.1 k2
      by_cases hoth : (((PgNet.run hash parses {} before).run hash parses p₀).step hash parses a.tie a.now a.act).2.otherHolds i j.id
      · exact ⟨p₀, a, q ++ b :: as₂, efull, by simp only [Time, Delta, ms] at *; omega, .inr hoth⟩
      · have hl0 := unl p₀ [a] rfl (by simp)
        obtain ⟨f1, f2⟩ := unlocked_run H h.row hw hleft p₀ (a :: (q ++ b :: as₂)) efull
          fun p₁ q₁ e₁ hne => unl p₁ (q₁ ++ [a]) (by rw [e₁]; simp) (by simp)
        have hstays := (unlocked_step (pgnet_inv_run H p₀) f1 hw a hl0 (hleft p₀ a _ efull f2)).1
        have hta : t' ≤ a.now := List.rel_of_pairwise_cons (l := ((a :: (q ++ b :: as₂)).map (·.now))) k3 (by simp)
        obtain ⟨r₂, node₃, m₂, u₂, w1, w2⟩ := k1.step hε hδ hD hle.2 hle.1 hw k2 hta
          (fun hL => hun hL a (by rw [efull]; simp)) (by rw [← pgnet_run_append, ← efull]; exact hend)
          (by
            rintro ⟨k, ss, g1, g2, -⟩
            rw [rowLocked_iff.mpr ⟨k, ss, g1, g2⟩] at hl0
            cases hl0) hstays (hno p₀ a _ efull)
        have hsnoc := pgnet_run_snoc hash parses (PgNet.run hash parses {} before) p₀ a
        have hgive : (((PgNet.run hash parses {} before).run hash parses p₀).step hash parses a.tie a.now a.act).1.gives i = false := by
          cases hg : (((PgNet.run hash parses {} before).run hash parses p₀).step hash parses a.tie a.now a.act).1.gives i with
          | false => rfl
          | true =>
            exfalso
            obtain ⟨jb, e⟩ : ∃ jb, (((PgNet.run hash parses {} before).run hash parses p₀).step hash parses a.tie a.now a.act).1 =
                .returned i jb := by
              cases hev : (((PgNet.run hash parses {} before).run hash parses p₀).step hash parses a.tie a.now a.act).1 with
              | returned k jb => rw [hev] at hg; simp only [NetEv.gives, beq_iff_eq] at hg; exact ⟨jb, by rw [hg]⟩
              | _ => rw [hev] at hg; simp [NetEv.gives] at hg
            obtain ⟨-, -, -, -, -, -, -, r₀, e1, hready⟩ := returned_session e
            rw [hsnoc] at hl
            obtain ⟨k, ss, g1, g2⟩ := rowLocked_iff.mp hl
            refine hoth ⟨k, ss, g1, g2, ?_⟩
            intro r₁ hr₁ clock d hwt
            rw [e1, Option.some.injEq] at hr₁
            subst hr₁
            rw [hready] at hwt
            cases hwt
        have hret : (PgNet.run hash parses {} before).returns hash parses i (p₀ ++ [a]) =
            (PgNet.run hash parses {} before).returns hash parses i p₀ := by
          rw [returns_snoc, hgive]; rfl
        rw [hgive, if_neg (by simp)] at w1
        obtain ⟨p', c, q', g1, g2, g3⟩ := own (p₀ ++ [a]) (q ++ b :: as₂) (by rw [e]; simp) (by simp) r₂ node₃ m₂ u₂ a.now
          (by rw [hret]; exact k4) (by rw [hret, hsnoc]; exact w1) (by rw [hsnoc]; exact w2) hl (by rw [hsnoc]; exact hoth)
        exact ⟨p', c, q', g1, g2, .inl g3⟩
  · exfalso
    obtain ⟨r', node', m', u', t', k1, k2, k3, k4⟩ := along as₁ (b :: as₂) rfl fun p₁ q₁ e₁ => by
      cases hl : ((PgNet.run hash parses {} before).run hash parses p₁).conc.rowLocked j.id with
      | false => rfl
      | true => exact (hlocked ⟨p₁, q₁, e₁, hl⟩).elim
    have hbound := hmul _ k4
    have hle : V ≤ T' + (PgNet.run hash parses {} before).returns hash parses i as₁ * (7 * ε + D) := by
      have : (0 : Int) ≤ ((PgNet.run hash parses {} before).returns hash parses i as₁ : Int) * (7 * ε + D) :=
        Int.mul_nonneg (Int.natCast_nonneg _) (by simp only [Delta] at *; omega)
      simp only [Time, Delta] at *; omega
    have hnow := k1.next hε hδ hD hle k2
    simp only [Time, Delta, ms] at *; omega

end Rexecutor
