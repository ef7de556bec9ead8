import Verif.Lemmas.PgStream
import Verif.Spec.Samples
import Verif.Spec.Pg

/-! # C54, C60, C61: notifications and streams of the Postgres backend -/

namespace Rexecutor

/-! ## Steps -/

private theorem get_setWait {s : PgNet} {i j : Nat} {w : PgWait} {r : PgReader} (h : s.readers[i]? = some r) :
    ∃ r', (s.setWait j w).readers[i]? = some r' ∧ r'.node = r.node ∧ r'.executor = r.executor ∧ r'.queue = r.queue := by
  simp only [PgNet.setWait, List.getElem?_modify, h]
  by_cases hj : j = i
  · exact ⟨{ r with wait := w }, by simp [hj], rfl, rfl, rfl⟩
  · exact ⟨r, by simp [hj], rfl, rfl, rfl⟩

private theorem dbStep_node {hash : HashFn} {tie : Int → Nat} {now : Time} {s : PgNet} {a : PgAct} {n : Nat} {node : PgNode}
    (h : s.nodes[n]? = some node) (hl : node.listening = true) :
    (s.dbStep hash tie now a).2.nodes[n]? = some ⟨node.listening, node.inbox ++
      (s.conc.step hash tie now a).1.notices (s.conc.step hash tie now a).2.pg.rows⟩ := by
  simp [PgNet.dbStep, h, hl]

private theorem dbStep_dead {hash : HashFn} {tie : Int → Nat} {now : Time} {s : PgNet} {a : PgAct} {n : Nat} {node : PgNode}
    (h : s.nodes[n]? = some node) (hl : node.listening = false) :
    (s.dbStep hash tie now a).2.nodes[n]? = some node := by
  simp [PgNet.dbStep, h, hl]

theorem pgnet_inv_step {hash : HashFn} {parses : Parses} {s : PgNet} (H : PgInv s.conc) (tie : Int → Nat) (now : Time)
    (a : NetAct) : PgInv (s.step hash parses tie now a).2.conc := by
  have hd : ∀ a, PgInv (s.dbStep hash tie now a).2.conc := fun a => H.step hash tie now a
  cases a with
  | db a => exact hd a
  | connect => exact H
  | subscribe n x => exact H
  | deliver n =>
    simp only [PgNet.step, PgNet.deliver]
    split
    · exact H
    · split
      · exact H
      · split <;> exact H
  | reconnect n => exact H
  | fail n => exact H
  | stream i timer =>
    simp only [PgNet.step]
    split
    · exact H
    · simp only [PgNet.streamStep]
      split
      · exact H
      · exact H
      · split
        · exact hd _
        · exact H
      · split
        · exact H
        · exact H
        · exact H
        · exact hd _
      · split
        · split <;> exact H
        · split <;> exact H
  | streamFails i =>
    simp only [PgNet.step]
    split <;> exact H

private theorem dead_step {hash : HashFn} {parses : Parses} {s : PgNet} {tie : Int → Nat} {now : Time} {n : Nat}
    {node : PgNode} (h : s.nodes[n]? = some node) (hl : node.listening = false) (a : NetAct) :
    ∃ node', (s.step hash parses tie now a).2.nodes[n]? = some node' ∧ node'.listening = false := by
  have hd : ∀ a, ∃ node', (s.dbStep hash tie now a).2.nodes[n]? = some node' ∧ node'.listening = false :=
    fun a => ⟨node, dbStep_dead h hl, hl⟩
  cases a with
  | db a => exact hd a
  | connect =>
    refine ⟨node, ?_, hl⟩
    simp only [PgNet.step]
    rw [List.getElem?_append_left (List.getElem?_eq_some_iff.mp h).1, h]
  | subscribe m x => exact ⟨node, h, hl⟩
  | deliver m =>
    simp only [PgNet.step, PgNet.deliver]
    split
    · exact ⟨node, h, hl⟩
    · rename_i nd hm
      split
      · exact ⟨node, h, hl⟩
      · rename_i x t rest hi
        by_cases hmn : m = n
        · subst hmn
          rw [h, Option.some.injEq] at hm
          subst hm
          split
          · exact ⟨{ node with inbox := rest }, by simp [(List.getElem?_eq_some_iff.mp h).1], hl⟩
          · exact ⟨{ listening := false, inbox := [] }, by simp [(List.getElem?_eq_some_iff.mp h).1], rfl⟩
        · split <;> exact ⟨node, by simp [List.getElem?_set_ne hmn, h], hl⟩
  | reconnect m =>
    by_cases hmn : m = n
    · exact ⟨{ node with inbox := [] }, by simp [PgNet.step, hmn, h], hl⟩
    · exact ⟨node, by simp [PgNet.step, List.getElem?_modify, hmn, h], hl⟩
  | fail m =>
    by_cases hmn : m = n
    · exact ⟨{ listening := false, inbox := [] }, by simp [PgNet.step, hmn, h], rfl⟩
    · exact ⟨node, by simp [PgNet.step, List.getElem?_modify, hmn, h], hl⟩
  | stream i timer =>
    simp only [PgNet.step]
    split
    · exact ⟨node, h, hl⟩
    · simp only [PgNet.streamStep]
      split
      · exact ⟨node, h, hl⟩
      · exact ⟨node, h, hl⟩
      · split
        · exact hd _
        · exact ⟨node, h, hl⟩
      · split
        · exact ⟨node, h, hl⟩
        · exact ⟨node, h, hl⟩
        · exact ⟨node, h, hl⟩
        · exact hd _
      · split
        · split <;> exact ⟨node, h, hl⟩
        · split <;> exact ⟨node, h, hl⟩
  | streamFails i =>
    simp only [PgNet.step]
    split <;> exact ⟨node, h, hl⟩

theorem pgnet_dead_run {hash : HashFn} {parses : Parses} {s : PgNet} {n : Nat} {node : PgNode}
    (h : s.nodes[n]? = some node) (hl : node.listening = false) (as : List TNetAct) :
    ∃ node', (s.run hash parses as).nodes[n]? = some node' ∧ node'.listening = false := by
  induction as generalizing s node with
  | nil => exact ⟨node, h, hl⟩
  | cons a as ih =>
    obtain ⟨node', h', hl'⟩ := dead_step (hash := hash) (parses := parses) (tie := a.tie) (now := a.now) h hl a.act
    exact ih h' hl'

/-- Nothing is sent, lost or added, seen from stream `i`. -/
private structure Kept (i : Nat) (n : Nat) (r : PgReader) (node : PgNode) (s' : PgNet) (ev : NetEv) (ts : List Time) : Prop where
  kept : ∃ r' node', s'.readers[i]? = some r' ∧ r'.node = r.node ∧ r'.executor = r.executor ∧
    s'.nodes[n]? = some node' ∧
    (node'.listening = false ∨ (node'.listening = true ∧
      receivedBy i [ev] ++ r'.queue ++ node'.pending r.executor = r.queue ++ node.pending r.executor ++ ts))

private theorem pending_append (x : String) (l : Bool) (a b : List (String × Time)) :
    (PgNode.mk l (a ++ b)).pending x = (PgNode.mk l a).pending x ++ ((b.filter fun m => m.1 == x).map (·.2)) := by
  simp [PgNode.pending]

private theorem kept_step {hash : HashFn} {parses : Parses} {s : PgNet} (H : PgInv s.conc) {tie : Int → Nat} {now : Time}
    {i n : Nat} {r : PgReader} {node : PgNode} (hr : s.readers[i]? = some r) (hn : r.node = n)
    (h : s.nodes[n]? = some node) (hl : node.listening = true) (a : NetAct) (ha : a ≠ .reconnect n) :
    ∃ ts, News r.executor [(s.step hash parses tie now a).1] ts ∧
      Kept i n r node (s.step hash parses tie now a).2 (s.step hash parses tie now a).1 ts := by
  -- a step that is not about the database and changes no message
  have still : ∀ (ev : NetEv) (s' : PgNet), (∀ e rows, ev ≠ .db e rows) → receivedBy i [ev] = [] →
      s'.nodes[n]? = some node → (∃ r', s'.readers[i]? = some r' ∧ r'.node = r.node ∧ r'.executor = r.executor ∧ r'.queue = r.queue) →
      ∃ ts, News r.executor [ev] ts ∧ Kept i n r node s' ev ts := by
    intro ev s' h1 h2 h3 ⟨r', h4, h5, h6, h7⟩
    exact ⟨[], .other _ _ _ h1 .nil, ⟨r', node, h4, h5, h6, h3, .inr ⟨hl, by simp [h2, h7]⟩⟩⟩
  have db : ∀ (a : PgAct) (s' : PgNet), s'.nodes = (s.dbStep hash tie now a).2.nodes →
      (∃ r', s'.readers[i]? = some r' ∧ r'.node = r.node ∧ r'.executor = r.executor ∧ r'.queue = r.queue) →
      ∃ ts, News r.executor [(s.dbStep hash tie now a).1] ts ∧ Kept i n r node s' (s.dbStep hash tie now a).1 ts := by
    intro a s' h1 ⟨r', h4, h5, h6, h7⟩
    have hinv := H.step hash tie now a
    refine ⟨_, news_notices hinv.nodup _ _, ⟨r', ⟨node.listening, node.inbox ++
      (s.conc.step hash tie now a).1.notices (s.conc.step hash tie now a).2.pg.rows⟩, h4, h5, h6, ?_, .inr ⟨?_, ?_⟩⟩⟩
    · rw [h1]; exact dbStep_node h hl
    · exact hl
    · obtain ⟨l, inbox⟩ := node
      rw [pending_append]
      simp [receivedBy, PgNet.dbStep, h7]
  cases a with
  | db a => exact db a _ rfl ⟨r, hr, rfl, rfl, rfl⟩
  | connect =>
    refine still _ _ (by simp [PgNet.step]) rfl ?_ ⟨r, hr, rfl, rfl, rfl⟩
    simp only [PgNet.step]
    rw [List.getElem?_append_left (List.getElem?_eq_some_iff.mp h).1, h]
  | subscribe m x =>
    refine still _ _ (by simp [PgNet.step]) rfl h ⟨r, ?_, rfl, rfl, rfl⟩
    simp only [PgNet.step]
    rw [List.getElem?_append_left (List.getElem?_eq_some_iff.mp hr).1, hr]
  | deliver m =>
    simp only [PgNet.step, PgNet.deliver]
    split
    · exact still _ _ (by simp) rfl h ⟨r, hr, rfl, rfl, rfl⟩
    · rename_i nd hm
      split
      · exact still _ _ (by simp) rfl h ⟨r, hr, rfl, rfl, rfl⟩
      · rename_i x t rest hi
        by_cases hmn : m = n
        · subst hmn
          rw [h, Option.some.injEq] at hm
          subst hm
          have hlt := (List.getElem?_eq_some_iff.mp h).1
          split
          · refine ⟨[], .other _ _ _ (by simp) .nil, ?_⟩
            by_cases hx : r.executor = x
            · refine ⟨{ r with queue := r.queue ++ [t] }, { node with inbox := rest }, ?_, rfl, rfl, by simp [hlt], .inr ⟨hl, ?_⟩⟩
              · simp [hr, hn, hx]
              · simp [receivedBy, PgNode.pending, hi, hx]
            · refine ⟨r, { node with inbox := rest }, ?_, rfl, rfl, by simp [hlt], .inr ⟨hl, ?_⟩⟩
              · simp [hr, hx]
              · have : (x == r.executor) = false := by simpa using fun e => hx e.symm
                simp [receivedBy, PgNode.pending, hi, this]
          · exact ⟨[], .other _ _ _ (by simp) .nil, ⟨r, { listening := false, inbox := [] }, hr, rfl, rfl, by simp [hlt], .inl rfl⟩⟩
        · split
          · refine still _ _ (by simp) rfl (by simp [List.getElem?_set_ne hmn, h]) ⟨r, ?_, rfl, rfl, rfl⟩
            have : ¬ (r.node = m ∧ r.executor = x) := fun e => hmn (e.1.symm.trans hn)
            simp [hr, this]
          · exact still _ _ (by simp) rfl (by simp [List.getElem?_set_ne hmn, h]) ⟨r, hr, rfl, rfl, rfl⟩
  | reconnect m =>
    have hmn : m ≠ n := fun e => ha (by rw [e])
    exact still _ _ (by simp [PgNet.step]) rfl (by simp [PgNet.step, List.getElem?_modify, hmn, h]) ⟨r, hr, rfl, rfl, rfl⟩
  | fail m =>
    by_cases hmn : m = n
    · exact ⟨[], .other _ _ _ (by simp [PgNet.step]) .nil,
        ⟨r, { listening := false, inbox := [] }, hr, rfl, rfl, by simp [PgNet.step, hmn, h], .inl rfl⟩⟩
    · exact still _ _ (by simp [PgNet.step]) rfl (by simp [PgNet.step, List.getElem?_modify, hmn, h]) ⟨r, hr, rfl, rfl, rfl⟩
  | streamFails j =>
    simp only [PgNet.step]
    split
    · exact still _ _ (by simp) rfl h ⟨r, hr, rfl, rfl, rfl⟩
    · exact still _ _ (by simp) rfl h (get_setWait hr)
    · exact still _ _ (by simp) rfl h ⟨r, hr, rfl, rfl, rfl⟩
  | stream j timer =>
    simp only [PgNet.step]
    cases hj : s.readers[j]? with
    | none => exact still _ _ (by simp) rfl h ⟨r, hr, rfl, rfl, rfl⟩
    | some q =>
      simp only [PgNet.streamStep]
      cases hw : q.wait with
      | ready => exact still _ _ (by simp) rfl h (get_setWait hr)
      | looked f => exact still _ _ (by simp) rfl h (get_setWait hr)
      | decided clock delay =>
        simp only
        split
        · exact db _ _ rfl (get_setWait (s := (s.dbStep hash tie now (.handout q.executor)).2) hr)
        · exact still _ _ (by simp) rfl h (get_setWait hr)
      | loading clock delay k =>
        simp only
        split
        · exact still _ _ (by simp) rfl h (get_setWait hr)
        · exact still _ _ (by simp) rfl h (get_setWait hr)
        · exact still _ _ (by simp) rfl h (get_setWait hr)
        · exact db _ _ rfl ⟨r, hr, rfl, rfl, rfl⟩
      | asleep clock since delay =>
        simp only
        cases hq : q.queue with
        | nil =>
          simp only
          split
          · exact still _ _ (by simp) rfl h (get_setWait hr)
          · exact still _ _ (by simp) rfl h ⟨r, hr, rfl, rfl, rfl⟩
        | cons t rest =>
          simp only
          split
          · exact still _ _ (by simp) rfl h (get_setWait hr)
          · by_cases hji : j = i
            · subst hji
              rw [hr, Option.some.injEq] at hj
              subst hj
              refine ⟨[], .other _ _ _ (by simp) .nil, ⟨{ r with queue := rest, wait := .ready }, node, ?_, rfl, rfl, h, .inr ⟨hl, ?_⟩⟩⟩
              · simp [hr]
              · simp [receivedBy, hq]
            · refine still _ _ (by simp) (by simp [receivedBy, hji]) h ⟨r, ?_, rfl, rfl, rfl⟩
              simp [List.getElem?_modify, hji, hr]

private theorem receivedBy_append (i : Nat) (as bs : List NetEv) : receivedBy i (as ++ bs) = receivedBy i as ++ receivedBy i bs := by
  simp [receivedBy]

private theorem kept_run {hash : HashFn} {parses : Parses} {s : PgNet} (H : PgInv s.conc) {i n : Nat} {r : PgReader} {node : PgNode}
    (hr : s.readers[i]? = some r) (hn : r.node = n) (h : s.nodes[n]? = some node) (hl : node.listening = true)
    (as : List TNetAct) (ha : Unbroken n as) {node' : PgNode} (h' : (s.run hash parses as).nodes[n]? = some node')
    (hl' : node'.listening = true) :
    ∃ ts r', News r.executor (s.trace hash parses as) ts ∧ (s.run hash parses as).readers[i]? = some r' ∧
      r'.node = n ∧ r'.executor = r.executor ∧
      receivedBy i (s.trace hash parses as) ++ r'.queue ++ node'.pending r.executor = r.queue ++ node.pending r.executor ++ ts := by
  induction as generalizing s r node with
  | nil =>
    simp only [PgNet.run] at h'
    rw [h, Option.some.injEq] at h'
    subst h'
    exact ⟨[], r, .nil, hr, hn, rfl, by simp [receivedBy, PgNet.trace]⟩
  | cons a as ih =>
    obtain ⟨ts, hts, ⟨r₁, node₁, h1, h2, h3, h4, h5⟩⟩ :=
      kept_step (hash := hash) (parses := parses) H (tie := a.tie) (now := a.now) hr hn h hl a.act (ha a (by simp))
    rcases h5 with h5 | ⟨h5, h6⟩
    · obtain ⟨nd, hd1, hd2⟩ := pgnet_dead_run (hash := hash) (parses := parses) h4 h5 as
      have : (s.run hash parses (a :: as)).nodes[n]? = some nd := hd1
      rw [h', Option.some.injEq] at this
      subst this
      rw [hl'] at hd2
      simp at hd2
    · obtain ⟨us, r', g1, g2, g3, g4, g5⟩ := ih (pgnet_inv_step H a.tie a.now a.act) h1 (h2.trans hn) h4 h5
        (fun b hb => ha b (by simp [hb])) h'
      rw [h3] at g1 g4 g5
      refine ⟨ts ++ us, r', ?_, g2, g3, g4, ?_⟩
      · exact News.append hts g1
      · have e : s.trace hash parses (a :: as) = [(s.step hash parses a.tie a.now a.act).1] ++
            (s.step hash parses a.tie a.now a.act).2.trace hash parses as := rfl
        rw [e, receivedBy_append, ← List.append_assoc, ← h6]
        simp only [List.append_assoc] at g5 ⊢
        rw [g5]

theorem pgnet_run_append {hash : HashFn} {parses : Parses} {s : PgNet} (as bs : List TNetAct) :
    s.run hash parses (as ++ bs) = (s.run hash parses as).run hash parses bs := by
  induction as generalizing s with
  | nil => rfl
  | cons a as ih => exact ih

theorem pgnet_reach_inv {hash : HashFn} {parses : Parses} (as : List TNetAct) : PgInv (PgNet.run hash parses {} as).conc := by
  have : ∀ (s : PgNet), PgInv s.conc → PgInv (s.run hash parses as).conc := by
    induction as with
    | nil => intro s H; exact H
    | cons a as ih => intro s H; exact ih _ (pgnet_inv_step H a.tie a.now a.act)
  exact this {} PgInv.init

/-! ## C54 -/

/-- **C54.** Take any schedule of any number of nodes, clients and streams, and any stream
subscribed in it on a node whose listener is running, does not lose its connection, and is
still running at the end. Then what the stream has received, what is in its channel and what
its node has yet to handle for its executor are, in order and once each: the notifications
the node had yet to handle at the time of the subscription, and one for every commit since
then that left a row of the executor waiting, and nothing else. -/
theorem C54_exactly_once (hash : HashFn) (parses : Parses) (pre post : List TNetAct) (t : Time) (tie : Int → Nat) (n : Nat)
    (x : String) (node node' : PgNode) (h : (PgNet.run hash parses {} pre).nodes[n]? = some node)
    (hl : node.listening = true) (hb : Unbroken n post)
    (h' : (PgNet.run hash parses {} (pre ++ ⟨t, tie, .subscribe n x⟩ :: post)).nodes[n]? = some node')
    (hl' : node'.listening = true) :
    let start := PgNet.run hash parses {} (pre ++ [⟨t, tie, .subscribe n x⟩])
    let i := (PgNet.run hash parses {} pre).readers.length
    ∃ ts r, News x (start.trace hash parses post) ts ∧
      (PgNet.run hash parses {} (pre ++ ⟨t, tie, .subscribe n x⟩ :: post)).readers[i]? = some r ∧
      r.node = n ∧ r.executor = x ∧
      receivedBy i (start.trace hash parses post) ++ r.queue ++ node'.pending x = node.pending x ++ ts := by
  intro start i
  have hs : start = { (PgNet.run hash parses {} pre) with
      readers := (PgNet.run hash parses {} pre).readers ++ [{ node := n, executor := x }] } := by
    show PgNet.run hash parses {} (pre ++ [⟨t, tie, .subscribe n x⟩]) = _
    rw [pgnet_run_append]; rfl
  have hrun : PgNet.run hash parses {} (pre ++ ⟨t, tie, .subscribe n x⟩ :: post) = start.run hash parses post := by
    show _ = (PgNet.run hash parses {} (pre ++ [⟨t, tie, .subscribe n x⟩])).run hash parses post
    rw [← pgnet_run_append, List.append_assoc]; rfl
  rw [hrun] at h' ⊢
  have hr : start.readers[i]? = some { node := n, executor := x } := by
    rw [hs]; simp [i]
  have hn : start.nodes[n]? = some node := by rw [hs]; exact h
  have := kept_run (hash := hash) (parses := parses) (s := start) (pgnet_reach_inv _) hr rfl hn hl post hb h' hl'
  simpa using this

/-- Two nodes; a job for "mail" is enqueued and fails once, one for another executor is
enqueued. The stream on the second node hears of the first job twice. -/
def noticeHistory : List TNetAct :=
  [netAct 0 .connect, netAct 0 .connect, netAct 0 (.subscribe 0 "other"), netAct 0 (.subscribe 1 "mail"),
   netAct 0 (.db (.plain sampleEnq)), netAct 0 (.db (.plain { sampleEnq with executor := "other" })),
   netAct 1000 (.db (.stmt (.cancelled 1 sampleErr))), netAct 2000 (.db (.stmt (.rerun 1))),
   netAct 3000 (.deliver 1), netAct 3000 (.deliver 1)]

example : (PgNet.run sampleHash (fun _ => true) {} noticeHistory).readers.map (·.queue) = [[], [0]] ∧
    (PgNet.run sampleHash (fun _ => true) {} noticeHistory).nodes.map (PgNode.pending "mail") = [[0, 2000], [2000]] ∧
    (PgNet.run sampleHash (fun _ => true) {} noticeHistory).nodes.map (·.listening) = [true, true] := by decide

/-- The hypotheses are met: the stream is the fourth action, and nothing breaks after it. -/
example : noticeHistory = noticeHistory.take 3 ++ netAct 0 (.subscribe 1 "mail") :: noticeHistory.drop 4 ∧
    Unbroken 1 (noticeHistory.drop 4) := by
  refine ⟨rfl, ?_⟩
  intro a ha
  simp only [noticeHistory, List.drop_succ_cons, List.drop_zero, List.mem_cons, List.not_mem_nil, or_false] at ha
  rcases ha with rfl | rfl | rfl | rfl | rfl | rfl <;> simp [netAct]

/-! ## C61 -/

private theorem deaf_step {hash : HashFn} {parses : Parses} {s : PgNet} {tie : Int → Nat} {now : Time} {n i : Nat}
    {node : PgNode} {r : PgReader} (h : s.nodes[n]? = some node) (hl : node.listening = false) (hi : node.inbox = [])
    (hr : s.readers[i]? = some r) (hn : r.node = n) (hq : r.queue = []) (a : NetAct) :
    ∃ node' r', (s.step hash parses tie now a).2.nodes[n]? = some node' ∧ node'.listening = false ∧ node'.inbox = [] ∧
      (s.step hash parses tie now a).2.readers[i]? = some r' ∧ r'.node = n ∧ r'.queue = [] ∧
      receivedBy i [(s.step hash parses tie now a).1] = [] := by
  have still : ∀ (ev : NetEv) (s' : PgNet), receivedBy i [ev] = [] → s'.nodes[n]? = some node →
      (∃ r', s'.readers[i]? = some r' ∧ r'.node = r.node ∧ r'.executor = r.executor ∧ r'.queue = r.queue) →
      ∃ node' r', s'.nodes[n]? = some node' ∧ node'.listening = false ∧ node'.inbox = [] ∧
        s'.readers[i]? = some r' ∧ r'.node = n ∧ r'.queue = [] ∧ receivedBy i [ev] = [] := by
    intro ev s' h1 h2 ⟨r', h3, h4, h5, h6⟩
    exact ⟨node, r', h2, hl, hi, h3, h4.trans hn, h6.trans hq, h1⟩
  have same : ∃ r', s.readers[i]? = some r' ∧ r'.node = r.node ∧ r'.executor = r.executor ∧ r'.queue = r.queue :=
    ⟨r, hr, rfl, rfl, rfl⟩
  cases a with
  | db a => exact still _ _ rfl (dbStep_dead h hl) same
  | connect =>
    refine still _ _ rfl ?_ same
    simp only [PgNet.step]
    rw [List.getElem?_append_left (List.getElem?_eq_some_iff.mp h).1, h]
  | subscribe m x =>
    refine still _ _ rfl h ⟨r, ?_, rfl, rfl, rfl⟩
    simp only [PgNet.step]
    rw [List.getElem?_append_left (List.getElem?_eq_some_iff.mp hr).1, hr]
  | deliver m =>
    simp only [PgNet.step, PgNet.deliver]
    split
    · exact still _ _ rfl h same
    · rename_i nd hm
      split
      · exact still _ _ rfl h same
      · rename_i x t rest hin
        have hmn : m ≠ n := by
          rintro rfl
          rw [h, Option.some.injEq] at hm
          subst hm
          rw [hi] at hin
          simp at hin
        split
        · refine still _ _ rfl (by simp [List.getElem?_set_ne hmn, h]) ⟨r, ?_, rfl, rfl, rfl⟩
          have : ¬ (r.node = m ∧ r.executor = x) := fun e => hmn (e.1.symm.trans hn)
          simp [hr, this]
        · exact still _ _ rfl (by simp [List.getElem?_set_ne hmn, h]) same
  | reconnect m =>
    by_cases hmn : m = n
    · exact ⟨{ node with inbox := [] }, r, by simp [PgNet.step, hmn, h], hl, rfl, hr, hn, hq, rfl⟩
    · exact still _ _ rfl (by simp [PgNet.step, List.getElem?_modify, hmn, h]) same
  | fail m =>
    by_cases hmn : m = n
    · exact ⟨{ listening := false, inbox := [] }, r, by simp [PgNet.step, hmn, h], rfl, rfl, hr, hn, hq, rfl⟩
    · exact still _ _ rfl (by simp [PgNet.step, List.getElem?_modify, hmn, h]) same
  | streamFails j =>
    simp only [PgNet.step]
    split
    · exact still _ _ rfl h same
    · exact still _ _ rfl h (get_setWait hr)
    · exact still _ _ rfl h same
  | stream j timer =>
    simp only [PgNet.step]
    cases hj : s.readers[j]? with
    | none => exact still _ _ rfl h same
    | some q =>
      simp only [PgNet.streamStep]
      cases hw : q.wait with
      | ready => exact still _ _ rfl h (get_setWait hr)
      | looked f => exact still _ _ rfl h (get_setWait hr)
      | decided clock delay =>
        simp only
        split
        · exact still _ _ rfl (dbStep_dead h hl) (get_setWait (s := (s.dbStep hash tie now (.handout q.executor)).2) hr)
        · exact still _ _ rfl h (get_setWait hr)
      | loading clock delay k =>
        simp only
        split
        · exact still _ _ rfl h (get_setWait hr)
        · exact still _ _ rfl h (get_setWait hr)
        · exact still _ _ rfl h (get_setWait hr)
        · exact still _ _ rfl (dbStep_dead h hl) same
      | asleep clock since delay =>
        simp only
        cases hqq : q.queue with
        | nil =>
          simp only
          split
          · exact still _ _ rfl h (get_setWait hr)
          · exact still _ _ rfl h same
        | cons t rest =>
          have hji : j ≠ i := by
            rintro rfl
            rw [hr, Option.some.injEq] at hj
            subst hj
            rw [hq] at hqq
            simp at hqq
          simp only
          split
          · exact still _ _ rfl h (get_setWait hr)
          · refine still _ _ (by simp [receivedBy, hji]) h ⟨r, ?_, rfl, rfl, rfl⟩
            simp [List.getElem?_modify, hji, hr]

private theorem deaf_run {hash : HashFn} {parses : Parses} {s : PgNet} {n i : Nat} {node : PgNode} {r : PgReader}
    (h : s.nodes[n]? = some node) (hl : node.listening = false) (hi : node.inbox = [])
    (hr : s.readers[i]? = some r) (hn : r.node = n) (hq : r.queue = []) (as : List TNetAct) :
    receivedBy i (s.trace hash parses as) = [] := by
  induction as generalizing s node r with
  | nil => rfl
  | cons a as ih =>
    obtain ⟨node', r', h1, h2, h3, h4, h5, h6, h7⟩ :=
      deaf_step (hash := hash) (parses := parses) (tie := a.tie) (now := a.now) h hl hi hr hn hq a.act
    have e : s.trace hash parses (a :: as) = [(s.step hash parses a.tie a.now a.act).1] ++
        (s.step hash parses a.tie a.now a.act).2.trace hash parses as := rfl
    rw [e, receivedBy_append, h7, ih h1 h2 h3 h4 h5 h6]
    rfl

/-- A stream for "mail"; someone enqueues a job of another executor, for time `t`. -/
def farHistory (t : Time) : List TNetAct :=
  [netAct 0 .connect, netAct 0 (.subscribe 0 "mail"),
   netAct 0 (.db (.plain { sampleEnq with executor := "other", scheduledAt := t })), netAct 0 (.deliver 0)]

/-- **C61 fails.** If there is a time `t` whose notification cannot be read (see `Parses`:
years after 9999), one job of any executor scheduled for `t` ends the listener: from then
on, whatever happens and however long it goes on, the streams of the node never receive a
notification again. -/
theorem C61_violated (hash : HashFn) (parses : Parses) (t : Time) (ht : parses (pgTime t) = false) :
    let s := PgNet.run hash parses {} (farHistory t)
    (s.nodes.map (·.listening) = [false] ∧ s.readers.map (·.executor) = ["mail"]) ∧
      ∀ as, receivedBy 0 (s.trace hash parses as) = [] := by
  have hrun : (PgNet.run hash parses {} (farHistory t)).nodes = [{ listening := false, inbox := [] }] ∧
      (PgNet.run hash parses {} (farHistory t)).readers = [{ node := 0, executor := "mail" }] := by
    simp [farHistory, netAct, PgNet.run, PgNet.step, PgNet.dbStep, PgConc.step, PgEv.notices, PgEv.written,
      Row.notifies, EnqueuableJob.toRow, PgNet.deliver, ht]
  refine ⟨by rw [hrun.1, hrun.2]; decide, fun as => ?_⟩
  refine deaf_run (n := 0) (node := { listening := false, inbox := [] }) (r := { node := 0, executor := "mail" }) ?_ rfl rfl ?_ rfl rfl as
  · rw [hrun.1]; rfl
  · rw [hrun.2]; rfl

/-- A parser that gives up after the year 9999. -/
def sampleParses : Parses := fun t => decide (t < 253402300800 * sec)

example : sampleParses (pgTime (253402300800 * sec)) = false := by decide

private theorem alive_step {hash : HashFn} {parses : Parses} {s : PgNet} {tie : Int → Nat} {now : Time} {n : Nat}
    {node : PgNode} (h : s.nodes[n]? = some node) (hl : node.listening = true)
    (hp : ∀ m ∈ node.inbox, parses m.2 = true)
    (a : NetAct) (ha : a ≠ .fail n)
    (hc : ∀ ev rows, (s.step hash parses tie now a).1 = .db ev rows → ∀ m ∈ ev.notices rows, parses m.2 = true) :
    ∃ node', (s.step hash parses tie now a).2.nodes[n]? = some node' ∧ node'.listening = true ∧
      ∀ m ∈ node'.inbox, parses m.2 = true := by
  have db : ∀ a, (∀ ev rows, (s.dbStep hash tie now a).1 = .db ev rows → ∀ m ∈ ev.notices rows, parses m.2 = true) →
      ∃ node', (s.dbStep hash tie now a).2.nodes[n]? = some node' ∧ node'.listening = true ∧
      ∀ m ∈ node'.inbox, parses m.2 = true := by
    intro a hc
    refine ⟨_, dbStep_node h hl, hl, ?_⟩
    intro m hm
    rcases List.mem_append.mp hm with hm | hm
    · exact hp m hm
    · exact hc _ _ rfl m hm
  have same : ∃ node', s.nodes[n]? = some node' ∧ node'.listening = true ∧ ∀ m ∈ node'.inbox, parses m.2 = true :=
    ⟨node, h, hl, hp⟩
  cases a with
  | db a => exact db a hc
  | connect =>
    refine ⟨node, ?_, hl, hp⟩
    simp only [PgNet.step]
    rw [List.getElem?_append_left (List.getElem?_eq_some_iff.mp h).1, h]
  | subscribe m x => exact same
  | deliver m =>
    simp only [PgNet.step, PgNet.deliver]
    split
    · exact same
    · rename_i nd hm
      split
      · exact same
      · rename_i x t rest hi
        by_cases hmn : m = n
        · subst hmn
          rw [h, Option.some.injEq] at hm
          subst hm
          have : parses t = true := hp (x, t) (by rw [hi]; simp)
          rw [if_pos this]
          exact ⟨{ node with inbox := rest }, by simp [(List.getElem?_eq_some_iff.mp h).1], hl,
            fun m hm => hp m (by rw [hi]; simp [hm])⟩
        · split <;> exact ⟨node, by simp [List.getElem?_set_ne hmn, h], hl, hp⟩
  | reconnect m =>
    by_cases hmn : m = n
    · exact ⟨{ node with inbox := [] }, by simp [PgNet.step, hmn, h], hl, by simp⟩
    · exact ⟨node, by simp [PgNet.step, List.getElem?_modify, hmn, h], hl, hp⟩
  | fail m =>
    have hmn : m ≠ n := fun e => ha (by rw [e])
    exact ⟨node, by simp [PgNet.step, List.getElem?_modify, hmn, h], hl, hp⟩
  | stream i timer =>
    simp only [PgNet.step] at hc ⊢
    cases hj : s.readers[i]? with
    | none => exact same
    | some q =>
      rw [hj] at hc
      simp only [PgNet.streamStep] at hc ⊢
      cases hw : q.wait with
      | ready => exact same
      | looked f => exact same
      | decided clock delay =>
        rw [hw] at hc
        simp only at hc ⊢
        split
        · rename_i hd
          rw [if_pos hd] at hc
          exact db _ hc
        · exact same
      | loading clock delay k =>
        rw [hw] at hc
        simp only at hc ⊢
        split
        · exact same
        · exact same
        · exact same
        · rename_i g1 g2 g3
          refine db _ ?_
          split at hc
          · rename_i j hk; exact (g1 _ hk).elim
          · rename_i hk; exact (g2 hk).elim
          · rename_i hk; exact (g3 _ hk).elim
          · exact hc
      | asleep clock since delay =>
        simp only
        split
        · split <;> exact same
        · split <;> exact same
  | streamFails i =>
    simp only [PgNet.step]
    split <;> exact same

private theorem alive_run {hash : HashFn} {parses : Parses} {s : PgNet} (H : PgInv s.conc) {n : Nat}
    {node : PgNode} (h : s.nodes[n]? = some node) (hl : node.listening = true)
    (hp : ∀ m ∈ node.inbox, parses m.2 = true) (as : List TNetAct) (ha : ∀ a ∈ as, a.act ≠ .fail n)
    (hc : ∀ ev rows r, NetEv.db ev rows ∈ s.trace hash parses as → Commits rows ev r → r.Waiting → parses r.scheduledAt = true) :
    ∃ node', (s.run hash parses as).nodes[n]? = some node' ∧ node'.listening = true := by
  induction as generalizing s node with
  | nil => exact ⟨node, h, hl⟩
  | cons a as ih =>
    have hstep : ∀ ev rows, (s.step hash parses a.tie a.now a.act).1 = .db ev rows →
        ∀ m ∈ ev.notices rows, parses m.2 = true := by
      intro ev rows he m hm
      obtain ⟨r, h1, rfl⟩ := List.mem_map.mp hm
      obtain ⟨h2, h3⟩ := List.mem_filter.mp h1
      have hw : r.Waiting := by simpa [Row.notifies, Row.Waiting] using h3
      have hin : NetEv.db ev rows ∈ s.trace hash parses (a :: as) := by
        rw [PgNet.trace, he]; simp
      have hnd : (rowIds rows).Nodup := by
        have key : ∀ b, (s.dbStep hash a.tie a.now b).1 = .db ev rows → (rowIds rows).Nodup := by
          intro b hb
          simp only [PgNet.dbStep, NetEv.db.injEq] at hb
          rw [← hb.2]
          exact (H.step hash a.tie a.now b).nodup
        generalize a.act = act at he
        cases act with
        | db b => exact key b he
        | stream i timer =>
          simp only [PgNet.step] at he
          cases hj : s.readers[i]? with
          | none => rw [hj] at he; simp at he
          | some q =>
            rw [hj] at he
            simp only [PgNet.streamStep] at he
            cases hw : q.wait with
            | ready => rw [hw] at he; simp at he
            | looked f => rw [hw] at he; simp at he
            | decided clock delay =>
              rw [hw] at he
              simp only at he
              split at he
              · exact key _ he
              · simp at he
            | loading clock delay k =>
              rw [hw] at he
              simp only at he
              split at he
              · simp at he
              · simp at he
              · simp at he
              · exact key _ he
            | asleep clock since delay =>
              rw [hw] at he
              simp only at he
              split at he
              · split at he <;> simp at he
              · split at he <;> simp at he
        | streamFails i =>
          simp only [PgNet.step] at he
          split at he <;> simp at he
        | connect => simp [PgNet.step] at he
        | subscribe m x => simp [PgNet.step] at he
        | deliver m => simp [PgNet.step] at he
        | reconnect m => simp [PgNet.step] at he
        | fail m => simp [PgNet.step] at he
      rcases written_cases hnd ev with ⟨g1, -⟩ | ⟨r', g1, g2, -⟩
      · rw [g1] at h2; simp at h2
      · rw [g1, List.mem_singleton] at h2
        subst h2
        exact hc ev rows r hin g2 hw
    obtain ⟨node', h1, h2, h3⟩ := alive_step (hash := hash) (parses := parses) (tie := a.tie) (now := a.now) h hl hp a.act
      (ha a (by simp)) hstep
    exact ih (pgnet_inv_step H a.tie a.now a.act) h1 h2 h3 (fun b hb => ha b (by simp [hb]))
      (fun ev rows r hin => hc ev rows r (by rw [PgNet.trace]; simp [hin]))

/-- **C61, partial** (missing: jobs scheduled for a time whose notification cannot be read,
see `C61_violated`). A listener that starts in any schedule keeps running in every schedule
in which the database connection does not fail for good and every row left waiting by a
commit has a scheduled time that can be read. -/
theorem C61_survives_partial (hash : HashFn) (parses : Parses) (pre post : List TNetAct) (t : Time) (tie : Int → Nat)
    (ha : ∀ a ∈ post, a.act ≠ .fail (PgNet.run hash parses {} pre).nodes.length)
    (hc : ∀ ev rows r, NetEv.db ev rows ∈ (PgNet.run hash parses {} (pre ++ [⟨t, tie, .connect⟩])).trace hash parses post →
      Commits rows ev r → r.Waiting → parses r.scheduledAt = true) :
    ∃ node, (PgNet.run hash parses {} (pre ++ ⟨t, tie, .connect⟩ :: post)).nodes[(PgNet.run hash parses {} pre).nodes.length]? =
      some node ∧ node.listening = true := by
  have hrun : PgNet.run hash parses {} (pre ++ ⟨t, tie, .connect⟩ :: post) =
      (PgNet.run hash parses {} (pre ++ [⟨t, tie, .connect⟩])).run hash parses post := by
    rw [← pgnet_run_append, List.append_assoc]; rfl
  rw [hrun]
  refine alive_run (pgnet_reach_inv _) (node := {}) ?_ rfl (by simp) post ha hc
  rw [pgnet_run_append]
  simp [PgNet.run, PgNet.step]

/-- **C61, exactly what ends a listener.** A listener that runs stops in a step if and only if its
connection fails for good, or it takes a notification whose time cannot be read. -/
theorem C61_exactly (hash : HashFn) (parses : Parses) (s : PgNet) (tie : Int → Nat) (now : Time) (a : NetAct) (n : Nat)
    (node : PgNode) (h : s.nodes[n]? = some node) (hl : node.listening = true) :
    ∃ node', (s.step hash parses tie now a).2.nodes[n]? = some node' ∧
      (node'.listening = false ↔ a = .fail n ∨ a = .deliver n ∧ ∃ m rest, node.inbox = m :: rest ∧ parses m.2 = false) := by
  have off : ∀ {s' : PgNet} {P : Prop}, (∃ node', s'.nodes[n]? = some node' ∧ node'.listening = true) → ¬ P →
      ∃ node', s'.nodes[n]? = some node' ∧ (node'.listening = false ↔ P) := by
    rintro s' P ⟨node', h1, h2⟩ hP
    exact ⟨node', h1, by rw [h2]; simp, fun h => (hP h).elim⟩
  have same : ∃ node', s.nodes[n]? = some node' ∧ node'.listening = true := ⟨node, h, hl⟩
  have db : ∀ a, ∃ node', (s.dbStep hash tie now a).2.nodes[n]? = some node' ∧ node'.listening = true :=
    fun a => ⟨_, dbStep_node h hl, hl⟩
  cases a with
  | db a => exact off (db a) (by simp)
  | connect =>
    refine off ⟨node, ?_, hl⟩ (by simp)
    simp only [PgNet.step]
    rw [List.getElem?_append_left (List.getElem?_eq_some_iff.mp h).1, h]
  | subscribe m x => exact off same (by simp)
  | deliver m =>
    by_cases hmn : m = n
    · subst hmn
      simp only [PgNet.step, PgNet.deliver, h]
      split
      · rename_i hi
        exact off same (by simp [hi])
      · rename_i x t rest hi
        cases hp : parses t with
        | true =>
          rw [if_pos rfl]
          exact off ⟨{ node with inbox := rest }, by simp [(List.getElem?_eq_some_iff.mp h).1], hl⟩ (by simp [hi, hp])
        | false =>
          rw [if_neg (by simp)]
          exact ⟨{ listening := false, inbox := [] }, by simp [(List.getElem?_eq_some_iff.mp h).1], by simp [hi, hp]⟩
    · refine off ?_ (by simp [hmn])
      simp only [PgNet.step, PgNet.deliver]
      split
      · exact same
      · split
        · exact same
        · split <;> exact ⟨node, by simp [List.getElem?_set_ne hmn, h], hl⟩
  | reconnect m =>
    refine off ?_ (by simp)
    by_cases hmn : m = n
    · exact ⟨{ node with inbox := [] }, by simp [PgNet.step, hmn, h], hl⟩
    · exact ⟨node, by simp [PgNet.step, List.getElem?_modify, hmn, h], hl⟩
  | fail m =>
    by_cases hmn : m = n
    · exact ⟨{ listening := false, inbox := [] }, by simp [PgNet.step, List.getElem?_modify, hmn, h], by simp [hmn]⟩
    · exact off ⟨node, by simp [PgNet.step, List.getElem?_modify, hmn, h], hl⟩ (by simp [hmn])
  | stream i timer =>
    refine off ?_ (by simp)
    simp only [PgNet.step]
    split
    · exact same
    · simp only [PgNet.streamStep]
      split
      · exact same
      · exact same
      · split
        · exact db _
        · exact same
      · split
        · exact same
        · exact same
        · exact same
        · exact db _
      · split <;> split <;> exact same
  | streamFails i =>
    refine off ?_ (by simp)
    simp only [PgNet.step]
    split <;> exact same

/-- The hypotheses are met by the history above. -/
example : (∀ a ∈ noticeHistory.drop 1, a.act ≠ .fail 0) ∧
    (PgNet.run sampleHash sampleParses {} []).nodes.length = 0 ∧
    (PgNet.run sampleHash sampleParses {} noticeHistory).nodes.map (·.listening) = [true, true] := by
  refine ⟨?_, rfl, by decide⟩
  intro a ha
  simp only [noticeHistory, List.drop_succ_cons, List.drop_zero, List.mem_cons, List.not_mem_nil, or_false] at ha
  rcases ha with rfl | rfl | rfl | rfl | rfl | rfl | rfl | rfl | rfl <;> simp [netAct]

/-! ## C60 -/

/-- What the stream will do covers a row scheduled for `t`. -/
def PgWait.covers (t : Time) : PgWait → Prop
  | .ready => True
  | .looked none => False
  | .looked (some f) => f ≤ t
  | .decided clock delay => delay ≤ t - clock ∨ delay ≤ pollDelta
  | .loading clock delay _ => delay ≤ t - clock ∨ delay ≤ pollDelta
  | .asleep clock _ delay => delay ≤ t - clock ∨ delay ≤ pollDelta

private def PgWait.sane : PgWait → Prop
  | .decided _ delay => 0 ≤ delay ∧ delay ≤ defaultDelay
  | .loading _ delay _ => 0 ≤ delay ∧ delay ≤ defaultDelay
  | .asleep _ _ delay => 0 ≤ delay ∧ delay ≤ defaultDelay
  | _ => True

private theorem delay_sane (now : Time) (f : Option Time) :
    0 ≤ streamDelay now f ∧ streamDelay now f ≤ defaultDelay := by
  cases f with
  | none => simp [streamDelay, defaultDelay, sec]
  | some t =>
    simp only [streamDelay, defaultDelay, pollDelta, sec, ms, Time, Delta] at *
    split <;> omega

private theorem delay_covers {now t : Time} {f : Option Time} (h : (PgWait.looked f).covers t) :
    (PgWait.decided now (streamDelay now f)).covers t := by
  cases f with
  | none => exact h.elim
  | some f =>
    simp only [PgWait.covers, streamDelay, defaultDelay, pollDelta, sec, ms, Time, Delta] at *
    split <;> omega

theorem pg_next_covers {x : String} {p : Pg} {r : Row} (hr : r ∈ p.rows) (hw : r.Waiting) (hx : r.executor = x) :
    (PgWait.looked (p.nextAvailable x)).covers r.scheduledAt := by
  have hm : r.scheduledAt ∈ ((p.rows.filter fun r => (r.status == .scheduled || r.status == .retryable) && r.executor == x).map
      (·.scheduledAt)) := by
    refine List.mem_map_of_mem (List.mem_filter.mpr ⟨hr, ?_⟩)
    rcases hw with hw | hw <;> simp [hw, hx]
  unfold Pg.nextAvailable
  cases h : ((p.rows.filter fun r => (r.status == .scheduled || r.status == .retryable) && r.executor == x).map
      (·.scheduledAt)).min? with
  | none => rw [List.min?_eq_none_iff] at h; rw [h] at hm; simp at hm
  | some f => exact (List.le_min?_iff h).mp (Int.le_refl f) _ hm

theorem pgnet_setWait_wait {s : PgNet} {i j : Nat} {w : PgWait} {r : PgReader} (h : s.readers[i]? = some r) :
    (s.setWait j w).readers[i]? = some (if j = i then { r with wait := w } else r) := by
  simp only [PgNet.setWait, List.getElem?_modify, h]
  by_cases hj : j = i <;> simp [hj]

private theorem sane_step {hash : HashFn} {parses : Parses} {s : PgNet} {tie : Int → Nat} {now : Time} {i : Nat} {r : PgReader}
    (hr : s.readers[i]? = some r) (hs : r.wait.sane) (a : NetAct) :
    ∃ r', (s.step hash parses tie now a).2.readers[i]? = some r' ∧ r'.wait.sane := by
  have set : ∀ (s' : PgNet) (j : Nat) (q : PgReader) (w : PgWait), s'.readers = s.readers → s.readers[j]? = some q →
      (q.wait.sane → w.sane) → ∃ r', (s'.setWait j w).readers[i]? = some r' ∧ r'.wait.sane := by
    intro s' j q w h1 h2 h3
    refine ⟨_, pgnet_setWait_wait (h1 ▸ hr), ?_⟩
    split
    · rename_i hji
      subst hji
      rw [hr, Option.some.injEq] at h2
      subst h2
      exact h3 hs
    · exact hs
  cases a with
  | db a => exact ⟨r, hr, hs⟩
  | connect => exact ⟨r, hr, hs⟩
  | subscribe m x =>
    refine ⟨r, ?_, hs⟩
    simp only [PgNet.step]
    rw [List.getElem?_append_left (List.getElem?_eq_some_iff.mp hr).1, hr]
  | deliver m =>
    simp only [PgNet.step, PgNet.deliver]
    split
    · exact ⟨r, hr, hs⟩
    · split
      · exact ⟨r, hr, hs⟩
      · rename_i x t rest hi
        split
        · by_cases hx : r.node = m ∧ r.executor = x
          · exact ⟨{ r with queue := r.queue ++ [t] }, by simp [hr, hx], hs⟩
          · exact ⟨r, by simp [hr, hx], hs⟩
        · exact ⟨r, hr, hs⟩
  | reconnect m => exact ⟨r, hr, hs⟩
  | fail m => exact ⟨r, hr, hs⟩
  | streamFails j =>
    simp only [PgNet.step]
    cases hj : s.readers[j]? with
    | none => exact ⟨r, hr, hs⟩
    | some q =>
      split
      · exact ⟨r, hr, hs⟩
      · exact set s j q _ rfl hj (fun _ => trivial)
      · exact ⟨r, hr, hs⟩
  | stream j timer =>
    simp only [PgNet.step]
    cases hj : s.readers[j]? with
    | none => exact ⟨r, hr, hs⟩
    | some q =>
      simp only [PgNet.streamStep]
      cases hw : q.wait with
      | ready => exact set s j q _ rfl hj (fun _ => trivial)
      | looked f => exact set s j q _ rfl hj (fun _ => delay_sane now f)
      | decided clock delay =>
        simp only
        split
        · exact set _ j q _ rfl hj (fun h => by rw [hw] at h; exact h)
        · exact set _ j q _ rfl hj (fun h => by rw [hw] at h; exact h)
      | loading clock delay k =>
        simp only
        split
        · exact set _ j q _ rfl hj (fun _ => trivial)
        · exact set _ j q _ rfl hj (fun h => by rw [hw] at h; exact h)
        · exact set _ j q _ rfl hj (fun _ => trivial)
        · exact ⟨r, hr, hs⟩
      | asleep clock since delay =>
        simp only
        split
        · split
          · exact set _ j q _ rfl hj (fun _ => trivial)
          · rename_i t rest _ _
            by_cases hji : j = i
            · exact ⟨{ r with queue := rest, wait := .ready }, by simp [hji, hr], trivial⟩
            · exact ⟨r, by simp [List.getElem?_modify, hji, hr], hs⟩
        · split
          · exact set _ j q _ rfl hj (fun _ => trivial)
          · exact ⟨r, hr, hs⟩

/-- Every waiting row of the executor has a message on its way, or the stream will look in time. -/
def PgCovered (s : PgNet) (r : PgReader) (node : PgNode) : Prop :=
  ∀ row ∈ s.conc.pg.rows, row.Waiting → row.executor = r.executor →
    r.queue ≠ [] ∨ node.pending r.executor ≠ [] ∨ r.wait.covers row.scheduledAt

private theorem covered_step {hash : HashFn} {parses : Parses} {s : PgNet} (H : PgInv s.conc) {tie : Int → Nat} {now : Time}
    {i n : Nat} {r : PgReader} {node : PgNode} (hr : s.readers[i]? = some r) (hn : r.node = n)
    (h : s.nodes[n]? = some node) (hl : node.listening = true) (hc : PgCovered s r node) (a : NetAct) (ha : a ≠ .reconnect n) :
    ∃ r' node', (s.step hash parses tie now a).2.readers[i]? = some r' ∧ r'.node = n ∧ r'.executor = r.executor ∧
      (s.step hash parses tie now a).2.nodes[n]? = some node' ∧
      (node'.listening = false ∨ (node'.listening = true ∧ PgCovered (s.step hash parses tie now a).2 r' node')) := by
  -- a step outside the database
  have still : ∀ (s' : PgNet), s'.conc = s.conc → s'.nodes[n]? = some node → s'.readers[i]? = some r →
      ∃ r' node', s'.readers[i]? = some r' ∧ r'.node = n ∧ r'.executor = r.executor ∧ s'.nodes[n]? = some node' ∧
      (node'.listening = false ∨ (node'.listening = true ∧ PgCovered s' r' node')) := by
    intro s' h1 h2 h3
    refine ⟨r, node, h3, hn, rfl, h2, .inr ⟨hl, ?_⟩⟩
    intro row hrow; rw [h1] at hrow; exact hc row hrow
  have set : ∀ (j : Nat) (q : PgReader) (w : PgWait), s.readers[j]? = some q →
      (∀ row ∈ s.conc.pg.rows, row.Waiting → row.executor = q.executor → q.wait.covers row.scheduledAt → w.covers row.scheduledAt) →
      ∃ r' node', (s.setWait j w).readers[i]? = some r' ∧ r'.node = n ∧ r'.executor = r.executor ∧
        (s.setWait j w).nodes[n]? = some node' ∧
        (node'.listening = false ∨ (node'.listening = true ∧ PgCovered (s.setWait j w) r' node')) := by
    intro j q w h1 h2
    refine ⟨_, node, pgnet_setWait_wait hr, ?_, ?_, h, .inr ⟨hl, ?_⟩⟩
    · split <;> exact hn
    · split <;> rfl
    · split
      · rename_i hji
        subst hji
        rw [hr, Option.some.injEq] at h1
        subst h1
        intro row hrow hw hx
        rcases hc row hrow hw hx with g | g | g
        · exact .inl g
        · exact .inr (.inl g)
        · exact .inr (.inr (h2 row hrow hw hx g))
      · exact hc
  have db : ∀ (b : PgAct), PgCovered (s.dbStep hash tie now b).2 r ⟨node.listening, node.inbox ++
      (s.conc.step hash tie now b).1.notices (s.conc.step hash tie now b).2.pg.rows⟩ := by
    intro b row hrow hw hx
    rcases waiting_step H hash tie now b hrow hw with g | g
    · rcases hc row g hw hx with g | g | g
      · exact .inl g
      · right; left
        rw [pending_append]
        simp only [ne_eq, List.append_eq_nil_iff, not_and]
        intro e; exact (g e).elim
      · exact .inr (.inr g)
    · right; left
      intro e
      rw [pending_append] at e
      have e := (List.append_eq_nil_iff.mp e).2
      rw [List.map_eq_nil_iff, List.filter_eq_nil_iff] at e
      exact e _ g (by simp [hx])
  cases a with
  | db b => exact ⟨r, _, hr, hn, rfl, dbStep_node h hl, .inr ⟨hl, db b⟩⟩
  | connect =>
    refine still _ rfl ?_ hr
    simp only [PgNet.step]
    rw [List.getElem?_append_left (List.getElem?_eq_some_iff.mp h).1, h]
  | subscribe m x =>
    refine still _ rfl h ?_
    simp only [PgNet.step]
    rw [List.getElem?_append_left (List.getElem?_eq_some_iff.mp hr).1, hr]
  | deliver m =>
    simp only [PgNet.step, PgNet.deliver]
    split
    · exact still _ rfl h hr
    · rename_i nd hm
      split
      · exact still _ rfl h hr
      · rename_i x t rest hi
        by_cases hmn : m = n
        · subst hmn
          rw [h, Option.some.injEq] at hm
          subst hm
          have hlt := (List.getElem?_eq_some_iff.mp h).1
          split
          · by_cases hx : r.executor = x
            · refine ⟨{ r with queue := r.queue ++ [t] }, { node with inbox := rest }, ?_, hn, rfl, by simp [hlt], .inr ⟨hl, ?_⟩⟩
              · simp [hr, hn, hx]
              · intro row _ _ _; exact .inl (by simp)
            · refine ⟨r, { node with inbox := rest }, ?_, hn, rfl, by simp [hlt], .inr ⟨hl, ?_⟩⟩
              · simp [hr, hx]
              · intro row hrow hw hxr
                have hp : ({ node with inbox := rest } : PgNode).pending r.executor = node.pending r.executor := by
                  have : (x == r.executor) = false := by simpa using fun e => hx e.symm
                  simp [PgNode.pending, hi, this]
                rw [hp]
                exact hc row hrow hw hxr
          · exact ⟨r, { listening := false, inbox := [] }, hr, hn, rfl, by simp [hlt], .inl rfl⟩
        · split
          · refine still _ rfl (by simp [List.getElem?_set_ne hmn, h]) ?_
            have : ¬ (r.node = m ∧ r.executor = x) := fun e => hmn (e.1.symm.trans hn)
            simp [hr, this]
          · exact still _ rfl (by simp [List.getElem?_set_ne hmn, h]) hr
  | reconnect m =>
    have hmn : m ≠ n := fun e => ha (by rw [e])
    exact still _ rfl (by simp [PgNet.step, List.getElem?_modify, hmn, h]) hr
  | fail m =>
    by_cases hmn : m = n
    · exact ⟨r, { listening := false, inbox := [] }, hr, hn, rfl, by simp [PgNet.step, hmn, h], .inl rfl⟩
    · exact still _ rfl (by simp [PgNet.step, List.getElem?_modify, hmn, h]) hr
  | streamFails j =>
    simp only [PgNet.step]
    cases hj : s.readers[j]? with
    | none => exact still _ rfl h hr
    | some q =>
      split
      · exact still _ rfl h hr
      · exact set j q _ hj (fun _ _ _ _ _ => trivial)
      · exact still _ rfl h hr
  | stream j timer =>
    simp only [PgNet.step]
    cases hj : s.readers[j]? with
    | none => exact still _ rfl h hr
    | some q =>
      simp only [PgNet.streamStep]
      cases hw : q.wait with
      | ready => exact set j q _ hj (fun row hrow hwt hx _ => pg_next_covers hrow hwt hx)
      | looked f => exact set j q _ hj (fun row _ _ _ g => delay_covers (hw ▸ g))
      | decided clock delay =>
        simp only
        split
        · have hd := db (.handout q.executor)
          refine ⟨_, _, pgnet_setWait_wait (s := (s.dbStep hash tie now (.handout q.executor)).2) hr, ?_, ?_, dbStep_node h hl, .inr ⟨hl, ?_⟩⟩
          · split <;> exact hn
          · split <;> rfl
          · split
            · rename_i hji
              subst hji
              rw [hr, Option.some.injEq] at hj
              subst hj
              intro row hrow hwt hx
              rcases hd row hrow hwt hx with g | g | g
              · exact .inl g
              · exact .inr (.inl g)
              · rw [hw] at g; exact .inr (.inr g)
            · exact hd
        · exact set j q _ hj (fun row _ _ _ g => by rw [hw] at g; exact g)
      | loading clock delay k =>
        simp only
        split
        · exact set j q _ hj (fun _ _ _ _ _ => trivial)
        · exact set j q _ hj (fun row _ _ _ g => by rw [hw] at g; exact g)
        · exact set j q _ hj (fun _ _ _ _ _ => trivial)
        · exact ⟨r, _, hr, hn, rfl, dbStep_node h hl, .inr ⟨hl, db _⟩⟩
      | asleep clock since delay =>
        simp only
        split
        · split
          · exact set j q _ hj (fun _ _ _ _ _ => trivial)
          · rename_i t rest _ _
            by_cases hji : j = i
            · exact ⟨{ r with queue := rest, wait := .ready }, node, by simp [hji, hr], hn, rfl, h, .inr ⟨hl,
                fun _ _ _ _ => .inr (.inr trivial)⟩⟩
            · exact still _ rfl h (by simp [List.getElem?_modify, hji, hr])
        · split
          · exact set j q _ hj (fun _ _ _ _ _ => trivial)
          · exact still _ rfl h hr

theorem pgnet_covered_run {hash : HashFn} {parses : Parses} {s : PgNet} (H : PgInv s.conc) {i n : Nat} {r : PgReader} {node : PgNode}
    (hr : s.readers[i]? = some r) (hn : r.node = n) (h : s.nodes[n]? = some node) (hl : node.listening = true)
    (hc : PgCovered s r node)
    (as : List TNetAct) (ha : Unbroken n as) {node' : PgNode} (h' : (s.run hash parses as).nodes[n]? = some node')
    (hl' : node'.listening = true) :
    ∃ r', (s.run hash parses as).readers[i]? = some r' ∧ r'.executor = r.executor ∧ PgCovered (s.run hash parses as) r' node' := by
  induction as generalizing s r node with
  | nil =>
    simp only [PgNet.run] at h'
    rw [h, Option.some.injEq] at h'
    subst h'
    exact ⟨r, hr, rfl, hc⟩
  | cons a as ih =>
    obtain ⟨r₁, node₁, h1, h2, h3, h4, h5⟩ :=
      covered_step (hash := hash) (parses := parses) H (tie := a.tie) (now := a.now) hr hn h hl hc a.act (ha a (by simp))
    rcases h5 with h5 | ⟨h5, h6⟩
    · obtain ⟨nd, hd1, hd2⟩ := pgnet_dead_run (hash := hash) (parses := parses) h4 h5 as
      have : (s.run hash parses (a :: as)).nodes[n]? = some nd := hd1
      rw [h', Option.some.injEq] at this
      subst this
      rw [hl'] at hd2
      simp at hd2
    · obtain ⟨r', g1, g2, g3⟩ := ih (pgnet_inv_step H a.tie a.now a.act) h1 h2 h4 h5 h6 (fun b hb => ha b (by simp [hb])) h'
      exact ⟨r', g1, g2.trans h3, g3⟩

/-- **C60, the bound.** In every schedule, whatever breaks, a sleeping stream sleeps for at
most 30 s. -/
theorem C60_bounded_sleep (hash : HashFn) (parses : Parses) (as : List TNetAct) (i : Nat) (r : PgReader) (clock since : Time)
    (delay : Delta) (hr : (PgNet.run hash parses {} as).readers[i]? = some r) (hw : r.wait = .asleep clock since delay) :
    0 ≤ delay ∧ delay ≤ 30 * sec := by
  have key : ∀ (as : List TNetAct) (s : PgNet), (∀ (i : Nat) (r : PgReader), s.readers[i]? = some r → r.wait.sane) →
      ∀ (i : Nat) (r : PgReader), (s.run hash parses as).readers[i]? = some r → r.wait.sane := by
    intro as
    induction as with
    | nil => intro s h; exact h
    | cons a as ih =>
      intro s h
      refine ih _ ?_
      intro i r hr
      by_cases hi : i < s.readers.length
      · obtain ⟨r', h1, h2⟩ := sane_step (hash := hash) (parses := parses) (tie := a.tie) (now := a.now)
          (List.getElem?_eq_getElem hi) (h i _ (List.getElem?_eq_getElem hi)) a.act
        rw [hr, Option.some.injEq] at h1
        subst h1
        exact h2
      · -- a stream that has just been made
        have hlen : (s.step hash parses a.tie a.now a.act).2.readers.length = s.readers.length ∨
            ∃ n x, a.act = .subscribe n x := by
          generalize a.act = act
          cases act with
          | subscribe n x => exact .inr ⟨n, x, rfl⟩
          | stream j timer =>
            left
            simp only [PgNet.step]
            split
            · rfl
            · simp only [PgNet.streamStep]
              split
              · simp [PgNet.setWait]
              · simp [PgNet.setWait]
              · split <;> simp [PgNet.setWait, PgNet.dbStep]
              · split <;> simp [PgNet.setWait, PgNet.dbStep]
              · split
                · split <;> simp [PgNet.setWait]
                · split <;> simp [PgNet.setWait]
          | streamFails j =>
            left
            simp only [PgNet.step]
            split <;> simp [PgNet.setWait]
          | deliver m =>
            left
            simp only [PgNet.step, PgNet.deliver]
            split
            · rfl
            · split
              · rfl
              · split <;> simp
          | _ => exact .inl rfl
        rcases hlen with hlen | ⟨n, x, hact⟩
        · have := (List.getElem?_eq_some_iff.mp hr).1
          omega
        · rw [hact] at hr
          simp only [PgNet.step] at hr
          rw [List.getElem?_append_right (by omega)] at hr
          have : r = { node := n, executor := x } := by
            have hm := List.mem_of_getElem? hr
            simpa using hm
          rw [this]
          trivial
  have := key as {} (by simp) i r hr
  rw [hw] at this
  exact this

/-- **C60.** Take any schedule and a stream subscribed in it on a node whose listener is
running, does not lose its connection and is still running at the end. If the stream is
asleep, nothing is in its channel and its node has handled all notifications for its
executor, then its timer runs out no later than the scheduled time of every waiting row of
its executor (plus the time the stream took between reading the clock and going to sleep),
or at most 15 ms after it went to sleep. -/
theorem C60_no_missed_job (hash : HashFn) (parses : Parses) (pre post : List TNetAct) (t : Time) (tie : Int → Nat) (n : Nat)
    (x : String) (node node' : PgNode) (r : PgReader) (clock since : Time) (delay : Delta)
    (h : (PgNet.run hash parses {} pre).nodes[n]? = some node) (hl : node.listening = true) (hb : Unbroken n post)
    (h' : (PgNet.run hash parses {} (pre ++ ⟨t, tie, .subscribe n x⟩ :: post)).nodes[n]? = some node')
    (hl' : node'.listening = true)
    (hr : (PgNet.run hash parses {} (pre ++ ⟨t, tie, .subscribe n x⟩ :: post)).readers[(PgNet.run hash parses {} pre).readers.length]? = some r)
    (hw : r.wait = .asleep clock since delay) (hq : r.queue = []) (hp : node'.pending x = []) :
    ∀ row ∈ (PgNet.run hash parses {} (pre ++ ⟨t, tie, .subscribe n x⟩ :: post)).conc.pg.rows,
      row.Waiting → row.executor = x →
      since + delay ≤ row.scheduledAt + (since - clock) ∨ since + delay ≤ since + 15 * ms := by
  have hs : PgNet.run hash parses {} (pre ++ [⟨t, tie, .subscribe n x⟩]) = { (PgNet.run hash parses {} pre) with
      readers := (PgNet.run hash parses {} pre).readers ++ [{ node := n, executor := x }] } := by
    rw [pgnet_run_append]; rfl
  have hrun : PgNet.run hash parses {} (pre ++ ⟨t, tie, .subscribe n x⟩ :: post) =
      (PgNet.run hash parses {} (pre ++ [⟨t, tie, .subscribe n x⟩])).run hash parses post := by
    rw [← pgnet_run_append, List.append_assoc]; rfl
  rw [hrun] at h' hr ⊢
  have hr₀ : (PgNet.run hash parses {} (pre ++ [⟨t, tie, .subscribe n x⟩])).readers[(PgNet.run hash parses {} pre).readers.length]? =
      some { node := n, executor := x } := by
    rw [hs]; simp
  have hn : (PgNet.run hash parses {} (pre ++ [⟨t, tie, .subscribe n x⟩])).nodes[n]? = some node := by rw [hs]; exact h
  obtain ⟨r', g1, g2, g3⟩ := pgnet_covered_run (hash := hash) (parses := parses) (pgnet_reach_inv _) hr₀ rfl hn hl
    (fun _ _ _ _ => .inr (.inr trivial)) post hb h' hl'
  rw [hr, Option.some.injEq] at g1
  subst g1
  intro row hrow hwt hx
  rcases g3 row hrow hwt (hx.trans g2.symm) with g | g | g
  · exact (g hq).elim
  · rw [g2] at g; exact (g hp).elim
  · rw [hw] at g
    simp only [PgWait.covers, pollDelta, Time, Delta] at *
    omega

/-- A stream that went to sleep is told of a job, looks again and goes to sleep until it is due. -/
def sleepHistory : List TNetAct :=
  [netAct 0 .connect, netAct 0 (.subscribe 0 "mail"), netAct 0 (.stream 0 false), netAct 0 (.stream 0 false),
   netAct 0 (.stream 0 false), netAct (1 * sec) (.db (.plain { sampleEnq with scheduledAt := 7 * sec })),
   netAct (2 * sec) (.deliver 0), netAct (3 * sec) (.stream 0 false), netAct (3 * sec) (.stream 0 false),
   netAct (4 * sec) (.stream 0 false), netAct (4 * sec) (.stream 0 false)]

/-- The hypotheses are met. -/
example : sleepHistory = [netAct 0 .connect] ++ netAct 0 (.subscribe 0 "mail") :: sleepHistory.drop 2 ∧
    (PgNet.run sampleHash sampleParses {} sleepHistory).readers =
      [{ node := 0, executor := "mail", wait := .asleep (4 * sec) (4 * sec) (3 * sec) }] ∧
    (PgNet.run sampleHash sampleParses {} sleepHistory).nodes = [{ listening := true, inbox := [] }] ∧
    (∀ row ∈ (PgNet.run sampleHash sampleParses {} sleepHistory).conc.pg.rows, row.Waiting ∧ row.executor = "mail") ∧
    (PgNet.run sampleHash sampleParses {} sleepHistory).conc.pg.rows ≠ [] :=
  ⟨rfl, by decide, by decide, by decide, by decide⟩

private theorem setWait_setWait (s : PgNet) (i : Nat) (w w' : PgWait) : (s.setWait i w).setWait i w' = s.setWait i w' := by
  simp only [PgNet.setWait, PgNet.mk.injEq, true_and]
  refine List.ext_getElem? fun n => ?_
  simp only [List.getElem?_modify]
  cases s.readers[n]? with
  | none => simp
  | some r => by_cases h : i = n <;> simp [h]

/-- The steps of a stream while it runs the hand-out statement. -/
private theorem stream_advance {hash : HashFn} {parses : Parses} {s : PgNet} {i : Nat} {r : PgReader} {clock : Time} {delay : Delta}
    {k : Nat} {ss : Session} (hr : s.readers[i]? = some r) (hw : r.wait = .loading clock delay k)
    (hk : s.conc.sessions[k]? = some ss) (hn : ∀ res, ss ≠ .done res) (tie : Int → Nat) (now : Time) (b : Bool) :
    s.step hash parses tie now (.stream i b) = s.dbStep hash tie now (.advance k) := by
  simp only [PgNet.step, hr, PgNet.streamStep, hw, hk]
  split
  · rename_i h; exact (hn _ (Option.some.inj h)).elim
  · rename_i h; exact (hn _ (Option.some.inj h)).elim
  · rename_i h; exact (hn _ (Option.some.inj h)).elim
  · rfl

private theorem advance_conc {hash : HashFn} {s : PgNet} {k : Nat} {ss : Session} (hk : s.conc.sessions[k]? = some ss)
    (tie : Int → Nat) (now : Time) :
    (s.dbStep hash tie now (.advance k)).2.conc.sessions[k]? = some (s.conc.advance hash tie now ss).2.1 ∧
    (s.dbStep hash tie now (.advance k)).2.conc.pg = (s.conc.advance hash tie now ss).2.2 ∧
    (∀ id, s.conc.rowLocked id = false → (s.conc.advance hash tie now ss).2.1.rowLock = none →
      (s.dbStep hash tie now (.advance k)).2.conc.rowLocked id = false) := by
  have hlt := (List.getElem?_eq_some_iff.mp hk).1
  simp only [PgNet.dbStep, PgConc.step, hk]
  refine ⟨by simp [hlt], trivial, ?_⟩
  intro id h1 h2
  rw [Bool.eq_false_iff, ne_eq, rowLocked_iff] at h1 ⊢
  rintro ⟨j, s', h3, h4⟩
  simp only [List.getElem?_set] at h3
  split at h3
  · simp only [hlt, if_true, Option.some.injEq] at h3
    rw [← h3, h2] at h4
    simp at h4
  · exact h1 ⟨j, s', h3, h4⟩

/-- **C60, progress.** A stream that is about to look while a row of its executor is waiting,
unlocked and due within 15 ms returns something if nothing interferes: seven steps later (look,
decide, open the statement, its three parts, and the return) it has returned a job of its
executor, or an error if the row cannot be read. The clock of the database (`t₄`) may be up to
84 ms behind that of the node (`t₂`). -/
theorem C60_prompt (hash : HashFn) (parses : Parses) (as : List TNetAct) (s : PgNet) (hs : s = PgNet.run hash parses {} as) (i : Nat) (r : PgReader) (row : Row) (tie : Int → Nat)
    (t₁ t₂ t₃ t₄ t₅ t₆ t₇ : Time) (b : Bool) (hr : s.readers[i]? = some r) (hw : r.wait = .ready)
    (hrow : row ∈ s.conc.pg.rows) (hwt : row.Waiting) (hx : row.executor = r.executor)
    (hfree : s.conc.rowLocked row.id = false) (hd : row.scheduledAt ≤ t₂ + 15 * ms) (ht : t₂ ≤ t₄ + 84 * ms) :
    ∃ ev, (s.trace hash parses [⟨t₁, tie, .stream i b⟩, ⟨t₂, tie, .stream i b⟩, ⟨t₃, tie, .stream i b⟩, ⟨t₄, tie, .stream i b⟩,
        ⟨t₅, tie, .stream i b⟩, ⟨t₆, tie, .stream i b⟩, ⟨t₇, tie, .stream i b⟩]).getLast? = some ev ∧
      ((∃ j, ev = .returned i j ∧ j.executor = r.executor ∧ j.status = .executing) ∨ ev = .failed i) := by
  have hc := pg_next_covers hrow hwt hx
  cases hn : s.conc.pg.nextAvailable r.executor with
  | none => rw [hn] at hc; exact hc.elim
  | some f =>
    rw [hn] at hc
    have hdel : streamDelay t₂ (some f) ≤ pollDelta := by
      simp only [PgWait.covers, streamDelay, defaultDelay, pollDelta, sec, ms, Time, Delta] at *
      split <;> omega
    generalize hD : streamDelay t₂ (some f) = D at hdel
    have hready : row.ready t₄ r.executor = true := by
      have hp : t₄ - 1000 ≤ pgTime t₄ := by
        have := Int.tmod_lt_of_pos (t₄ - epoch2000) (show (0 : Int) < 1000 by decide)
        simp only [pgTime, Time] at *
        omega
      simp only [Row.ready, Bool.and_eq_true, Bool.or_eq_true, decide_eq_true_eq, beq_iff_eq]
      refine ⟨⟨?_, hwt⟩, hx⟩
      simp only [ms, Time, Delta] at *
      omega
    -- the first three steps
    have hs1 : s.step hash parses tie t₁ (.stream i b) = (.looked i (some f), s.setWait i (.looked (some f))) := by
      simp only [PgNet.step, hr, PgNet.streamStep, hw, hn]
    have hs2 : (s.setWait i (.looked (some f))).step hash parses tie t₂ (.stream i b) =
        (.decided i D, s.setWait i (.decided t₂ D)) := by
      simp only [PgNet.step, pgnet_setWait_wait hr, if_true, PgNet.streamStep, hD, setWait_setWait]
    obtain ⟨s₃, ev₃, hs3, hr3, hc3⟩ : ∃ s₃ ev₃, (s.setWait i (.decided t₂ D)).step hash parses tie t₃ (.stream i b) = (ev₃, s₃) ∧
        s₃.readers[i]? = some { r with wait := .loading t₂ D s.conc.sessions.length } ∧
        s₃.conc = { s.conc with sessions := s.conc.sessions ++ [.handout r.executor] } := by
      refine ⟨(((s.setWait i (.decided t₂ D)).dbStep hash tie t₃ (.handout r.executor)).2.setWait i
          (.loading t₂ D s.conc.sessions.length)),
        ((s.setWait i (.decided t₂ D)).dbStep hash tie t₃ (.handout r.executor)).1, ?_, ?_, ?_⟩
      · simp only [PgNet.step, pgnet_setWait_wait hr, if_true, PgNet.streamStep, hdel]; rfl
      · have h0 : ((s.setWait i (.decided t₂ D)).dbStep hash tie t₃ (.handout r.executor)).2.readers[i]? =
            some { r with wait := .decided t₂ D } := by
          show (s.setWait i (.decided t₂ D)).readers[i]? = _
          rw [pgnet_setWait_wait hr]; simp
        rw [pgnet_setWait_wait h0]; simp
      · rfl
    generalize hK : s.conc.sessions.length = K at *
    have hk3 : s₃.conc.sessions[K]? = some (.handout r.executor) := by rw [hc3, ← hK]; simp
    have hfree3 : s₃.conc.rowLocked row.id = false := by
      rw [Bool.eq_false_iff, ne_eq, rowLocked_iff] at hfree ⊢
      rintro ⟨j, s', h3, h4⟩
      rw [hc3] at h3
      simp only at h3
      by_cases hj : j < s.conc.sessions.length
      · rw [List.getElem?_append_left hj] at h3; exact hfree ⟨j, s', h3, h4⟩
      · rw [List.getElem?_append_right (by omega)] at h3
        have := List.mem_of_getElem? h3
        simp only [List.mem_singleton] at this
        rw [this] at h4
        simp [Session.rowLock] at h4
    have hrow3 : row ∈ s₃.conc.pg.rows := by rw [hc3]; exact hrow
    -- the statement begins
    have hs4 := stream_advance (hash := hash) (parses := parses) hr3 rfl hk3 (by simp) tie t₄ b
    obtain ⟨hk4, hp4, hf4⟩ := advance_conc (hash := hash) hk3 tie t₄
    have hr4 : (s₃.dbStep hash tie t₄ (.advance K)).2.readers[i]? = some { r with wait := .loading t₂ D K } := hr3
    generalize hS4 : (s₃.dbStep hash tie t₄ (.advance K)).2 = s₄ at hk4 hp4 hf4 hr4
    simp only [PgConc.advance] at hk4 hp4 hf4
    have hrow4 : row ∈ s₄.conc.pg.rows := by rw [hp4]; exact hrow3
    have hfree4 := hf4 row.id hfree3 rfl
    -- the inner select
    have hs5 := stream_advance (hash := hash) (parses := parses) hr4 rfl hk4 (by simp) tie t₅ b
    obtain ⟨hk5, hp5, -⟩ := advance_conc (hash := hash) hk4 tie t₅
    have hr5 : (s₄.dbStep hash tie t₅ (.advance K)).2.readers[i]? = some { r with wait := .loading t₂ D K } := hr4
    generalize hS5 : (s₄.dbStep hash tie t₅ (.advance K)).2 = s₅ at hk5 hp5 hr5
    simp only [PgConc.advance] at hk5 hp5
    have hmem : row ∈ sortBy (Row.before tie) (s₃.conc.pg.rows.filter (Row.ready t₄ r.executor)) :=
      (sortBy_perm _ _).mem_iff.mpr (List.mem_filter.mpr ⟨hrow3, hready⟩)
    have hany : (s₄.conc.pg.rows.any fun r' => r'.id == row.id && r'.ready t₄ r.executor) = true := by
      rw [List.any_eq_true]; exact ⟨row, hrow4, by simp [hready]⟩
    cases hfd : (sortBy (Row.before tie) (s₃.conc.pg.rows.filter (Row.ready t₄ r.executor))).find? fun q =>
        !s₄.conc.rowLocked q.id && s₄.conc.pg.rows.any fun r' => r'.id == q.id && r'.ready t₄ r.executor with
    | none =>
      rw [List.find?_eq_none] at hfd
      exact (hfd row hmem (by simp [hfree4, hany])).elim
    | some q =>
      rw [hfd] at hk5 hp5
      simp only at hk5 hp5
      have hq := List.find?_some hfd
      simp only [Bool.and_eq_true] at hq
      obtain ⟨q', hq', hq''⟩ := List.any_eq_true.mp hq.2
      simp only [Bool.and_eq_true, beq_iff_eq] at hq''
      -- the update
      have hs6 := stream_advance (hash := hash) (parses := parses) hr5 rfl hk5 (by simp) tie t₆ b
      obtain ⟨hk6, hp6, -⟩ := advance_conc (hash := hash) hk5 tie t₆
      have hr6 : (s₅.dbStep hash tie t₆ (.advance K)).2.readers[i]? = some { r with wait := .loading t₂ D K } := hr5
      generalize hS6 : (s₅.dbStep hash tie t₆ (.advance K)).2 = s₆ at hk6 hp6 hr6
      have hlast : ∀ ev, (s₆.step hash parses tie t₇ (.stream i b)).1 = ev →
          (s.trace hash parses [⟨t₁, tie, .stream i b⟩, ⟨t₂, tie, .stream i b⟩, ⟨t₃, tie, .stream i b⟩, ⟨t₄, tie, .stream i b⟩,
            ⟨t₅, tie, .stream i b⟩, ⟨t₆, tie, .stream i b⟩, ⟨t₇, tie, .stream i b⟩]).getLast? = some ev := by
        intro ev hev
        simp only [PgNet.trace, hs1, hs2, hs3, hs4, hS4, hs5, hS5, hs6, hS6, hev]
        rfl
      refine ⟨_, hlast _ rfl, ?_⟩
      simp only [PgConc.advance] at hk6
      have hex : ∃ z, (s₅.conc.pg.rows.find? fun z => z.id == q.id) = some z ∧ z ∈ s₅.conc.pg.rows ∧ z.id = q.id := by
        cases hz : s₅.conc.pg.rows.find? fun z => z.id == q.id with
        | none =>
          rw [List.find?_eq_none] at hz
          exact (hz q' (by rw [hp5]; exact hq') (by simpa using hq''.1)).elim
        | some z => exact ⟨z, rfl, List.mem_of_find?_eq_some hz, by simpa using List.find?_some hz⟩
      obtain ⟨z, hz, hzm, hzi⟩ := hex
      rw [hz] at hk6
      simp only at hk6
      have hrows : s₅.conc.pg.rows = s.conc.pg.rows := by rw [hp5, hp4, hc3]
      have hzq : z = q' := by
        have hnd : (rowIds s.conc.pg.rows).Nodup := by rw [hs]; exact (pgnet_reach_inv as).nodup
        refine row_unique hnd (hrows ▸ hzm) ?_ (hzi.trans hq''.1.symm)
        rw [← hrows, hp5]; exact hq'
      have hzx : z.executor = r.executor := by
        have := hq''.2
        rw [← hzq] at this
        simp only [Row.ready, Bool.and_eq_true, beq_iff_eq] at this
        exact this.2
      simp only [PgNet.step, hr6, PgNet.streamStep, hk6]
      cases hdec : (z.markExecuting t₄).decode with
      | none => exact .inr rfl
      | some j =>
        refine .inl ⟨j, rfl, ?_⟩
        simp only [Row.decode] at hdec
        split at hdec
        · simp at hdec
        · simp only [Option.some.injEq] at hdec
          rw [← hdec]
          exact ⟨hzx, rfl⟩

/-- **C60, waking.** A sleeping stream with a message in its channel, or whose timer has run
out, wakes at its next step. -/
theorem C60_wakes (hash : HashFn) (parses : Parses) (s : PgNet) (i : Nat) (r : PgReader) (tie : Int → Nat) (t clock since : Time)
    (delay : Delta) (b : Bool) (hr : s.readers[i]? = some r) (hw : r.wait = .asleep clock since delay)
    (h : r.queue ≠ [] ∨ since + delay ≤ t) :
    ∃ r', (s.step hash parses tie t (.stream i b)).2.readers[i]? = some r' ∧ r'.wait = .ready ∧
      r'.node = r.node ∧ r'.executor = r.executor := by
  simp only [PgNet.step, hr, PgNet.streamStep, hw]
  cases hq : r.queue with
  | nil =>
    have hd : since + delay ≤ t := by
      rcases h with h | h
      · exact (h hq).elim
      · exact h
    simp only [hd, decide_true, if_true]
    exact ⟨_, pgnet_setWait_wait hr, by simp⟩
  | cons a rest =>
    simp only
    split
    · exact ⟨_, pgnet_setWait_wait hr, by simp⟩
    · exact ⟨{ r with queue := rest, wait := .ready }, by simp [hr], rfl, rfl, rfl⟩

/-- Stream `i` returned a job of the executor `x`. -/
def NetEv.returns (i : Nat) (x : String) : NetEv → Bool
  | .returned k j => k == i && j.executor == x
  | _ => false

/-- Later the timer runs out and the job is returned. -/
example : ((PgNet.run sampleHash sampleParses {} (sleepHistory ++ [netAct (7 * sec) (.stream 0 true)])).trace sampleHash sampleParses
    [netAct (7 * sec) (.stream 0 true), netAct (7 * sec) (.stream 0 true), netAct (7 * sec) (.stream 0 true),
     netAct (7 * sec) (.stream 0 true), netAct (7 * sec) (.stream 0 true), netAct (7 * sec) (.stream 0 true),
     netAct (7 * sec) (.stream 0 true)]).map (NetEv.returns 0 "mail") =
    [false, false, false, false, false, false, true] := by decide

end Rexecutor
