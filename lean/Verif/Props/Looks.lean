import Verif.Model.Live
import Verif.Props.Limits
import Verif.Props.OnTime
import Verif.Props.PgStream
import Verif.Spec.PgStream

/-!
# C136: notifications behind a busy executor

The channels of the streams have no limit (memory.rs:364, backend.rs:36) and get one message
for every job put in, also while nobody polls the stream.
-/

namespace Rexecutor

/-- Stream `i` looked at the store. -/
def StEv.looksAs (i : Nat) : StEv → Bool
  | .looked k _ => k == i
  | _ => false

/-- Stream `i` returned a job, took a message or had its timer run out. -/
def StEv.reasonFor (i : Nat) : StEv → Bool
  | .returned k _ => k == i
  | .received k => k == i
  | .timedOut k => k == i
  | _ => false

/-- Stream `i` took a message. -/
def StEv.takesAs (i : Nat) : StEv → Bool
  | .received k => k == i
  | _ => false

/-- Stream `i` looked at the table. -/
def NetEv.looksAs (i : Nat) : NetEv → Bool
  | .looked k _ => k == i
  | _ => false

/-- Stream `i` returned a job or an error, took a message or had its timer run out. -/
def NetEv.reasonFor (i : Nat) : NetEv → Bool
  | .returned k _ => k == i
  | .failed k => k == i
  | .received k _ => k == i
  | .timedOut k => k == i
  | _ => false

/-- Stream `i` took a message. -/
def NetEv.takesAs (i : Nat) : NetEv → Bool
  | .received k _ => k == i
  | _ => false

/-- Whether stream `i` may look without another reason: it has not begun, or is about to. -/
private def mayLook (s : Streams) (i : Nat) : Nat :=
  match s.readers[i]? with
  | none => 1
  | some r => if r.wait = .ready then 1 else 0

private theorem mayLook_setWait (s : Streams) (i k : Nat) (w : Wait) (r : Reader) (h : s.readers[k]? = some r) :
    mayLook (s.setWait k w) i = if k = i then (if w = .ready then 1 else 0) else mayLook s i := by
  by_cases hk : k = i
  · subst hk
    simp [mayLook, Streams.setWait, h]
  · simp [mayLook, Streams.setWait, List.getElem?_modify, hk]

private theorem mayLook_setMem (s : Streams) (i : Nat) (m : Mem) : mayLook (s.setMem m) i = mayLook s i := rfl

private theorem looks_step (now : Time) (s : Streams) (a : StAct) (i : Nat) :
    ((s.step now a).1.looksAs i).toNat + mayLook (s.step now a).2 i
      ≤ mayLook s i + ((s.step now a).1.reasonFor i).toNat := by
  cases a with
  | client a => exact Nat.le_of_eq (by simp [Streams.step, StEv.looksAs, StEv.reasonFor, mayLook])
  | subscribe ex =>
    simp only [Streams.step, StEv.looksAs, StEv.reasonFor, mayLook]
    rcases Nat.lt_trichotomy i s.readers.length with h | h | h
    · simp [List.getElem?_append_left h]
    · subst h; simp
    · obtain ⟨d, hd⟩ : ∃ d, i - s.readers.length = d + 1 := ⟨i - s.readers.length - 1, by omega⟩
      simp [List.getElem?_append_right (Nat.le_of_lt h), hd, List.getElem?_eq_none (Nat.le_of_lt h)]
  | stream k timer =>
    simp only [Streams.step]
    cases hr : s.readers[k]? with
    | none => simp [StEv.looksAs, StEv.reasonFor]
    | some r =>
      simp only
      have hm : ∀ m : Mem, (s.setMem m).readers[k]? = some r := fun _ => hr
      have hk : k = i → mayLook s i = if r.wait = .ready then 1 else 0 := by
        rintro rfl; simp [mayLook, hr]
      unfold Streams.streamStep
      cases hw : r.wait with
      | ready =>
        simp only [mayLook_setWait s i k _ r hr, StEv.looksAs, StEv.reasonFor]
        by_cases hki : k = i
        · simp [hki, hk hki, hw]
        · simp [hki, beq_false_of_ne hki]
      | looked f =>
        simp only [mayLook_setWait s i k _ r hr, StEv.looksAs, StEv.reasonFor]
        by_cases hki : k = i
        · simp [hki]
        · simp [hki]
      | decided clock delay =>
        simp only
        split
        · split
          · simp only [mayLook_setWait _ i k _ r (hm _), mayLook_setMem, StEv.looksAs, StEv.reasonFor]
            by_cases hki : k = i <;> simp [hki]
          · simp only [mayLook_setWait s i k _ r hr, StEv.looksAs, StEv.reasonFor]
            by_cases hki : k = i <;> simp [hki]
        · simp only [mayLook_setWait s i k _ r hr, StEv.looksAs, StEv.reasonFor]
          by_cases hki : k = i <;> simp [hki]
      | asleep clock since delay =>
        simp only
        split
        · simp only [mayLook_setWait _ i k _ r (hm _), mayLook_setMem, StEv.looksAs, StEv.reasonFor]
          by_cases hki : k = i <;> simp [hki]
        · split
          · simp only [mayLook_setWait s i k _ r hr, StEv.looksAs, StEv.reasonFor]
            by_cases hki : k = i <;> simp [hki]
          · simp [StEv.looksAs, StEv.reasonFor]

private theorem count_cons {α : Type} (p : α → Bool) (a : α) (l : List α) :
    (a :: l).countP p = (p a).toNat + l.countP p := by
  rw [List.countP_cons]
  cases p a <;> simp <;> omega

/-- From any state, and so from any point of a schedule on, a stream looks at most once
more often than it returns a job, takes a message or has its timer run out. -/
theorem C136_looks_partial (s : Streams) (as : List TStAct) (i : Nat) :
    (s.trace as).countP (StEv.looksAs i) ≤ 1 + (s.trace as).countP (StEv.reasonFor i) := by
  have : ∀ s : Streams, (s.trace as).countP (StEv.looksAs i) ≤ mayLook s i + (s.trace as).countP (StEv.reasonFor i) := by
    induction as with
    | nil => simp [Streams.trace]
    | cons a as ih =>
      intro s
      simp only [Streams.trace, count_cons]
      have h1 := ih (s.step a.now a.act).2
      have h2 := looks_step a.now s a.act i
      omega
  have h1 := this s
  have h2 : mayLook s i ≤ 1 := by unfold mayLook; split <;> (try split) <;> omega
  omega

/-- The same for Postgres, where `none` is a stream not there yet. -/
private def pgMayLook (s : PgNet) (i : Nat) : Nat :=
  match s.readers[i]? with
  | none => 1
  | some r => if r.wait = .ready then 1 else 0

private theorem pgMayLook_setWait (s : PgNet) (i k : Nat) (w : PgWait) (r : PgReader) (h : s.readers[k]? = some r) :
    pgMayLook (s.setWait k w) i = if k = i then (if w = .ready then 1 else 0) else pgMayLook s i := by
  by_cases hk : k = i
  · subst hk
    simp [pgMayLook, PgNet.setWait, h]
  · simp [pgMayLook, PgNet.setWait, List.getElem?_modify, hk]

private theorem pgMayLook_congr {s s' : PgNet} (h : s'.readers = s.readers) (i : Nat) : pgMayLook s' i = pgMayLook s i := by
  simp [pgMayLook, h]

private theorem pgLooks_step (hash : HashFn) (parses : Parses) (tie : Int → Nat) (now : Time) (s : PgNet) (a : NetAct)
    (i : Nat) :
    ((s.step hash parses tie now a).1.looksAs i).toNat + pgMayLook (s.step hash parses tie now a).2 i
      ≤ pgMayLook s i + ((s.step hash parses tie now a).1.reasonFor i).toNat := by
  cases a with
  | db a => exact Nat.le_of_eq (by simp [PgNet.step, PgNet.dbStep, NetEv.looksAs, NetEv.reasonFor, pgMayLook])
  | connect => exact Nat.le_of_eq (by simp [PgNet.step, NetEv.looksAs, NetEv.reasonFor, pgMayLook])
  | reconnect n => exact Nat.le_of_eq (by simp [PgNet.step, NetEv.looksAs, NetEv.reasonFor, pgMayLook])
  | fail n => exact Nat.le_of_eq (by simp [PgNet.step, NetEv.looksAs, NetEv.reasonFor, pgMayLook])
  | deliver n =>
    simp only [PgNet.step, NetEv.looksAs, NetEv.reasonFor, Bool.toNat_false, Nat.zero_add, Nat.add_zero]
    unfold PgNet.deliver
    split
    · exact Nat.le_refl _
    · split
      · exact Nat.le_refl _
      · split
        · simp only [pgMayLook, List.getElem?_map]
          cases s.readers[i]? with
          | none => simp
          | some r => simp only [Option.map_some]; split <;> split <;> simp_all
        · exact Nat.le_refl _
  | subscribe n ex =>
    simp only [PgNet.step, NetEv.looksAs, NetEv.reasonFor, pgMayLook]
    rcases Nat.lt_trichotomy i s.readers.length with h | h | h
    · simp [List.getElem?_append_left h]
    · subst h; simp
    · obtain ⟨d, hd⟩ : ∃ d, i - s.readers.length = d + 1 := ⟨i - s.readers.length - 1, by omega⟩
      simp [List.getElem?_append_right (Nat.le_of_lt h), hd, List.getElem?_eq_none (Nat.le_of_lt h)]
  | streamFails k =>
    simp only [PgNet.step]
    split
    · by_cases hki : k = i <;> simp [NetEv.looksAs, NetEv.reasonFor, hki]
    · rename_i hr
      simp only [pgMayLook_setWait s i k _ _ hr, NetEv.looksAs, NetEv.reasonFor]
      by_cases hki : k = i <;> simp [hki]
    · simp [NetEv.looksAs, NetEv.reasonFor]
  | stream k timer =>
    simp only [PgNet.step]
    cases hr : s.readers[k]? with
    | none => simp [NetEv.looksAs, NetEv.reasonFor]
    | some r =>
      simp only
      have hk : k = i → pgMayLook s i = if r.wait = .ready then 1 else 0 := by
        rintro rfl; simp [pgMayLook, hr]
      have hs : ∀ w, pgMayLook (s.setWait k w) i = if k = i then (if w = .ready then 1 else 0) else pgMayLook s i :=
        fun w => pgMayLook_setWait s i k w r hr
      unfold PgNet.streamStep
      cases hw : r.wait with
      | ready =>
        simp only [hs, NetEv.looksAs, NetEv.reasonFor]
        by_cases hki : k = i
        · simp [hki, hk hki, hw]
        · simp [hki, beq_false_of_ne hki]
      | looked f =>
        simp only [hs, NetEv.looksAs, NetEv.reasonFor]
        by_cases hki : k = i <;> simp [hki]
      | decided clock delay =>
        simp only
        split
        · rw [pgMayLook_setWait _ i k _ r (by exact hr)]
          have : pgMayLook (s.dbStep hash tie now (.handout r.executor)).2 i = pgMayLook s i := pgMayLook_congr rfl i
          rw [this]
          by_cases hki : k = i <;> simp [hki, PgNet.dbStep, NetEv.looksAs, NetEv.reasonFor]
        · simp only [hs, NetEv.looksAs, NetEv.reasonFor]
          by_cases hki : k = i <;> simp [hki]
      | loading clock delay q =>
        simp only
        split
        · simp only [hs, NetEv.looksAs, NetEv.reasonFor]
          by_cases hki : k = i <;> simp [hki]
        · simp only [hs, NetEv.looksAs, NetEv.reasonFor]
          by_cases hki : k = i <;> simp [hki]
        · simp only [hs, NetEv.looksAs, NetEv.reasonFor]
          by_cases hki : k = i <;> simp [hki]
        · have : pgMayLook (s.dbStep hash tie now (.advance q)).2 i = pgMayLook s i := pgMayLook_congr rfl i
          rw [this]
          simp [PgNet.dbStep, NetEv.looksAs, NetEv.reasonFor]
      | asleep clock since delay =>
        simp only
        split
        · split
          · simp only [hs, NetEv.looksAs, NetEv.reasonFor]
            by_cases hki : k = i <;> simp [hki]
          · simp only [NetEv.looksAs, NetEv.reasonFor]
            by_cases hki : k = i
            · subst hki; simp [pgMayLook, hr]
            · simp [pgMayLook, List.getElem?_modify, hki]
        · split
          · simp only [hs, NetEv.looksAs, NetEv.reasonFor]
            by_cases hki : k = i <;> simp [hki]
          · simp [NetEv.looksAs, NetEv.reasonFor]

/-- On Postgres as well, errors counted among the reasons. -/
theorem C136_looks_on_postgres_partial (hash : HashFn) (parses : Parses) (s : PgNet) (as : List TNetAct) (i : Nat) :
    (s.trace hash parses as).countP (NetEv.looksAs i) ≤ 1 + (s.trace hash parses as).countP (NetEv.reasonFor i) := by
  have : ∀ s : PgNet, (s.trace hash parses as).countP (NetEv.looksAs i)
      ≤ pgMayLook s i + (s.trace hash parses as).countP (NetEv.reasonFor i) := by
    induction as with
    | nil => simp [PgNet.trace]
    | cons a as ih =>
      intro s
      simp only [PgNet.trace, count_cons]
      have h1 := ih (s.step hash parses a.tie a.now a.act).2
      have h2 := pgLooks_step hash parses a.tie a.now s a.act i
      omega
  have h1 := this s
  have h2 : pgMayLook s i ≤ 1 := by unfold pgMayLook; split <;> (try split) <;> omega
  omega

/-! ## What has come in is worked off -/

private def waitingFor (s : Streams) (i : Nat) : Nat :=
  match s.readers[i]? with
  | none => 0
  | some r => match s.conc.mem.subs[r.sub]? with
    | none => 0
    | some sb => sb.queue.length

private theorem waitingFor_congr {s s' : Streams} (i : Nat)
    (h : (s'.readers[i]?).map Reader.sub = (s.readers[i]?).map Reader.sub)
    (hm : s'.conc.mem.subs = s.conc.mem.subs) : waitingFor s' i = waitingFor s i := by
  unfold waitingFor
  rw [hm]
  revert h
  cases s'.readers[i]? <;> cases s.readers[i]? <;> simp
  intro h; rw [h]

private theorem setWait_sub (s : Streams) (k i : Nat) (w : Wait) :
    ((s.setWait k w).readers[i]?).map Reader.sub = (s.readers[i]?).map Reader.sub := by
  simp only [Streams.setWait, List.getElem?_modify, Option.map_map]
  cases s.readers[i]? with
  | none => rfl
  | some r => by_cases h : k = i <;> simp [h]

private theorem receive_length (m : Mem) (k q : Nat) :
    (match (m.receive k).subs[q]? with | none => 0 | some sb => sb.queue.length) + (decide (k = q) && m.hasMessage k).toNat
      = (match m.subs[q]? with | none => 0 | some sb => sb.queue.length) := by
  simp only [Mem.receive, Mem.hasMessage, List.getElem?_modify]
  by_cases h : k = q
  · subst h
    cases m.subs[k]? with
    | none => simp
    | some sb => cases hq : sb.queue <;> simp [hq]
  · simp [h]

private theorem takes_step (now : Time) (timer : Bool) (s : Streams) (k i : Nat) :
    ((s.step now (.stream k timer)).1.takesAs i).toNat + waitingFor (s.step now (.stream k timer)).2 i ≤ waitingFor s i := by
  simp only [Streams.step]
  cases hr : s.readers[k]? with
  | none => simp [StEv.takesAs]
  | some r =>
    simp only
    have hw : ∀ w, waitingFor (s.setWait k w) i = waitingFor s i := fun w =>
      waitingFor_congr i (setWait_sub s k i w) rfl
    unfold Streams.streamStep
    cases r.wait with
    | ready => simp [StEv.takesAs, hw]
    | looked f => simp [StEv.takesAs, hw]
    | decided clock delay =>
      simp only
      split
      · split
        · rename_i j m hl
          have hs : m.subs = s.conc.mem.subs := by
            have := (load_subs now r.executor s.conc.mem).1
            rw [hl] at this; exact this
          have : waitingFor ((s.setMem m).setWait k .ready) i = waitingFor s i :=
            waitingFor_congr i (setWait_sub (s.setMem m) k i _) hs
          simp [StEv.takesAs, this]
        · simp [StEv.takesAs, hw]
      · simp [StEv.takesAs, hw]
    | asleep clock since delay =>
      simp only
      split
      · rename_i hc
        have hmsg : s.conc.mem.hasMessage r.sub = true := by simp only [Bool.and_eq_true] at hc; exact hc.1
        have e1 : waitingFor ((s.setMem (s.conc.mem.receive r.sub)).setWait k .ready) i
            = waitingFor (s.setMem (s.conc.mem.receive r.sub)) i :=
          waitingFor_congr i (setWait_sub _ k i _) rfl
        rw [e1]
        by_cases hki : k = i
        · subst hki
          have := receive_length s.conc.mem r.sub r.sub
          simp only [decide_true, hmsg, Bool.and_self] at this
          simp only [waitingFor, Streams.setMem, hr, StEv.takesAs, beq_self_eq_true]
          omega
        · simp only [waitingFor, Streams.setMem, StEv.takesAs, beq_false_of_ne hki, Bool.toNat_false, Nat.zero_add]
          cases s.readers[i]? with
          | none => simp
          | some q =>
            have := receive_length s.conc.mem r.sub q.sub
            simp only
            omega
      · split
        · simp [StEv.takesAs, hw]
        · simp [StEv.takesAs]

/-- While only streams act, a stream takes at most the messages that were waiting for it. -/
theorem C136_worked_off_partial (s : Streams) (as : List TStAct) (i : Nat) (r : Reader) (sb : Sub)
    (hr : s.readers[i]? = some r) (hs : s.conc.mem.subs[r.sub]? = some sb)
    (h : ∀ a ∈ as, ∃ k timer, a.act = .stream k timer) :
    (s.trace as).countP (StEv.takesAs i) ≤ sb.queue.length := by
  have : ∀ s : Streams, (s.trace as).countP (StEv.takesAs i) ≤ waitingFor s i := by
    clear hr hs
    induction as with
    | nil => simp [Streams.trace]
    | cons a as ih =>
      intro s
      obtain ⟨k, timer, ha⟩ := h a (by simp)
      simp only [Streams.trace, count_cons, ha]
      have h1 := ih (fun b hb => h b (by simp [hb])) (s.step a.now (.stream k timer)).2
      have h2 := takes_step a.now timer s k i
      omega
  have h1 := this s
  simpa [waitingFor, hr, hs] using h1

private def pgWaitingFor (s : PgNet) (i : Nat) : Nat :=
  match s.readers[i]? with
  | none => 0
  | some r => r.queue.length

private theorem pgWaitingFor_setWait (s : PgNet) (k i : Nat) (w : PgWait) :
    pgWaitingFor (s.setWait k w) i = pgWaitingFor s i := by
  simp only [pgWaitingFor, PgNet.setWait, List.getElem?_modify]
  cases s.readers[i]? with
  | none => rfl
  | some r => by_cases h : k = i <;> simp [h]

private theorem pgWaitingFor_congr {s s' : PgNet} (h : s'.readers = s.readers) (i : Nat) :
    pgWaitingFor s' i = pgWaitingFor s i := by
  simp [pgWaitingFor, h]

private theorem pgTakes_step (hash : HashFn) (parses : Parses) (tie : Int → Nat) (now : Time) (s : PgNet) (a : NetAct)
    (i : Nat) (ha : ∀ n, a ≠ .deliver n) :
    ((s.step hash parses tie now a).1.takesAs i).toNat + pgWaitingFor (s.step hash parses tie now a).2 i
      ≤ pgWaitingFor s i := by
  cases a with
  | db a => simp [PgNet.step, PgNet.dbStep, NetEv.takesAs, pgWaitingFor]
  | connect => simp [PgNet.step, NetEv.takesAs, pgWaitingFor]
  | reconnect n => simp [PgNet.step, NetEv.takesAs, pgWaitingFor]
  | fail n => simp [PgNet.step, NetEv.takesAs, pgWaitingFor]
  | deliver n => exact absurd rfl (ha n)
  | subscribe n ex =>
    simp only [PgNet.step, NetEv.takesAs, pgWaitingFor, Bool.toNat_false, Nat.zero_add]
    rcases Nat.lt_trichotomy i s.readers.length with h | h | h
    · simp [List.getElem?_append_left h]
    · subst h; simp
    · obtain ⟨d, hd⟩ : ∃ d, i - s.readers.length = d + 1 := ⟨i - s.readers.length - 1, by omega⟩
      simp [List.getElem?_append_right (Nat.le_of_lt h), hd]
  | streamFails k =>
    simp only [PgNet.step]
    split <;> simp [NetEv.takesAs, pgWaitingFor_setWait]
  | stream k timer =>
    simp only [PgNet.step]
    cases hr : s.readers[k]? with
    | none => simp [NetEv.takesAs]
    | some r =>
      simp only
      unfold PgNet.streamStep
      cases r.wait with
      | ready => simp [NetEv.takesAs, pgWaitingFor_setWait]
      | looked f => simp [NetEv.takesAs, pgWaitingFor_setWait]
      | decided clock delay =>
        simp only
        split
        · rw [pgWaitingFor_setWait]
          have : pgWaitingFor (s.dbStep hash tie now (.handout r.executor)).2 i = pgWaitingFor s i := pgWaitingFor_congr rfl i
          rw [this]
          simp [PgNet.dbStep, NetEv.takesAs]
        · simp [NetEv.takesAs, pgWaitingFor_setWait]
      | loading clock delay q =>
        simp only
        split
        · simp [NetEv.takesAs, pgWaitingFor_setWait]
        · simp [NetEv.takesAs, pgWaitingFor_setWait]
        · simp [NetEv.takesAs, pgWaitingFor_setWait]
        · have : pgWaitingFor (s.dbStep hash tie now (.advance q)).2 i = pgWaitingFor s i := pgWaitingFor_congr rfl i
          rw [this]
          simp [PgNet.dbStep, NetEv.takesAs]
      | asleep clock since delay =>
        simp only
        split
        · rename_i t rest hq
          split
          · simp [NetEv.takesAs, pgWaitingFor_setWait]
          · by_cases hki : k = i
            · subst hki
              simp [NetEv.takesAs, pgWaitingFor, hr, hq]
              omega
            · simp [NetEv.takesAs, pgWaitingFor, List.getElem?_modify, hki, beq_false_of_ne hki]
        · split <;> simp [NetEv.takesAs, pgWaitingFor_setWait]

/-- On Postgres, too: as long as the listeners pass on nothing new. -/
theorem C136_worked_off_on_postgres_partial (hash : HashFn) (parses : Parses) (s : PgNet) (as : List TNetAct) (i : Nat)
    (r : PgReader) (hr : s.readers[i]? = some r) (h : ∀ a ∈ as, ∀ n, a.act ≠ .deliver n) :
    (s.trace hash parses as).countP (NetEv.takesAs i) ≤ r.queue.length := by
  have : ∀ s : PgNet, (s.trace hash parses as).countP (NetEv.takesAs i) ≤ pgWaitingFor s i := by
    clear hr
    induction as with
    | nil => simp [PgNet.trace]
    | cons a as ih =>
      intro s
      simp only [PgNet.trace, count_cons]
      have h1 := ih (fun b hb => h b (by simp [hb])) (s.step hash parses a.tie a.now a.act).2
      have h2 := pgTakes_step hash parses a.tie a.now s a.act i (h a (by simp))
      omega
  have h1 := this s
  simpa [pgWaitingFor, hr] using h1

/-! ## They pile up -/

/-- An executor with room for one execution executes a job. -/
def busyStart : List TLvAct :=
  [⟨0, .client (.start sampleEnq)⟩, ⟨0, .client (.advance 0)⟩, ⟨0, .client (.advance 0)⟩, ⟨0, .client (.advance 0)⟩,
   ⟨0, .begin 0⟩, ⟨0, .poll 0⟩, ⟨0, .step 0 false⟩, ⟨0, .step 0 false⟩, ⟨0, .step 0 false⟩]

/-- A job is enqueued, by call `c`, and pruned. -/
def putInAndPruned (c : Nat) : List TLvAct :=
  [⟨0, .client (.start sampleEnq)⟩, ⟨0, .client (.advance c)⟩, ⟨0, .client (.advance c)⟩, ⟨0, .client (.advance c)⟩,
   ⟨0, .client (.op (.prune { status := .scheduled, pruneBy := .maxAge 0, executors := .only ["mail"] }))⟩]

/-- That `n` times, beginning with call 1. -/
def comeAndGone : Nat → List TLvAct
  | 0 => []
  | n + 1 => comeAndGone n ++ putInAndPruned (n + 1)

private theorem live_run_append (defs : List Runner) (s : Live) (as bs : List TLvAct) :
    s.run defs (as ++ bs) = (s.run defs as).run defs bs := by
  induction as generalizing s with
  | nil => rfl
  | cons a as ih => exact ih _

/-- **C136 is violated in memory.** For every `n` there is a schedule after which an executor that
is busy with its only execution has `n` messages waiting though no job waits. -/
theorem C136_violated (n : Nat) : ∃ as : List TLvAct,
    let s := (Live.init [eagerRunner (some 1)]).run [eagerRunner (some 1)] as
    (∀ k ∈ s.streams.conc.mem.jobs, k.job.status = .executing) ∧
      s.runners.map (fun r => r.state.flights.length) = [1] ∧
      s.streams.conc.mem.subs.map (fun sb => sb.queue.length) = [n] := by
  refine ⟨busyStart ++ comeAndGone n, ?_⟩
  rw [live_run_append]
  have h0 : ∃ k, ((Live.init [eagerRunner (some 1)]).run [eagerRunner (some 1)] busyStart).streams.conc.mem.jobs = [k] ∧
      k.job.status = .executing := ⟨_, rfl, rfl⟩
  obtain ⟨k, hk, hst⟩ := h0
  have : let s := ((Live.init [eagerRunner (some 1)]).run [eagerRunner (some 1)] busyStart).run [eagerRunner (some 1)] (comeAndGone n)
      s.streams.conc.mem.jobs = [k] ∧ s.runners.map (fun r => r.state.flights.length) = [1] ∧
      s.streams.conc.calls.length = n + 1 ∧ s.streams.conc.mem.paused = false ∧
      ∃ q, s.streams.conc.mem.subs = [{ executor := "mail", queue := q }] ∧ q.length = n := by
    induction n with
    | zero => exact ⟨hk, rfl, rfl, rfl, [], rfl, rfl⟩
    | succ n ih =>
      simp only [comeAndGone, live_run_append]
      generalize ((Live.init [eagerRunner (some 1)]).run [eagerRunner (some 1)] busyStart).run [eagerRunner (some 1)] (comeAndGone n) = s at ih
      obtain ⟨h1, h2, h3, h4, q, h5, h6⟩ := ih
      simp [putInAndPruned, Live.run, Live.act, Conc.step, ← h3, Mem.advance, sampleEnq, Mem.step, Mem.prune, EnqueuableJob.intoJob, h1, h4, h5,
        PruneSpec.matches, ExecSpec.matches, hst, Mem.notify, h2, h6]
  obtain ⟨h1, h2, -, -, q, h5, h6⟩ := this
  refine ⟨?_, h2, ?_⟩
  · intro k' hk'; rw [h1] at hk'; simp at hk'; subst hk'; exact hst
  · rw [h5]; simp [h6]

/-- A job due in an hour, a node, and a stream nobody polls. -/
def laterNet : List TNetAct :=
  [netAct 0 (.db (.plain { sampleEnq with scheduledAt := 3600 * sec })), netAct 0 .connect, netAct 0 (.subscribe 0 "mail")]

/-- `n` times a client writes the job as it is. -/
def rewritten : Nat → List TNetAct
  | 0 => []
  | n + 1 => rewritten n ++ [netAct 0 (.db (.stmt (.update { sampleJob 1 with scheduledAt := 3600 * sec }))), netAct 0 (.deliver 0)]

private theorem net_run_append (hash : HashFn) (parses : Parses) (s : PgNet) (as bs : List TNetAct) :
    s.run hash parses (as ++ bs) = (s.run hash parses as).run hash parses bs := by
  induction as generalizing s with
  | nil => rfl
  | cons a as ih => exact ih _

/-- **C136 is violated on Postgres.** For every `n` there is a schedule after which a stream has `n`
messages waiting about one and the same job, due in an hour. -/
theorem C136_violated_on_postgres (hash : HashFn) (parses : Parses) (hp : parses (3600 * sec) = true) (n : Nat) :
    ∃ as : List TNetAct,
    let s := ({} : PgNet).run hash parses as
    s.conc.pg.rows.map (fun r => (r.executor, r.status, r.scheduledAt)) = [("mail", .scheduled, 3600 * sec)] ∧
      s.readers.map (fun r => r.queue.length) = [n] := by
  refine ⟨laterNet ++ rewritten n, ?_⟩
  rw [net_run_append]
  have : let s := (({} : PgNet).run hash parses laterNet).run hash parses (rewritten n)
      (∃ row, s.conc.pg.rows = [row] ∧ row.id = 1 ∧ row.executor = "mail" ∧ row.status = .scheduled ∧ row.scheduledAt = 3600 * sec) ∧
      s.conc.sessions = [] ∧ s.nodes = [{}] ∧
      ∃ q, s.readers = [{ node := 0, executor := "mail", queue := q }] ∧ q.length = n := by
    induction n with
    | zero => exact ⟨⟨_, rfl, rfl, rfl, rfl, by decide⟩, rfl, rfl, [], rfl, rfl⟩
    | succ n ih =>
      simp only [rewritten, net_run_append]
      generalize (({} : PgNet).run hash parses laterNet).run hash parses (rewritten n) = s at ih
      obtain ⟨⟨row, h1, h2, h3, h4, h5⟩, h6, h7, q, h8, h9⟩ := ih
      have ht : pgTime (3600 * sec) = 3600 * sec := by decide
      simp [PgNet.run, netAct, PgNet.step, PgNet.dbStep, PgConc.step, Op.needs, PgConc.rowLocked, h6, h1, Pg.step, Pg.onRow, updateRows,
        sampleJob, h2, h7, PgEv.notices, PgEv.written, Row.update, Row.notifies, h3, h4, ht, PgNet.deliver, hp, h8, h9]
  obtain ⟨⟨row, h1, h2, h3, h4, h5⟩, h6, h7, q, h8, h9⟩ := this
  exact ⟨by simp [h1, h3, h4, h5], by simp [h8, h9]⟩

/-- Two streams. The first is asleep when two jobs due in an hour are enqueued. -/
def backlogStart : List TStAct :=
  [⟨0, .subscribe "mail"⟩, ⟨0, .subscribe "mail"⟩, ⟨0, .stream 0 false⟩, ⟨0, .stream 0 false⟩, ⟨0, .stream 0 false⟩] ++
  (([Act.start { sampleEnq with scheduledAt := 3600 * sec }, .advance 0, .advance 0, .advance 0,
    .start { sampleEnq with scheduledAt := 3600 * sec }, .advance 1, .advance 1, .advance 1]).map fun a => ⟨0, .client a⟩)

/-- Then it takes the two messages and looks after each, and its timer runs out. -/
def backlogRest : List TStAct :=
  (List.replicate 9 ⟨sec, .stream 0 false⟩) ++ [⟨60 * sec, .stream 0 false⟩, ⟨60 * sec, .stream 0 false⟩]

/-- `C136_looks_partial` and `C136_worked_off_partial` are not empty: two messages, two of them taken, three looks. -/
example :
    let s := (Streams.init).run backlogStart
    s.readers[0]?.map (·.sub) = some 0 ∧ (s.conc.mem.subs[0]?).map (·.queue.length) = some 2 ∧
      (∀ a ∈ backlogRest, ∃ k timer, a.act = .stream k timer) ∧
      (s.trace backlogRest).countP (StEv.takesAs 0) = 2 ∧ (s.trace backlogRest).countP (StEv.looksAs 0) = 3 ∧
      (s.trace backlogRest).countP (StEv.reasonFor 0) = 3 := by
  refine ⟨by decide, by decide, ?_, by decide, by decide, by decide⟩
  intro a ha
  simp only [backlogRest, List.mem_append, List.mem_replicate, List.mem_cons, List.not_mem_nil, or_false] at ha
  rcases ha with ⟨-, rfl⟩ | rfl | rfl <;> exact ⟨0, false, rfl⟩

/-- The same for Postgres: three messages about one job, taken one after the other. -/
def netBacklogRest : List TNetAct := List.replicate 12 (netAct sec (.stream 0 false))

example :
    let s := ({} : PgNet).run sampleHash (fun _ => true) (laterNet ++ rewritten 3)
    (s.readers[0]?).map (·.queue.length) = some 3 ∧
      (∀ a ∈ netBacklogRest, ∀ n, a.act ≠ .deliver n) ∧
      (s.trace sampleHash (fun _ => true) netBacklogRest).countP (NetEv.takesAs 0) = 3 ∧
      (s.trace sampleHash (fun _ => true) netBacklogRest).countP (NetEv.looksAs 0) = 3 := by
  refine ⟨by decide, ?_, by decide, by decide⟩
  intro a ha n
  rw [List.eq_of_mem_replicate ha]
  simp [netAct]

/-- The hypothesis of `C136_violated_on_postgres` is met. -/
example : sampleParses (3600 * sec) = true := by decide

end Rexecutor
