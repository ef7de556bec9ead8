import Verif.Props.PgText
import Verif.Spec.Samples

/-!
# C116: a job that can be enqueued in memory can be enqueued on Postgres

Fails for a text with U+0000, and only for that.
-/

namespace Rexecutor

/-! ## Specification -/

mutual
/-- All texts in a JSON value: strings and field names. -/
def Json.texts : Json → List String
  | .str s => [s]
  | .arr xs => Json.textsList xs
  | .obj fields => Json.textsFields fields
  | _ => []
/-- Helper of `Json.texts`. -/
def Json.textsList : List Json → List String
  | [] => []
  | x :: xs => x.texts ++ Json.textsList xs
/-- Helper of `Json.texts`. -/
def Json.textsFields : List (String × Json) → List String
  | [] => []
  | (k, x) :: xs => k :: x.texts ++ Json.textsFields xs
end

/-- All texts of a job to be enqueued. -/
def EnqueuableJob.texts (e : EnqueuableJob) : List String := e.executor :: e.data.texts ++ e.metadata.texts ++ e.tags

mutual
/-- All texts of a query. -/
def Query.texts : Query → List String
  | .not q => q.texts
  | .and qs => Query.textsList qs
  | .or qs => Query.textsList qs
  | .executorEqual e => [e]
  | .dataEquals d => d.texts
  | .metadataEquals m => m.texts
  | .tagsAllOf tags => tags
  | .tagsOneOf tags => tags
  | _ => []
/-- Helper of `Query.texts`. -/
def Query.textsList : List Query → List String
  | [] => []
  | q :: qs => q.texts ++ Query.textsList qs
end

/-- All texts a call hands over. -/
def Op.texts : Op → List String
  | .retryable _ _ e => [e.errorType.toText, e.message]
  | .discarded _ e => [e.errorType.toText, e.message]
  | .cancelled _ e => [e.errorType.toText, e.message]
  | .update j => j.data.texts ++ j.metadata.texts ++ j.tags
  | .prune ⟨_, _, .except es⟩ => es
  | .prune ⟨_, _, .only es⟩ => es
  | .query q => q.texts
  | .load x => [x]
  | _ => []

/-- One of the texts contains U+0000. -/
def Unstorable (texts : List String) : Prop := ∃ s ∈ texts, '\x00' ∈ s.toList

/-! ## The check is right -/

private theorem nul_iff (s : String) : nul s = true ↔ '\x00' ∈ s.toList := by
  simp only [nul, List.any_eq_true, beq_iff_eq]
  constructor
  · rintro ⟨c, hc, h⟩
    have : c = '\x00' := Char.ext h
    exact this ▸ hc
  · intro h; exact ⟨_, h, rfl⟩

private theorem unstorable_append (l r : List String) : Unstorable (l ++ r) ↔ Unstorable l ∨ Unstorable r := by
  simp only [Unstorable, List.mem_append, or_and_right, exists_or]

private theorem unstorable_cons (s : String) (l : List String) : Unstorable (s :: l) ↔ nul s = true ∨ Unstorable l := by
  simp [Unstorable, nul_iff]

private theorem unstorable_any (l : List String) : l.any nul = true ↔ Unstorable l := by
  simp [Unstorable, nul_iff]

mutual
private theorem json_nul : (j : Json) → (j.hasNul = true ↔ Unstorable j.texts)
  | .null => by simp [Json.hasNul, Json.texts, Unstorable]
  | .bool b => by simp [Json.hasNul, Json.texts, Unstorable]
  | .num n => by simp [Json.hasNul, Json.texts, Unstorable]
  | .str s => by simp [Json.hasNul, Json.texts, Unstorable, nul_iff]
  | .arr xs => by simp only [Json.hasNul, Json.texts]; exact json_nul_list xs
  | .obj fs => by simp only [Json.hasNul, Json.texts]; exact json_nul_fields fs
private theorem json_nul_list : (xs : List Json) → (Json.hasNulList xs = true ↔ Unstorable (Json.textsList xs))
  | [] => by simp [Json.hasNulList, Json.textsList, Unstorable]
  | x :: xs => by
    simp only [Json.hasNulList, Json.textsList, Bool.or_eq_true, unstorable_append, json_nul x, json_nul_list xs]
private theorem json_nul_fields : (fs : List (String × Json)) → (Json.hasNulFields fs = true ↔ Unstorable (Json.textsFields fs))
  | [] => by simp [Json.hasNulFields, Json.textsFields, Unstorable]
  | (k, x) :: fs => by
    simp only [Json.hasNulFields, Json.textsFields, Bool.or_eq_true, List.cons_append, unstorable_append, unstorable_cons, json_nul x,
      json_nul_fields fs, or_assoc]
end

private theorem enq_nul (e : EnqueuableJob) : e.hasNul = true ↔ Unstorable e.texts := by
  simp only [EnqueuableJob.hasNul, EnqueuableJob.texts, Bool.or_eq_true, List.cons_append, unstorable_append, unstorable_cons, json_nul,
    unstorable_any, or_assoc]

mutual
private theorem query_nul : (q : Query) → (q.hasNul = true ↔ Unstorable q.texts)
  | .not q => by simp only [Query.hasNul, Query.texts]; exact query_nul q
  | .and qs => by simp only [Query.hasNul, Query.texts]; exact query_nul_list qs
  | .or qs => by simp only [Query.hasNul, Query.texts]; exact query_nul_list qs
  | .executorEqual e => by simp [Query.hasNul, Query.texts, Unstorable, nul_iff]
  | .dataEquals d => by simp only [Query.hasNul, Query.texts, json_nul]
  | .metadataEquals d => by simp only [Query.hasNul, Query.texts, json_nul]
  | .tagsAllOf ts => by simp only [Query.hasNul, Query.texts, unstorable_any]
  | .tagsOneOf ts => by simp only [Query.hasNul, Query.texts, unstorable_any]
  | .idEquals _ => by simp [Query.hasNul, Query.texts, Unstorable]
  | .idIn _ => by simp [Query.hasNul, Query.texts, Unstorable]
  | .statusEqual _ => by simp [Query.hasNul, Query.texts, Unstorable]
  | .scheduledAtBefore _ => by simp [Query.hasNul, Query.texts, Unstorable]
  | .scheduledAtAfter _ => by simp [Query.hasNul, Query.texts, Unstorable]
  | .scheduledAtEqual _ => by simp [Query.hasNul, Query.texts, Unstorable]
private theorem query_nul_list : (qs : List Query) → (Query.hasNulList qs = true ↔ Unstorable (Query.textsList qs))
  | [] => by simp [Query.hasNulList, Query.textsList, Unstorable]
  | q :: qs => by
    simp only [Query.hasNulList, Query.textsList, Bool.or_eq_true, unstorable_append, query_nul q, query_nul_list qs]
end

private theorem op_nul (o : Op) : o.hasNul = true ↔ Unstorable o.texts := by
  cases o with
  | retryable id n e => simp [Op.hasNul, Op.texts, ExecError.hasNul, Unstorable, nul_iff]
  | discarded id e => simp [Op.hasNul, Op.texts, ExecError.hasNul, Unstorable, nul_iff]
  | cancelled id e => simp [Op.hasNul, Op.texts, ExecError.hasNul, Unstorable, nul_iff]
  | update j => simp only [Op.hasNul, Op.texts, Bool.or_eq_true, unstorable_append, json_nul, unstorable_any]
  | prune spec =>
    obtain ⟨st, b, es⟩ := spec
    cases es <;> simp only [Op.hasNul, Op.texts, unstorable_any]
  | query q => simp only [Op.hasNul, Op.texts, query_nul]
  | load x => simp [Op.hasNul, Op.texts, Unstorable, nul_iff]
  | _ => simp [Op.hasNul, Op.texts, Unstorable]

/-! ## C116 -/

/-- **C116 fails.** A job whose data is a text with U+0000 is stored in memory and refused by
Postgres. -/
theorem C116_violated (hash : HashFn) (defs : List Runner) (tie : Int → Nat) (now : Time) :
    ∃ e : EnqueuableJob, (∀ m : Mem, ∃ k, (m.enqueue now e).2.jobs = m.jobs ++ [k] ∧ k.job.data = e.data) ∧
      ∀ s : PgSys, (s.stepText hash defs tie now (.db (.plain e))).2 = s := by
  refine ⟨{ sampleEnq with data := .str "\x00" }, fun m => ?_, fun s => ?_⟩
  · refine ⟨({ sampleEnq with data := .str "\x00" } : EnqueuableJob).intoJob now (wrapI32 m.allocated), ?_, rfl⟩
    simp only [Mem.enqueue, sampleEnq, Mem.insertNew, Mem.notify]
    split <;> rfl
  have : ({ sampleEnq with data := .str "\x00" } : EnqueuableJob).hasNul = true := (enq_nul _).mpr ⟨"\x00", by decide, by decide +kernel⟩
  simp only [PgSys.stepText, PgConc.refusesText, this, if_true]

/-- **C116, exactly.** As long as ids last, a plain enqueue on Postgres is refused exactly if
the executor, the data, the metadata or a tag contains U+0000; a refused call changes
nothing, an accepted one adds one job with these values. -/
theorem C116_exactly (hash : HashFn) (defs : List Runner) (tie : Int → Nat) (now : Time) (s : PgSys) (e : EnqueuableJob)
    (hseq : s.conc.pg.seq < 2147483647) :
    (Unstorable e.texts → (s.stepText hash defs tie now (.db (.plain e))).2 = s) ∧
    (¬ Unstorable e.texts → ∃ row, (s.stepText hash defs tie now (.db (.plain e))).2.conc.pg.rows = s.conc.pg.rows ++ [row] ∧
      row.executor = e.executor ∧ row.data = e.data ∧ row.metadata = e.metadata ∧ row.tags = e.tags) := by
  constructor
  · intro h
    simp only [PgSys.stepText, PgConc.refusesText, (enq_nul e).mpr h, if_true]
  · intro h
    have h0 : e.hasNul = false := by
      cases hn : e.hasNul with
      | false => rfl
      | true => exact absurd ((enq_nul e).mp hn) h
    have h1 : ¬ s.conc.pg.seq ≥ 2147483647 := by omega
    simp only [PgSys.stepText, PgConc.refusesText, h0, PgSys.step, PgConc.step, h1, if_false, Bool.false_eq_true]
    exact ⟨_, rfl, rfl, rfl, rfl, rfl⟩

/-- **C116, the other calls.** A call of one statement is refused, and then changes nothing,
exactly if one of its texts contains U+0000; otherwise it does what it does without this
check. -/
theorem C116_calls (hash : HashFn) (defs : List Runner) (tie : Int → Nat) (now : Time) (s : PgSys) (o : Op) :
    (Unstorable o.texts → (s.stepText hash defs tie now (.db (.stmt o))).2 = s) ∧
    (¬ Unstorable o.texts → s.stepText hash defs tie now (.db (.stmt o)) = s.step hash defs tie now (.db (.stmt o))) := by
  constructor
  · intro h
    simp only [PgSys.stepText, PgConc.refusesText, (op_nul o).mpr h, if_true]
  · intro h
    have h0 : o.hasNul = false := by
      cases hn : o.hasNul with
      | false => rfl
      | true => exact absurd ((op_nul o).mp hn) h
    simp only [PgSys.stepText, PgConc.refusesText, h0, Bool.false_eq_true, if_false]

/-- **C116, unique jobs.** The last statement of an enqueue with criteria. If no duplicate was
found, the `INSERT` is refused exactly if a text of the job contains U+0000. If one was found
that is to be replaced, the `UPDATE` is refused exactly if a value it writes has such a text:
the data if the data is replaced, the metadata if the metadata is. What is kept is not sent. -/
theorem C116_unique (hash : HashFn) (defs : List Runner) (tie : Int → Nat) (now : Time) (s : PgSys) (i : Nat) (e : EnqueuableJob)
    (uc : Criteria) :
    (∀ t, s.conc.sessions[i]? = some (.missing e uc t) →
      (Unstorable e.texts → s.stepText hash defs tie now (.db (.advance i)) = (.nothing, s)) ∧
      (¬ Unstorable e.texts → s.stepText hash defs tie now (.db (.advance i)) = s.step hash defs tie now (.db (.advance i)))) ∧
    (∀ id status rep, s.conc.sessions[i]? = some (.found e uc id status) → uc.onConflict = .replace rep → status ∈ rep.forStatuses →
      (((rep.data = true ∧ Unstorable e.data.texts) ∨ (rep.metadata = true ∧ Unstorable e.metadata.texts)) →
        s.stepText hash defs tie now (.db (.advance i)) = (.nothing, s)) ∧
      (¬ ((rep.data = true ∧ Unstorable e.data.texts) ∨ (rep.metadata = true ∧ Unstorable e.metadata.texts)) →
        s.stepText hash defs tie now (.db (.advance i)) = s.step hash defs tie now (.db (.advance i)))) ∧
    (∀ id status, s.conc.sessions[i]? = some (.found e uc id status) →
      (uc.onConflict = .doNothing ∨ ∃ rep, uc.onConflict = .replace rep ∧ status ∉ rep.forStatuses) →
        s.stepText hash defs tie now (.db (.advance i)) = s.step hash defs tie now (.db (.advance i))) := by
  have iff : ∀ {b : Bool} {p : Prop} {x y : PSEv × PgSys}, (b = true ↔ p) →
      (p → (if b = true then x else y) = x) ∧ (¬ p → (if b = true then x else y) = y) :=
    fun h => ⟨fun hp => if_pos (h.mpr hp), fun hp => if_neg (fun hb => hp (h.mp hb))⟩
  refine ⟨fun t h => ?_, fun id status rep h hr hm => ?_, fun id status h hc => ?_⟩
  · simp only [PgSys.stepText, PgConc.refusesText, h]
    exact iff (enq_nul e)
  · simp only [PgSys.stepText, PgConc.refusesText, h, hr]
    refine iff ?_
    simp [hm, json_nul]
  · simp only [PgSys.stepText, PgConc.refusesText, h]
    rcases hc with hc | ⟨rep, hc, hm⟩
    · simp [hc]
    · simp [hc, hm]

/-- **C116, executors.** A hand-out is refused exactly if the name of the executor contains U+0000, and so is, with a criterion on the executor, the
search for a duplicate: an executor with such a name gets no jobs on Postgres, and no unique job of it is stored. -/
theorem C116_executors (hash : HashFn) (defs : List Runner) (tie : Int → Nat) (now : Time) (s : PgSys) (i : Nat) :
    (∀ x, s.conc.sessions[i]? = some (.handout x) →
      (Unstorable [x] → s.stepText hash defs tie now (.db (.advance i)) = (.nothing, s)) ∧
      (¬ Unstorable [x] → s.stepText hash defs tie now (.db (.advance i)) = s.step hash defs tie now (.db (.advance i)))) ∧
    (∀ e uc t, s.conc.sessions[i]? = some (.holding e uc t) →
      (uc.executor = true ∧ Unstorable [e.executor] → s.stepText hash defs tie now (.db (.advance i)) = (.nothing, s)) ∧
      (¬ (uc.executor = true ∧ Unstorable [e.executor]) →
        s.stepText hash defs tie now (.db (.advance i)) = s.step hash defs tie now (.db (.advance i)))) := by
  have iff : ∀ {b : Bool} {p : Prop} {x y : PSEv × PgSys}, (b = true ↔ p) →
      (p → (if b = true then x else y) = x) ∧ (¬ p → (if b = true then x else y) = y) :=
    fun h => ⟨fun hp => if_pos (h.mpr hp), fun hp => if_neg (fun hb => hp (h.mp hb))⟩
  refine ⟨fun x h => ?_, fun e uc t h => ?_⟩
  · simp only [PgSys.stepText, PgConc.refusesText, h]
    exact iff (by simp [Unstorable, nul_iff])
  · simp only [PgSys.stepText, PgConc.refusesText, h]
    exact iff (by simp [Unstorable, nul_iff])

/-- All texts a client hands over with an action. -/
def PgAct.texts : PgAct → List String
  | .handout x => [x]
  | .unique e _ => e.texts
  | .plain e => e.texts
  | .stmt o => o.texts
  | .advance _ | .abort _ => []

/-- All texts a session may still send. -/
private def Session.texts : Session → List String
  | .handout x => [x]
  | .unique e _ _ | .holding e _ _ | .missing e _ _ | .inserted e _ _ | .found e _ _ _ | .replacing e _ _ _ => e.texts
  | .looking _ _ _ | .locked _ _ _ | .done _ => []

private theorem texts_advance (hash : HashFn) (tie : Int → Nat) (now : Time) (c : PgConc) (ss : Session) {x : String}
    (h : x ∈ (c.advance hash tie now ss).2.1.texts) : x ∈ ss.texts := by
  cases ss <;> simp only [PgConc.advance] at h <;> (repeat' split at h) <;> first | exact h | cases h

private theorem texts_step (hash : HashFn) (tie : Int → Nat) (now : Time) (c : PgConc) (a : PgAct) (hc : ∀ ss ∈ c.sessions, ¬ Unstorable ss.texts)
    (ha : ¬ Unstorable a.texts) : ∀ ss ∈ (c.step hash tie now a).2.sessions, ¬ Unstorable ss.texts := by
  intro ss hss
  cases a with
  | handout x =>
    rcases List.mem_append.mp hss with h | h
    · exact hc ss h
    · rw [List.mem_singleton] at h; subst h; exact ha
  | unique e uc =>
    rcases List.mem_append.mp hss with h | h
    · exact hc ss h
    · rw [List.mem_singleton] at h; subst h; exact ha
  | advance i =>
    simp only [PgConc.step] at hss
    split at hss
    · exact hc ss hss
    · rename_i s hs
      rcases List.mem_or_eq_of_mem_set hss with h | h
      · exact hc ss h
      · subst h
        rintro ⟨x, h1, h2⟩
        exact hc s (List.mem_of_getElem? hs) ⟨x, texts_advance _ _ _ _ _ h1, h2⟩
  | abort i =>
    simp only [PgConc.step] at hss
    split at hss
    · exact hc ss hss
    · exact hc ss hss
    · rcases List.mem_or_eq_of_mem_set hss with h | h
      · exact hc ss h
      · subst h; rintro ⟨x, h1, h2⟩; cases h1
  | plain e =>
    simp only [PgConc.step] at hss
    split at hss <;> exact hc ss hss
  | stmt o => cases o <;> simp only [PgConc.step] at hss <;> first | exact hc ss hss | (split at hss <;> exact hc ss hss)

private theorem not_refused (c : PgConc) (a : PgAct) (hc : ∀ ss ∈ c.sessions, ¬ Unstorable ss.texts) (ha : ¬ Unstorable a.texts) :
    c.refusesText a = false := by
  have no : ∀ {b : Bool} {p : Prop}, (b = true ↔ p) → ¬ p → b = false := fun h hp => Bool.eq_false_iff.mpr fun hb => hp (h.mp hb)
  cases a with
  | plain e => exact no (enq_nul e) ha
  | stmt o => exact no (op_nul o) ha
  | advance i =>
    simp only [PgConc.refusesText]
    split
    · rename_i x h
      exact no (nul_iff x) fun hx => hc _ (List.mem_of_getElem? h) ⟨x, by simp [Session.texts], hx⟩
    · rename_i e uc t h
      have := no (nul_iff e.executor) fun hx => hc _ (List.mem_of_getElem? h) ⟨_, by simp [Session.texts, EnqueuableJob.texts], hx⟩
      simp [this]
    · rename_i e uc t h
      exact no (enq_nul e) (hc _ (List.mem_of_getElem? h))
    · rename_i e uc id st h
      have h1 := no (json_nul e.data) fun ⟨x, h1, h2⟩ => hc _ (List.mem_of_getElem? h) ⟨x, by simp [Session.texts, EnqueuableJob.texts, h1], h2⟩
      have h2 := no (json_nul e.metadata) fun ⟨x, h1, h2⟩ => hc _ (List.mem_of_getElem? h) ⟨x, by simp [Session.texts, EnqueuableJob.texts, h1], h2⟩
      split
      · simp [h1, h2]
      · rfl
    · rfl
  | _ => rfl

/-- **C116, nothing else is refused.** As long as no text that any client hands over contains U+0000, nothing is
refused: opening a session, taking its locks, looking for a duplicate, committing and giving up included. -/
theorem C116_storable (hash : HashFn) (defs : List Runner) (as : List TPSAct) (rs : List PgRunner)
    (h : ∀ a ∈ as, ∃ b, a.act = .db b ∧ ¬ Unstorable b.texts) :
    ({ conc := {}, runners := rs } : PgSys).runText hash defs as = ({ conc := {}, runners := rs } : PgSys).run hash defs as ∧
    ({ conc := {}, runners := rs } : PgSys).traceText hash defs as = ({ conc := {}, runners := rs } : PgSys).trace hash defs as := by
  suffices g : ∀ s : PgSys, (∀ ss ∈ s.conc.sessions, ¬ Unstorable ss.texts) →
      s.runText hash defs as = s.run hash defs as ∧ s.traceText hash defs as = s.trace hash defs as by
    exact g _ (fun _ h => by cases h)
  induction as with
  | nil => exact fun s _ => ⟨rfl, rfl⟩
  | cons a as ih =>
    intro s hs
    obtain ⟨now, tie, act⟩ := a
    obtain ⟨b, e, hb⟩ := h _ List.mem_cons_self
    simp only at e
    subst e
    have h0 : s.stepText hash defs tie now (.db b) = s.step hash defs tie now (.db b) := by
      simp only [PgSys.stepText, not_refused s.conc b hs hb, Bool.false_eq_true, if_false]
    have h1 : ∀ ss ∈ (s.step hash defs tie now (.db b)).2.conc.sessions, ¬ Unstorable ss.texts := by
      simp only [PgSys.step]
      exact texts_step hash tie now s.conc b hs hb
    obtain ⟨g1, g2⟩ := ih (fun a ha => h a (List.mem_cons_of_mem _ ha)) _ h1
    simp only [PgSys.runText, PgSys.traceText, PgSys.run, PgSys.trace, h0, g1, g2, and_self]

/-- The texts of a plain and a unique enqueue, a hand-out and a report. -/
example : ∀ b ∈ [PgAct.plain sampleEnq, .unique sampleEnq { executor := true, statuses := [.scheduled] }, .handout "mail", .advance 0, .stmt (.discarded 1 sampleErr), .abort 1],
    ¬ Unstorable b.texts := by
  unfold Unstorable; decide +kernel

/-- A hand-out for "mail" goes on, one for a name with U+0000 does not. -/
example :
    let run (x : String) := PgSys.runText sampleHash [] { conc := {}, runners := [] }
      ([psAct 0 (.db (.plain sampleEnq)), psAct 0 (.db (.handout x))] ++ List.replicate 3 (psAct 1 (.db (.advance 0))))
    ((run "mail").conc.pg.rows.map (·.status)) = [.executing] ∧
    (match (run "mail").conc.sessions with | [.done (.job (some _))] => true | _ => false) = true ∧
    (match (run "\x00").conc.sessions with | [.handout _] => true | _ => false) = true := by
  decide +kernel

/-- A duplicate whose metadata alone is replaced: the data of the new job may contain U+0000. -/
example :
    let uc : Criteria := { executor := true, statuses := [.scheduled], onConflict := .replace { metadata := true, forStatuses := [.scheduled] } }
    let run (e : EnqueuableJob) := PgSys.runText sampleHash [] { conc := {}, runners := [] }
      ([psAct 0 (.db (.plain sampleEnq)), psAct 0 (.db (.unique e uc))] ++ List.replicate 5 (psAct 1 (.db (.advance 0))))
    ((run { sampleEnq with data := .str "\x00", metadata := .num 3 }).conc.pg.rows.map (·.metadata)) = [.num 3] ∧
    ((run { sampleEnq with metadata := .str "\x00" }).conc.pg.rows.map (·.metadata)) = [sampleEnq.metadata] := by
  decide +kernel

/-- Metadata with a field is accepted unless a field name has the character. -/
example : ¬ Unstorable ({ sampleEnq with metadata := .obj [("a", .arr [.null, .str "b"]), ("c", .num 1)] } : EnqueuableJob).texts ∧
    Unstorable ({ sampleEnq with metadata := .obj [("a", .arr [.null, .str "b"]), ("\x00", .num 1)] } : EnqueuableJob).texts ∧
    Unstorable (Op.query (.and [.executorEqual "mail", .not (.tagsOneOf ["x", "y\x00"])])).texts ∧
    ¬ Unstorable (Op.cancelled 1 sampleErr).texts := by
  refine ⟨?_, ?_, ?_, ?_⟩ <;> unfold Unstorable <;> decide +kernel

end Rexecutor
