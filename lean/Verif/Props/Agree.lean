import Verif.Spec.Agree
import Verif.Spec.Pg
import Verif.Spec.PgQuery
import Verif.Spec.Samples
import Verif.Lemmas.Pg
import Verif.Lemmas.ListLemmas

/-! # C50, C52, C53: Postgres and the in-memory backend -/

namespace Rexecutor

/-! ## Reading rows -/

theorem agreeDecode {r : Row} {j : Job} (h : r.decode = some j) :
    ∃ es, decodeErrors r.errors = some es ∧ j =
      { id := r.id, status := r.status, executor := r.executor, data := r.data, metadata := r.metadata,
        attempt := r.attempt, maxAttempts := r.maxAttempts, priority := r.priority, tags := r.tags, errors := es,
        insertedAt := r.insertedAt, scheduledAt := r.scheduledAt, attemptedAt := r.attemptedAt,
        completedAt := r.completedAt, cancelledAt := r.cancelledAt, discardedAt := r.discardedAt } := by
  unfold Row.decode at h
  split at h
  · simp at h
  · rename_i es he
    exact ⟨es, he, (Option.some.inj h).symm⟩

private theorem decodeErrors_append {es : List RawError} {xs : List JobError} {e : RawError} {x : JobError}
    (h : decodeErrors es = some xs) (he : e.decode = some x) : decodeErrors (es ++ [e]) = some (xs ++ [x]) := by
  induction es generalizing xs with
  | nil =>
    simp only [decodeErrors, Option.some.injEq] at h
    subst h
    simp [decodeErrors, he]
  | cons y ys ih =>
    simp only [decodeErrors] at h
    split at h
    · rename_i a as ha has
      simp only [Option.some.injEq] at h
      subst h
      simp [decodeErrors, ha, ih has]
    · simp at h

private theorem ofText_toText {t : ErrorType} (h : t.Plain) : ErrorType.ofText t.toText = t := by
  cases t with
  | panic => rfl
  | timeout => rfl
  | cancelled => rfl
  | other s =>
    have h1 : s ≠ "panic" := fun e => h.1 (by rw [e])
    have h2 : s ≠ "timeout" := fun e => h.2.1 (by rw [e])
    have h3 : s ≠ "cancelled" := fun e => h.2.2 (by rw [e])
    simp [ErrorType.toText, ErrorType.ofText, h1, h2, h3]

private theorem toRaw_decode {now : Time} {e : ExecError} {a : Int} (hn : 1000 ∣ now) (he : e.errorType.Plain)
    (h0 : 0 ≤ a) (h1 : a < 65536) : (e.toRaw now a).decode = some (e.intoJobError now (asU16 a)) := by
  have ha : toU16? a = some (asU16 a) := by
    rw [toU16?, if_pos ⟨h0, h1⟩, asU16, Int.emod_eq_of_lt h0 h1]
  simp [RawError.decode, ExecError.toRaw, ha, ExecError.intoJobError, ofText_toText he, pgTime_whole hn]

/-! ## C53 -/

/-- **C53, partial** (missing: error types named like a built-in one, attempts that do
not fit in 16 bits, times between two microseconds; see `C53_violated`). For every row
that can be read: after a retry, discard or cancel it is read with the same errors and
one more, which has the row's attempt, the given type and message and the time of the
call. -/
theorem C53_read_back_partial (now next : Time) (e : ExecError) (r : Row) (j : Job) (h : r.decode = some j)
    (hn : 1000 ∣ now) (he : e.errorType.Plain) (h0 : 0 ≤ r.attempt) (h1 : r.attempt < 65536) (f : Row → Row)
    (hf : f = Row.markRetryable now next e ∨ f = Row.markDiscarded now e ∨ f = Row.markCancelled now e) :
    ∃ j', (f r).decode = some j' ∧ j'.errors = j.errors ++
      [{ attempt := r.attempt.toNat, errorType := e.errorType, details := e.message, recordedAt := now }] := by
  obtain ⟨es, he', rfl⟩ := agreeDecode h
  have key := decodeErrors_append he' (toRaw_decode hn he h0 h1)
  have ha : asU16 r.attempt = r.attempt.toNat := by rw [asU16, Int.emod_eq_of_lt h0 h1]
  rw [ha] at key
  rcases hf with rfl | rfl | rfl
  · exact ⟨_, by simp only [Row.decode, Row.markRetryable, key]; rfl, rfl⟩
  · exact ⟨_, by simp only [Row.decode, Row.markDiscarded, key]; rfl, rfl⟩
  · exact ⟨_, by simp only [Row.decode, Row.markCancelled, key]; rfl, rfl⟩

example : ((Row.markRetryable 2000 9000 sampleErr { sampleRow 1 with attempt := 3 }).decode.map (·.errors)) =
    some [{ attempt := 3, errorType := .other "oops", details := "it broke", recordedAt := 2000 }] := by decide

/-- **C53 fails** for every row that can be read and every error of one of the types
`Other("panic")`, `Other("timeout")`, `Other("cancelled")`: it comes back as the
built-in type. -/
theorem C53_violated (now next : Time) (name message : String) (r : Row) (j : Job) (h : r.decode = some j)
    (hname : name = "panic" ∨ name = "timeout" ∨ name = "cancelled") (h0 : 0 ≤ r.attempt) (h1 : r.attempt < 65536) :
    ∃ j' err, (r.markRetryable now next { errorType := .other name, message := message }).decode = some j' ∧
      j'.errors = j.errors ++ [err] ∧ err.errorType ≠ .other name := by
  obtain ⟨es, he', rfl⟩ := agreeDecode h
  have ha : toU16? r.attempt = some r.attempt.toNat := by rw [toU16?, if_pos ⟨h0, h1⟩]
  have hd : ((⟨.other name, message⟩ : ExecError).toRaw now r.attempt).decode =
      some ⟨r.attempt.toNat, ErrorType.ofText name, message, pgTime now⟩ := by
    simp [RawError.decode, ExecError.toRaw, ha, ErrorType.toText]
  have key := decodeErrors_append he' hd
  refine ⟨_, _, by simp only [Row.decode, Row.markRetryable, key]; rfl, rfl, ?_⟩
  · rcases hname with rfl | rfl | rfl <;> simp [ErrorType.ofText]

/-- **C53 fails** for attempts that do not fit in 16 bits, in a worse way: the row can
no longer be read at all. A job that is snoozed before its first attempt has attempt
-1; the failure recorded then makes every query that finds the job an error. -/
theorem C53_unreadable_violated :
    let p := Pg.runApi sampleHash (fun _ => Int.toNat) {}
      [⟨0, .enqueue sampleEnq⟩, ⟨0, .op (.snoozed 1 0)⟩, ⟨0, .op (.cancelled 1 sampleErr)⟩]
    p.rows.map (·.errors.map (·.attempt)) = [[-1]] ∧ p.rows.map Row.decode = [none] ∧
      (p.step Int.toNat 0 (.query (.executorEqual "mail"))).1 = .err .encodeDecode := by
  decide

private theorem decodeErrors_last {es : List RawError} {xs : List JobError} {e : RawError} (h : decodeErrors es = some xs) :
    decodeErrors (es ++ [e]) = e.decode.map fun x => xs ++ [x] := by
  induction es generalizing xs with
  | nil =>
    simp only [decodeErrors, Option.some.injEq] at h
    subst h
    cases hd : e.decode <;> simp [decodeErrors, hd]
  | cons y ys ih =>
    simp only [decodeErrors] at h
    split at h
    · rename_i a as ha has
      simp only [Option.some.injEq] at h
      subst h
      cases hd : e.decode <;> simp [decodeErrors, ha, ih has, hd]
    · simp at h

private theorem pgTime_eq_iff {t : Time} : pgTime t = t ↔ 1000 ∣ t := by
  refine ⟨fun h => ?_, pgTime_whole⟩
  have hk : (1000 : Int) ∣ epoch2000 := by decide
  have h1 : (1000 : Int) ∣ (t - epoch2000).tmod 1000 → (1000 : Int) ∣ t := by
    intro h
    have := Int.mul_tdiv_add_tmod (t - epoch2000) 1000
    generalize epoch2000 = k at *
    generalize (t - k).tmod 1000 = m at *
    generalize (t - k).tdiv 1000 = d at *
    simp only [Time] at *
    omega
  refine h1 ?_
  simp only [pgTime] at h
  generalize (t - epoch2000).tmod 1000 = m at *
  generalize epoch2000 = k at *
  simp only [Time] at *
  omega

/-- **C53, exactly when it holds.** For every row that can be read and every error: after a
retry, discard or cancel the row can still be read exactly if its attempt fits 16 bits; and
then the errors read are the old ones and the one recorded, unchanged, exactly if its type is
not named like a built-in one and the call was made at a whole microsecond. -/
theorem C53_exactly (now next : Time) (e : ExecError) (r : Row) (j : Job) (h : r.decode = some j) (f : Row → Row)
    (hf : f = Row.markRetryable now next e ∨ f = Row.markDiscarded now e ∨ f = Row.markCancelled now e) :
    ((∃ j', (f r).decode = some j') ↔ 0 ≤ r.attempt ∧ r.attempt < 65536) ∧
    ∀ j', (f r).decode = some j' →
      (j'.errors = j.errors ++
          [{ attempt := r.attempt.toNat, errorType := e.errorType, details := e.message, recordedAt := now }] ↔
        e.errorType.Plain ∧ 1000 ∣ now) := by
  obtain ⟨es, he', rfl⟩ := agreeDecode h
  have herr : (f r).errors = r.errors ++ [e.toRaw now r.attempt] := by
    rcases hf with rfl | rfl | rfl <;> rfl
  have key : decodeErrors (f r).errors = (e.toRaw now r.attempt).decode.map fun x => es ++ [x] := by
    rw [herr]; exact decodeErrors_last he'
  have hdec : (e.toRaw now r.attempt).decode = if 0 ≤ r.attempt ∧ r.attempt < 65536 then
      some ⟨r.attempt.toNat, ErrorType.ofText e.errorType.toText, e.message, pgTime now⟩ else none := by
    by_cases hr : 0 ≤ r.attempt ∧ r.attempt < 65536
    · have ht : toU16? r.attempt = some r.attempt.toNat := if_pos hr
      rw [if_pos hr]
      simp only [RawError.decode, ExecError.toRaw, ht]
    · have ht : toU16? r.attempt = none := if_neg hr
      rw [if_neg hr]
      simp only [RawError.decode, ExecError.toRaw, ht]
  by_cases hr : 0 ≤ r.attempt ∧ r.attempt < 65536
  · rw [hdec, if_pos hr] at key
    simp only [Option.map_some] at key
    refine ⟨⟨fun _ => hr, fun _ => ⟨_, by simp only [Row.decode, key]; rfl⟩⟩, ?_⟩
    intro j' hj'
    simp only [Row.decode, key, Option.some.injEq] at hj'
    subst hj'
    simp only [List.append_cancel_left_eq, List.cons.injEq, JobError.mk.injEq, and_true, true_and]
    rw [pgTime_eq_iff]
    refine and_congr_left' ?_
    refine ⟨fun ht => ?_, ofText_toText⟩
    unfold ErrorType.Plain
    refine ⟨?_, ?_, ?_⟩ <;> (intro hc; rw [hc] at ht; simp [ErrorType.toText, ErrorType.ofText] at ht)
  · rw [hdec, if_neg hr] at key
    simp only [Option.map_none] at key
    have hnone : (f r).decode = none := by simp only [Row.decode, key]
    rw [hnone]
    exact ⟨⟨fun ⟨_, hx⟩ => (nomatch hx), fun hx => (hr hx).elim⟩, fun _ hx => (nomatch hx)⟩

example : (Row.markRetryable 2000 9000 sampleErr { sampleRow 1 with attempt := 3 }).decode.isSome = true ∧
    (Row.markRetryable 2000 9000 sampleErr { sampleRow 1 with attempt := 65536 }).decode = none ∧
    ((Row.markRetryable 2500 9000 sampleErr { sampleRow 1 with attempt := 3 }).decode.map (·.errors)) =
      some [{ attempt := 3, errorType := .other "oops", details := "it broke", recordedAt := 3000 }] := by decide

/-! ## C52 -/

/-- **C52, Postgres.** For every table with distinct ids: updating a job that is there
changes exactly that row, and there exactly data, metadata, max_attempts, scheduled time,
priority and tags, to the given values; an unknown id is reported and changes nothing. -/
theorem C52_postgres (tie : Int → Nat) (now : Time) (j : Job) (p : Pg) (hn : (p.rows.map (·.id)).Nodup) :
    ((∃ r ∈ p.rows, r.id = j.id) →
      (p.step tie now (.update j)).1 = .unit ∧ (p.step tie now (.update j)).2.seq = p.seq ∧
      ∀ i : Nat, (p.step tie now (.update j)).2.rows[i]? = p.rows[i]?.map fun r =>
        if r.id = j.id then
          { r with data := j.data, metadata := j.metadata, maxAttempts := j.maxAttempts,
                   scheduledAt := pgTime j.scheduledAt, priority := j.priority, tags := j.tags }
        else r) ∧
    ((∀ r ∈ p.rows, r.id ≠ j.id) → p.step tie now (.update j) = (.err (.jobNotFound j.id), p)) := by
  rcases onRow_cases j.id (Row.update j) p hn with ⟨h1, h2⟩ | ⟨h1, h2⟩
  · refine ⟨fun ⟨r, hr, he⟩ => (h1 (mem_rowIds.mpr ⟨r, hr, he⟩)).elim, fun _ => h2⟩
  · obtain ⟨r, hr, he⟩ := mem_rowIds.mp h1
    refine ⟨fun _ => ?_, fun h => (h r hr he).elim⟩
    have hs : p.step tie now (.update j) = (.unit, { p with rows := (updateRows j.id (Row.update j) p.rows).1 }) := h2
    rw [hs]
    refine ⟨rfl, rfl, ?_⟩
    intro i
    simp only [updateRows, List.getElem?_map]
    cases p.rows[i]? with
    | none => rfl
    | some q => simp only [Option.map_some]; rfl

example : ((⟨[{ sampleRow 1 with status := .executing, attempt := 2 }, sampleRow 2], 2⟩ : Pg).step Int.toNat 5
      (.update { sampleJob 1 with priority := 7, tags := ["z"], status := .complete, attempt := 0 })).2.rows.map
      (fun r => (r.id, r.status, r.attempt, r.priority, r.tags)) =
    [(1, .executing, 2, 7, ["z"]), (2, .scheduled, 0, 0, ["a"])] := by decide

/-! ## C50 -/

theorem agreeDecodeId {r : Row} {j : Job} (h : r.decode = some j) : r.id = j.id := by
  obtain ⟨es, -, rfl⟩ := agreeDecode h; rfl

theorem agreeMapped {rows : List Row} {ks : List KeyedJob} {f : KeyedJob → Option Job}
    (h : rows.map Row.decode = ks.map f) {l : List KeyedJob} {k : KeyedJob} {r : List KeyedJob} (hk : ks = l ++ k :: r) :
    ∃ rl row rr, rows = rl ++ row :: rr ∧ rl.map Row.decode = l.map f ∧ row.decode = f k ∧
      rr.map Row.decode = r.map f := by
  subst hk
  rw [List.map_append, List.map_cons] at h
  obtain ⟨rl, rest, h1, h2, h3⟩ := List.map_eq_append_iff.mp h
  obtain ⟨row, rr, h4, h5, h6⟩ := List.map_eq_cons_iff.mp h3
  exact ⟨rl, row, rr, by rw [h1, h4], h2, h5, h6⟩

theorem agreeMem {rows : List Row} {ks : List KeyedJob} (h : rows.map Row.decode = ks.map fun k => some k.job.numbered)
    {row : Row} (hr : row ∈ rows) : ∃ k ∈ ks, row.decode = some k.job.numbered := by
  have : row.decode ∈ rows.map Row.decode := List.mem_map_of_mem hr
  rw [h] at this
  obtain ⟨k, hk, he⟩ := List.mem_map.mp this
  exact ⟨k, hk, he.symm⟩

theorem agreeIds {rows : List Row} {ks : List KeyedJob} (h : rows.map Row.decode = ks.map fun k => some k.job.numbered) :
    rowIds rows = ks.map fun k => k.job.id + 1 := by
  induction rows generalizing ks with
  | nil =>
    cases ks with
    | nil => rfl
    | cons k ks => simp at h
  | cons r rows ih =>
    cases ks with
    | nil => simp at h
    | cons k ks =>
      simp only [List.map_cons, List.cons.injEq] at h
      have := agreeDecodeId h.1
      simp only [rowIds, List.map_cons] at ih ⊢
      rw [ih h.2, this]
      rfl

private theorem nodup_succ {l : List KeyedJob} (h : (l.map fun k => k.job.id).Nodup) : (l.map fun k => k.job.id + 1).Nodup := by
  refine List.pairwise_map.mpr ((List.pairwise_map.mp h).imp ?_)
  intro a b hab he
  exact hab (by omega)

theorem SameStore.rowsOnce {m : Mem} {p : Pg} (S : SameStore m p) : (rowIds p.rows).Nodup := by
  rw [agreeIds S.jobs]; exact nodup_succ S.once

theorem agreeUpdateRows {id : Int} {f : Row → Row} {l r : List Row} {row : Row}
    (hn : (rowIds (l ++ row :: r)).Nodup) (hid : row.id = id) :
    (updateRows id f (l ++ row :: r)).1 = l ++ f row :: r := by
  have hl : ∀ q ∈ l, q.id ≠ id := by
    intro q hq he
    simp only [rowIds, List.map_append, List.map_cons] at hn
    have := (List.nodup_append.mp hn).2.2 q.id (List.mem_map_of_mem hq) row.id (by simp)
    exact this (by rw [he, hid])
  have hr : ∀ q ∈ r, q.id ≠ id := by
    intro q hq he
    simp only [rowIds, List.map_append, List.map_cons] at hn
    have := (List.nodup_append.mp hn).2.1
    rw [List.nodup_cons] at this
    exact this.1 (by rw [hid, ← he]; exact List.mem_map_of_mem hq)
  simp only [updateRows, List.map_append, List.map_cons, if_pos hid]
  congr 1
  · exact (List.map_congr_left (fun q hq => if_neg (hl q hq))).trans (by simp)
  · congr 1
    exact (List.map_congr_left (fun q hq => if_neg (hr q hq))).trans (by simp)

theorem agree_onJob {m : Mem} {p : Pg} (S : SameStore m p) (i : Int) (f : Job → Job) (g : Row → Row) (w : Bool)
    (hf : ∀ j, j.id = i → (f j).id = i)
    (hfg : ∀ k ∈ m.jobs, k.job.id = i → ∀ r : Row, r.decode = some k.job.numbered → (g r).decode = some (f k.job).numbered) :
    SameRes (m.onJob i f w).1 (p.onRow (i + 1) g).1 ∧ SameStore (m.onJob i f w).2 (p.onRow (i + 1) g).2 := by
  have hids := agreeIds S.jobs
  rcases onJob_cases i f w m with ⟨h1, h2⟩ | ⟨l, k, r, hm, -, hk, h1, h2, h3⟩
  · rcases onRow_cases (i + 1) g p S.rowsOnce with ⟨-, h4⟩ | ⟨h3, -⟩
    · rw [h2, h4]; exact ⟨.notFound i, S⟩
    · rw [hids] at h3
      obtain ⟨k, hk, he⟩ := List.mem_map.mp h3
      exact (h1 k hk (by omega)).elim
  · rcases onRow_cases (i + 1) g p S.rowsOnce with ⟨h4, -⟩ | ⟨-, h4⟩
    · exfalso
      apply h4
      rw [hids, List.mem_map]
      exact ⟨k, by rw [hm]; simp, by omega⟩
    · rw [h1, h4]
      refine ⟨.unit, ?_⟩
      obtain ⟨rl, row, rr, e1, e2, e3, e4⟩ := agreeMapped S.jobs hm
      have hrid : row.id = i + 1 := by rw [agreeDecodeId e3]; simp [Job.numbered, hk]
      refine ⟨?_, ?_, ?_, ?_⟩
      · simp only
        rw [e1, agreeUpdateRows (by rw [← e1]; exact S.rowsOnce) hrid, h2]
        simp only [List.map_append, List.map_cons, e2, e4]
        rw [hfg k (by rw [hm]; simp) hk row e3]
      · rw [h3]; exact S.given
      · rw [h2]
        have := S.once
        rw [hm] at this
        simpa [hf k.job hk, hk] using this
      · rw [h2, h3]
        intro k' hk'
        have := S.past
        rw [hm] at this
        rcases List.mem_append.mp hk' with h | h
        · exact this k' (by simp [h])
        · rcases List.mem_cons.mp h with rfl | h
          · have := this k (by simp)
            simpa [hf k.job hk, hk] using this
          · exact this k' (by simp [h])

private theorem due_ready {t : Time} {x : String} {j : Job} : readyFor t x j = true ↔ j.Due t x := by
  simp only [readyFor, Bool.and_eq_true, Bool.or_eq_true, decide_eq_true_eq, beq_iff_eq, Job.Due]
  constructor
  · rintro ⟨⟨h1, h2⟩, h3⟩
    exact ⟨h1, h3.symm, by simp only [ms, Time] at *; omega⟩
  · rintro ⟨h1, h2, h3⟩
    exact ⟨⟨h1, by simp only [ms, Time] at *; omega⟩, h2.symm⟩

private theorem due_row {t : Time} {x : String} {j : Job} {r : Row} (ht : 1000 ∣ t) (h : r.decode = some j.numbered) :
    r.ready t x = true ↔ j.Due t x := by
  obtain ⟨es, -, he⟩ := agreeDecode h
  have h1 : r.scheduledAt = j.scheduledAt := by
    have := congrArg Job.scheduledAt he; simpa [Job.numbered] using this.symm
  have h2 : r.status = j.status := by
    have := congrArg Job.status he; simpa [Job.numbered] using this.symm
  have h3 : r.executor = j.executor := by
    have := congrArg Job.executor he; simpa [Job.numbered] using this.symm
  simp only [Row.ready, Bool.and_eq_true, Bool.or_eq_true, decide_eq_true_eq, beq_iff_eq, Job.Due, h1, h2, h3,
    pgTime_whole ht]
  constructor
  · rintro ⟨⟨g1, g2⟩, g3⟩
    exact ⟨g3, g2, by simp only [ms, Time] at *; omega⟩
  · rintro ⟨g1, g2, g3⟩
    exact ⟨⟨by simp only [ms, Time] at *; omega, g2⟩, g1⟩

private theorem markExecuting_same {t : Time} {j : Job} {r : Row} (ht : 1000 ∣ t) (h : r.decode = some j.numbered) :
    (r.markExecuting t).decode = some (j.markExecuting t).numbered := by
  obtain ⟨es, he, hj⟩ := agreeDecode h
  simp only [Row.decode, Row.markExecuting, he, Option.some.injEq, pgTime_whole ht]
  simp only [Job.numbered, Job.markExecuting, Job.mk.injEq] at hj ⊢
  obtain ⟨h1, h2, h3, h4, h5, h6, h7, h8, h9, h10, h11, h12, h13, h14, h15, h16⟩ := hj
  simp [h1, h3, h4, h5, h6, h7, h8, h9, h10, h11, h12, h14, h15, h16]

private theorem agree_load {m : Mem} {p : Pg} (S : SameStore m p) (tie : Int → Nat) (t : Time) (x : String) (ht : 1000 ∣ t)
    (ho : (∀ k ∈ m.jobs, ¬ k.job.Due t x) ∨
      ∃ k ∈ m.jobs, k.job.Due t x ∧ ∀ k' ∈ m.jobs, k'.job.Due t x → k' ≠ k → k.job.Ahead k'.job) :
    SameRes (m.step t (.load x)).1 (p.load tie t x).1 ∧ SameStore (m.step t (.load x)).2 (p.load tie t x).2 := by
  have hready : ∀ r ∈ p.rows, r.ready t x = true → ∃ k ∈ m.jobs, r.decode = some k.job.numbered ∧ k.job.Due t x := by
    intro r hr h
    obtain ⟨k, hk, he⟩ := agreeMem S.jobs hr
    exact ⟨k, hk, he, (due_row ht he).mp h⟩
  simp only [Mem.step]
  rcases load_cases t x m with ⟨h1, h2⟩ | ⟨l, k, r, hm, hk, hl, hr, h2⟩
  · have hnil : p.rows.filter (Row.ready t x) = [] := by
      rw [List.filter_eq_nil_iff]
      intro row hrow hrd
      obtain ⟨k, hk, -, hdue⟩ := hready row hrow hrd
      have := h1 k hk
      rw [due_ready.mpr hdue] at this
      simp at this
    rw [h2]
    simp only [Pg.load, hnil, sortBy]
    exact ⟨.noJob, S⟩
  · have hkm : k ∈ m.jobs := by rw [hm]; simp
    have hkd := due_ready.mp hk
    -- the job that is ahead is the one taken
    have hahead : ∀ k' ∈ m.jobs, k'.job.Due t x → k' ≠ k → k.job.Ahead k'.job := by
      rcases ho with ho | ⟨b, hb, hbd, hba⟩
      · exact (ho k hkm hkd).elim
      · by_cases hbk : b = k
        · rw [← hbk]; exact hba
        · exfalso
          have ha := hba k hkm hkd (fun h => hbk h.symm)
          rw [hm] at hb
          rcases List.mem_append.mp hb with hb | hb
          · have := hl b hb (due_ready.mpr hbd)
            simp only [dueBefore, Bool.or_eq_false_iff, Bool.and_eq_false_iff, decide_eq_false_iff_not, beq_eq_false_iff_ne, ne_eq] at this
            simp only [Job.Ahead, Time] at *
            omega
          · rcases List.mem_cons.mp hb with hb | hb
            · exact hbk hb
            · have := hr b hb (due_ready.mpr hbd)
              simp only [dueBefore, Bool.or_eq_true, Bool.and_eq_true, decide_eq_true_eq, beq_iff_eq] at this
              simp only [Job.Ahead, Time] at *
              omega
    obtain ⟨rl, row, rr, e1, e2, e3, e4⟩ := agreeMapped S.jobs hm
    have hrowm : row ∈ p.rows := by rw [e1]; simp
    have hrowready : row.ready t x = true := (due_row ht e3).mpr hkd
    -- Postgres takes the same one
    have hhead : ∃ rest, sortBy (Row.before tie) (p.rows.filter (Row.ready t x)) = row :: rest := by
      cases hs : sortBy (Row.before tie) (p.rows.filter (Row.ready t x)) with
      | nil =>
        rw [sortBy_eq_nil, List.filter_eq_nil_iff] at hs
        exact (hs row hrowm hrowready).elim
      | cons q rest =>
        refine ⟨rest, ?_⟩
        have hqm : q ∈ p.rows.filter (Row.ready t x) := (sortBy_perm _ _).mem_iff.mp (by rw [hs]; simp)
        obtain ⟨hq1, hq2⟩ := List.mem_filter.mp hqm
        by_cases hqr : q = row
        · rw [hqr]
        · exfalso
          obtain ⟨kq, hkq, heq, hdq⟩ := hready q hq1 hq2
          have hne : kq ≠ k := by
            intro h
            rw [h] at heq
            exact hqr (row_unique S.rowsOnce hq1 hrowm (by rw [agreeDecodeId heq, agreeDecodeId e3]))
          have ha := hahead kq hkq hdq hne
          have hsorted := sortBy_sorted (le := Row.before tie)
            (by intro a b; simp only [Row.before, Bool.or_eq_true, Bool.and_eq_true, decide_eq_true_eq, beq_iff_eq]; simp only [Time]; omega)
            (by intro a b c h1 h2; simp only [Row.before, Bool.or_eq_true, Bool.and_eq_true, decide_eq_true_eq, beq_iff_eq] at *; simp only [Time] at *; omega)
            (p.rows.filter (Row.ready t x))
          rw [hs, List.pairwise_cons] at hsorted
          have hrow' : row ∈ q :: rest := by
            rw [← hs]
            exact (sortBy_perm _ _).mem_iff.mpr (List.mem_filter.mpr ⟨hrowm, hrowready⟩)
          rcases List.mem_cons.mp hrow' with h | h
          · exact hqr h.symm
          · have hb := hsorted.1 row h
            obtain ⟨es, -, hj⟩ := agreeDecode heq
            obtain ⟨es', -, hj'⟩ := agreeDecode e3
            have q1 : q.scheduledAt = kq.job.scheduledAt := by
              have := congrArg Job.scheduledAt hj; simpa [Job.numbered] using this.symm
            have q2 : q.priority = kq.job.priority := by
              have := congrArg Job.priority hj; simpa [Job.numbered] using this.symm
            have r1 : row.scheduledAt = k.job.scheduledAt := by
              have := congrArg Job.scheduledAt hj'; simpa [Job.numbered] using this.symm
            have r2 : row.priority = k.job.priority := by
              have := congrArg Job.priority hj'; simpa [Job.numbered] using this.symm
            simp only [Row.before, Bool.or_eq_true, Bool.and_eq_true, decide_eq_true_eq, beq_iff_eq] at hb
            simp only [Job.Ahead, Time] at *
            omega
    obtain ⟨rest, hhead⟩ := hhead
    have hex := markExecuting_same ht e3
    rw [h2]
    simp only [Pg.load, hhead, hex]
    refine ⟨.job _, ?_, ?_, ?_, ?_⟩
    · simp only
      rw [e1, agreeUpdateRows (by rw [← e1]; exact S.rowsOnce) rfl]
      simp only [List.map_append, List.map_cons, e2, e4, hex]
    · exact S.given
    · have := S.once
      rw [hm] at this
      simpa [Job.markExecuting] using this
    · intro k' hk'
      have := S.past
      rw [hm] at this
      rcases List.mem_append.mp hk' with h | h
      · exact this k' (by simp [h])
      · rcases List.mem_cons.mp h with rfl | h
        · have := this k (by simp)
          simpa [Job.markExecuting] using this
        · exact this k' (by simp [h])

/-- The insertion of a new job. -/
theorem agree_insert {m : Mem} {p : Pg} (S : SameStore m p) (t : Time) (e : EnqueuableJob) (key : Option Int)
    (h1 : 1000 ∣ t) (h2 : 1000 ∣ e.scheduledAt) (h3 : m.allocated < 2147483647) :
    SameRes (.id (m.insertNew t e).1) (p.insert t e key).1 ∧ SameStore (m.insertNew t e).2 (p.insert t e key).2 := by
  have hn : ¬ p.seq ≥ 2147483647 := by rw [S.given]; omega
  have hid : wrapI32 m.allocated = (m.allocated : Int) := by
    unfold wrapI32
    have : m.allocated % 4294967296 = m.allocated := Nat.mod_eq_of_lt (by omega)
    simp only [this]
    rw [if_pos (by omega)]
  simp only [Pg.insert, if_neg hn, Mem.insertNew, hid]
  have hst : ∀ m' : Mem, ∀ x s, (m'.notify x s).jobs = m'.jobs ∧ (m'.notify x s).allocated = m'.allocated := by
    intro m' x s; unfold Mem.notify; split <;> exact ⟨rfl, rfl⟩
  constructor
  · have : ((p.seq + 1 : Nat) : Int) = (m.allocated : Int) + 1 := by rw [S.given]; omega
    rw [this]
    exact .id _
  · refine ⟨?_, ?_, ?_, ?_⟩
    · rw [(hst _ _ _).1]
      simp only [List.map_append, S.jobs, List.map_cons, List.map_nil]
      refine congrArg (fun j => _ ++ [j]) ?_
      simp [Row.decode, EnqueuableJob.toRow, decodeErrors, Job.numbered, EnqueuableJob.intoJob, pgTime_whole h1,
        pgTime_whole h2, S.given]
    · rw [(hst _ _ _).2]; simp [S.given]
    · rw [(hst _ _ _).1]
      simp only [List.map_append, List.map_cons, List.map_nil, EnqueuableJob.intoJob]
      rw [List.nodup_append]
      refine ⟨S.once, by simp, ?_⟩
      intro a ha b hb
      obtain ⟨k, hk, rfl⟩ := List.mem_map.mp ha
      rw [List.mem_singleton] at hb
      have := S.past k hk
      omega
    · rw [(hst _ _ _).1, (hst _ _ _).2]
      intro k hk
      rcases List.mem_append.mp hk with hk | hk
      · have := S.past k hk
        simp only; omega
      · rw [List.mem_singleton.mp hk]
        simp [EnqueuableJob.intoJob]
        omega

private theorem agree_step {m : Mem} {p : Pg} (S : SameStore m p) (hash : HashFn) (tie : Int → Nat) (t : Time) (c c' : Api)
    (h : SameCall c c') (ho : Ordinary t m c) :
    SameRes (m.api t c).1 (p.api hash tie t c').1 ∧ SameStore (m.api t c).2 (p.api hash tie t c').2 := by
  cases h with
  | enqueue e hc =>
    obtain ⟨h1, h2, h3⟩ := ho
    simp only [Mem.api, Mem.enqueue, hc, Pg.api, Pg.enqueue]
    exact agree_insert S t e none h1 h2 h3
  | complete i =>
    refine agree_onJob S i (Job.markComplete t) (Row.markComplete t) false (fun _ h => h) ?_
    intro k _ _ r h
    have ht : 1000 ∣ t := ho
    obtain ⟨es, he, hj⟩ := agreeDecode h
    simp only [Row.decode, Row.markComplete, he, Option.some.injEq, pgTime_whole ht]
    simp only [Job.numbered, Job.markComplete, Job.mk.injEq] at hj ⊢
    obtain ⟨h1, h2, h3, h4, h5, h6, h7, h8, h9, h10, h11, h12, h13, h14, h15, h16⟩ := hj
    simp [h1, h3, h4, h5, h6, h7, h8, h9, h10, h11, h12, h13, h15, h16]
  | retryable i next e =>
    obtain ⟨ht, hnx, hp, ha⟩ := ho
    refine agree_onJob S i (Job.markRetryable t next e) (Row.markRetryable t next e) true (fun _ h => h) ?_
    intro k hk hi r h
    obtain ⟨es, he, hj⟩ := agreeDecode h
    obtain ⟨a0, a1⟩ := ha k hk hi
    simp only [Job.numbered, Job.mk.injEq] at hj
    obtain ⟨h1, h2, h3, h4, h5, h6, h7, h8, h9, h10, h11, h12, h13, h14, h15, h16⟩ := hj
    have key := decodeErrors_append he (toRaw_decode ht hp a0 a1)
    rw [h6] at key
    simp only [Row.decode, Row.markRetryable, key, Option.some.injEq, pgTime_whole hnx]
    simp [Job.numbered, Job.markRetryable, h1, h3, h4, h5, h6, h7, h8, h9, h10, h11, h13, h14, h15, h16]
  | discarded i e =>
    obtain ⟨ht, hp, ha⟩ := ho
    refine agree_onJob S i (Job.markDiscarded t e) (Row.markDiscarded t e) false (fun _ h => h) ?_
    intro k hk hi r h
    obtain ⟨es, he, hj⟩ := agreeDecode h
    obtain ⟨a0, a1⟩ := ha k hk hi
    simp only [Job.numbered, Job.mk.injEq] at hj
    obtain ⟨h1, h2, h3, h4, h5, h6, h7, h8, h9, h10, h11, h12, h13, h14, h15, h16⟩ := hj
    have key := decodeErrors_append he (toRaw_decode ht hp a0 a1)
    rw [h6] at key
    simp only [Row.decode, Row.markDiscarded, key, Option.some.injEq, pgTime_whole ht]
    simp [Job.numbered, Job.markDiscarded, h1, h3, h4, h5, h6, h7, h8, h9, h10, h11, h12, h13, h14, h15]
  | cancelled i e =>
    obtain ⟨ht, hp, ha⟩ := ho
    refine agree_onJob S i (Job.markCancelled t e) (Row.markCancelled t e) false (fun _ h => h) ?_
    intro k hk hi r h
    obtain ⟨es, he, hj⟩ := agreeDecode h
    obtain ⟨a0, a1⟩ := ha k hk hi
    simp only [Job.numbered, Job.mk.injEq] at hj
    obtain ⟨h1, h2, h3, h4, h5, h6, h7, h8, h9, h10, h11, h12, h13, h14, h15, h16⟩ := hj
    have key := decodeErrors_append he (toRaw_decode ht hp a0 a1)
    rw [h6] at key
    simp only [Row.decode, Row.markCancelled, key, Option.some.injEq, pgTime_whole ht]
    simp [Job.numbered, Job.markCancelled, h1, h3, h4, h5, h6, h7, h8, h9, h10, h11, h12, h13, h14, h16]
  | snoozed i next =>
    refine agree_onJob S i (Job.markSnoozed next) (Row.markSnoozed next) true (fun _ h => h) ?_
    intro k _ _ r h
    have ht : 1000 ∣ next := ho
    obtain ⟨es, he, hj⟩ := agreeDecode h
    simp only [Row.decode, Row.markSnoozed, he, Option.some.injEq, pgTime_whole ht]
    simp only [Job.numbered, Job.mk.injEq] at hj
    obtain ⟨h1, h2, h3, h4, h5, h6, h7, h8, h9, h10, h11, h12, h13, h14, h15, h16⟩ := hj
    simp [Job.numbered, Job.markSnoozed, h1, h3, h4, h5, h6, h7, h8, h9, h10, h11, h13, h14, h15, h16]
  | rerun i =>
    refine agree_onJob S i (Job.markRerunable t) (Row.markRerunable t) true (fun _ h => h) ?_
    intro k _ _ r h
    have ht : 1000 ∣ t := ho
    obtain ⟨es, he, hj⟩ := agreeDecode h
    simp only [Row.decode, Row.markRerunable, he, Option.some.injEq, pgTime_whole ht]
    simp only [Job.numbered, Job.mk.injEq] at hj
    obtain ⟨h1, h2, h3, h4, h5, h6, h7, h8, h9, h10, h11, h12, h13, h14, h15, h16⟩ := hj
    simp [Job.numbered, Job.markRerunable, h1, h3, h4, h5, h6, h7, h8, h9, h10, h11, h13]
  | load x =>
    obtain ⟨ht, ho⟩ := ho
    exact agree_load S tie t x ht ho

/-- **C50.** From equal stores, every history of plain enqueues, completions, retries,
discards, cancels, snoozes, reruns and hand-outs without a choice gives equal results
and equal stores on both backends: the same jobs, field by field, under ids one larger
on Postgres. -/
theorem C50_agree (hash : HashFn) (ties : Nat → Int → Nat) (m : Mem) (p : Pg) (cs cs' : List TApi)
    (h : SameStore m p) (hh : SameHistory m cs cs') :
    SameResults (m.results cs) (p.results hash ties cs') ∧ SameStore (m.runApi cs) (p.runApi hash ties cs') := by
  induction hh generalizing p with
  | nil m => exact ⟨.nil, h⟩
  | cons m t c c' cs cs' hc ho hs ih =>
    obtain ⟨h1, h2⟩ := agree_step h hash (ties cs'.length) t c c' hc ho
    obtain ⟨h3, h4⟩ := ih _ h2
    exact ⟨.cons _ _ _ _ h1 h3, h4⟩

/-- A whole life of a job, from the empty stores. -/
example : SameStore (Mem.init) {} ∧ SameHistory (Mem.init)
      [⟨0, .enqueue sampleEnq⟩, ⟨1000, .op (.load "mail")⟩, ⟨2000, .op (.retryable 0 3000 sampleErr)⟩,
        ⟨3000, .op (.load "mail")⟩, ⟨4000, .op (.complete 0)⟩, ⟨5000, .op (.rerun 7)⟩]
      [⟨0, .enqueue sampleEnq⟩, ⟨1000, .op (.load "mail")⟩, ⟨2000, .op (.retryable 1 3000 sampleErr)⟩,
        ⟨3000, .op (.load "mail")⟩, ⟨4000, .op (.complete 1)⟩, ⟨5000, .op (.rerun 8)⟩] := by
  refine ⟨⟨rfl, rfl, by decide, by decide⟩, ?_⟩
  refine .cons _ _ _ _ _ _ (.enqueue _ rfl) ?_ (.cons _ _ _ _ _ _ (.load _) ?_ (.cons _ _ _ _ _ _ (.retryable 0 _ _) ?_
    (.cons _ _ _ _ _ _ (.load _) ?_ (.cons _ _ _ _ _ _ (.complete 0) ?_ (.cons _ _ _ _ _ _ (.rerun 7) ?_ (.nil _))))))
  · exact ⟨by decide, by decide, by decide⟩
  · refine ⟨by decide, .inr ⟨_, List.mem_cons_self, ?_, ?_⟩⟩
    · exact ⟨rfl, .inl rfl, by decide⟩
    · intro k' hk' _ hne
      exact (hne (List.mem_singleton.mp hk')).elim
  · refine ⟨by decide, by decide, by decide, ?_⟩
    intro k hk _
    rw [List.mem_singleton.mp hk]
    decide
  · refine ⟨by decide, .inr ⟨_, List.mem_cons_self, ?_, ?_⟩⟩
    · exact ⟨rfl, .inr rfl, by decide⟩
    · intro k' hk' _ hne
      exact (hne (List.mem_singleton.mp hk')).elim
  · show (1000 : Int) ∣ 4000; decide
  · show (1000 : Int) ∣ 5000; decide

/-- A hand-out with a choice is where they differ: the in-memory backend takes the job
that is due first, Postgres the one with the lower priority number. -/
theorem C50_handout_differs :
    let early : EnqueuableJob := { sampleEnq with scheduledAt := 1000, priority := 5 }
    let urgent : EnqueuableJob := { sampleEnq with scheduledAt := 2000, priority := 0 }
    ((Mem.init).results [⟨0, .enqueue early⟩, ⟨0, .enqueue urgent⟩, ⟨3000, .op (.load "mail")⟩]).map
        (fun r => match r with | .job (some j) => j.priority | _ => 0) = [0, 0, 5] ∧
    (Pg.results sampleHash (fun _ => Int.toNat) {} [⟨0, .enqueue early⟩, ⟨0, .enqueue urgent⟩, ⟨3000, .op (.load "mail")⟩]).map
        (fun r => match r with | .job (some j) => (j.id, j.priority) | _ => (0, 0)) = [(0, 0), (0, 0), (2, 0)] := by
  decide

end Rexecutor
