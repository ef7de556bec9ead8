import Verif.Props.PgQuery
import Verif.Props.PgReceive

/-! # C103: one unreadable job and the others -/

namespace Rexecutor

/-- **C103, exactly, in memory.** For every store, executor and `Where` query over values that
serialise: `query_jobs` gives a result exactly if every job it would have to return can be
decoded. -/
theorem C103_exactly (cd : Codec D) (cm : Codec M) (hd : cd.Lossless) (hm : cm.Lossless) (x : String) (q : TQuery D M)
    (m : Mem) :
    (∃ ts, queryJobs cd cm x q m = .ok ts) ↔
      ∀ k ∈ m.jobs, k.job.executor = x → q.Holds cd cm k.job → ∃ t, decodeJob cd cm k.job = .ok t := by
  constructor
  · rintro ⟨ts, h⟩ k hk hx hq
    rw [C19_query_jobs cd cm hd hm] at h
    have : decodeJob cd cm k.job ∈ ts.map .ok := by
      rw [← h]
      exact List.mem_map_of_mem (List.mem_filter.mpr ⟨List.mem_map_of_mem hk, by simpa using ⟨hx, hq⟩⟩)
    obtain ⟨t, -, ht⟩ := List.mem_map.mp this
    exact ⟨t, ht.symm⟩
  · intro h
    have key : ∀ js : List Job, (∀ j ∈ js, ∃ t, decodeJob cd cm j = .ok t) → ∃ ts : List (TJob D M), js.map (decodeJob cd cm) = ts.map .ok := by
      intro js
      induction js with
      | nil => exact fun _ => ⟨[], rfl⟩
      | cons j js ih =>
        intro hj
        obtain ⟨t, ht⟩ := hj j (List.mem_cons_self ..)
        obtain ⟨ts, hts⟩ := ih fun j' hj' => hj j' (List.mem_cons_of_mem _ hj')
        exact ⟨t :: ts, by simp [ht, hts]⟩
    simp only [C19_query_jobs cd cm hd hm]
    refine key _ ?_
    intro j hj
    obtain ⟨h1, h2⟩ := List.mem_filter.mp hj
    obtain ⟨k, hk, rfl⟩ := List.mem_map.mp h1
    simp only [decide_eq_true_eq] at h2
    exact h k hk h2.1 h2.2

/-- The stored data and metadata can be read as values of the executor's types. -/
def Readable (cd : Codec D) (cm : Codec M) (j : Job) : Prop := cd.dec j.data ≠ none ∧ cm.dec j.metadata ≠ none

/-- One of the three counters is not a `u16`. -/
def CounterOut (j : Job) : Prop := ∃ c ∈ [j.attempt, j.maxAttempts, j.priority], c < 0 ∨ 65535 < c

private theorem decodeJob_which (cd : Codec D) (cm : Codec M) (j : Job) :
    (decodeJob cd cm j = .err ↔ ¬ Readable cd cm j) ∧
    (decodeJob cd cm j = .panic ↔ Readable cd cm j ∧ CounterOut j) := by
  unfold decodeJob Readable CounterOut
  cases cd.dec j.data with
  | none => simp
  | some d =>
    cases cm.dec j.metadata with
    | none => simp
    | some v =>
      have hu : ∀ c : Int, (toU16? c = none ↔ c < 0 ∨ 65535 < c) := by
        intro c; unfold toU16?; split <;> simp <;> omega
      simp only [List.mem_cons, List.not_mem_nil, or_false, exists_eq_or_imp, exists_eq_left, ← hu]
      cases toU16? j.attempt <;> cases toU16? j.maxAttempts <;> cases toU16? j.priority <;> simp

/-- **C103, which failure.** In memory, the first job found that cannot be decoded decides, in the order of
insertion: the query returns an error if its data or metadata cannot be read, and otherwise, one of its
counters being no `u16`, the caller panics. -/
theorem C103_which (cd : Codec D) (cm : Codec M) (hd : cd.Lossless) (hm : cm.Lossless) (x : String) (q : TQuery D M)
    (m : Mem) (l r : List KeyedJob) (k : KeyedJob) (hjobs : m.jobs = l ++ k :: r)
    (hfirst : ∀ p ∈ l, p.job.executor = x → q.Holds cd cm p.job → Readable cd cm p.job ∧ ¬ CounterOut p.job)
    (hk : k.job.executor = x ∧ q.Holds cd cm k.job) :
    (¬ Readable cd cm k.job → queryJobs cd cm x q m = .err) ∧
    (Readable cd cm k.job → CounterOut k.job → queryJobs cd cm x q m = .panic) := by
  have key : ∀ (js : List Job) (j : Job) (rest : List Job), (∀ p ∈ js, Readable cd cm p ∧ ¬ CounterOut p) →
      (decodeJob cd cm j = .err → decodeAll cd cm (js ++ j :: rest) = .err) ∧
      (decodeJob cd cm j = .panic → decodeAll cd cm (js ++ j :: rest) = .panic) := by
    intro js j rest
    induction js with
    | nil => intro _; exact ⟨fun h => by simp [decodeAll, h], fun h => by simp [decodeAll, h]⟩
    | cons p js ih =>
      intro h
      obtain ⟨i1, i2⟩ := ih fun p' hp' => h p' (List.mem_cons_of_mem _ hp')
      have hp := h p List.mem_cons_self
      obtain ⟨w1, w2⟩ := decodeJob_which cd cm p
      simp only [List.cons_append, decodeAll]
      cases hdec : decodeJob cd cm p with
      | err => exact absurd hp.1 (w1.mp hdec)
      | panic => exact absurd (w2.mp hdec).2 hp.2
      | ok t => exact ⟨fun h => by simp [i1 h], fun h => by simp [i2 h]⟩
  rw [queryJobs_eq cd cm hd hm, hjobs]
  simp only [List.map_append, List.map_cons, List.filter_append, List.filter_cons, hk, and_self, decide_true, if_true]
  obtain ⟨w1, w2⟩ := decodeJob_which cd cm k.job
  refine (fun (h : _ ∧ _) => ⟨fun h' => h.1 (w1.mpr h'), fun h' h'' => h.2 (w2.mpr ⟨h', h''⟩)⟩) (key _ _ _ ?_)
  intro p hp
  obtain ⟨h1, h2⟩ := List.mem_filter.mp hp
  obtain ⟨k', hk', rfl⟩ := List.mem_map.mp h1
  simp only [decide_eq_true_eq] at h2
  exact hfirst k' hk' h2.1 h2.2

/-- A job whose attempt counter a client has set to 70000, after a job that can be decoded. -/
example :
    let bad : Job := { sampleJob 1 with attempt := 70000 }
    Readable stringCodec unitCodec (sampleJob 0) ∧ ¬ CounterOut (sampleJob 0) ∧
    Readable stringCodec unitCodec bad ∧ CounterOut bad ∧
    queryJobs stringCodec unitCodec "mail" (.statusEqual .scheduled) (storeOf [sampleJob 0, bad]) = .panic ∧
    queryJobs stringCodec unitCodec "mail" (.statusEqual .scheduled)
      (storeOf [{ sampleJob 0 with data := .null }, bad]) = .err := by
  refine ⟨⟨nofun, nofun⟩, ?_, ⟨nofun, nofun⟩, ⟨70000, by simp, by decide⟩, by decide, by decide⟩
  simp [CounterOut, sampleJob]

/-- **C103, exactly, on Postgres.** For every table, executor and query without empty `and`s and
`or`s: `query_jobs` gives a result exactly if every row its condition finds can be read and then
decoded to the executor's own types. Rows of other executors count as well, if the condition on
the executor does not reach the alternative they meet (C58). -/
theorem C103_exactly_postgres (cd : Codec D) (cm : Codec M) (tie : Int → Nat) (x : String) (q : TQuery D M) (bq : Query)
    (rows : List Row) (hq : q.toQuery cd cm = some bq) (he : ¬ HasEmpty bq) :
    (∃ ts, pgQueryJobs cd cm tie x q rows = .ok ts) ↔
      ∀ r ∈ rows, (if r.executor = x then bq.Finds r else ∃ c ∈ bq.unguarded, ∀ l ∈ c, l.HoldsRow r) →
        ∃ j t, r.decode = some j ∧ decodeJob cd cm j = .ok t := by
  have hne := forExecutor_nonempty x bq he
  have hx := C43_exactly tie rows (bq.forExecutor x) hne
  have hok : ∀ js, (∃ ts, decodeAll cd cm js = .ok ts) ↔ ∀ j ∈ js, ∃ t, decodeJob cd cm j = .ok t := by
    intro js
    induction js with
    | nil => simp [decodeAll]
    | cons j js ih =>
      simp only [decodeAll, List.mem_cons, forall_eq_or_imp, ← ih]
      cases decodeJob cd cm j <;> cases decodeAll cd cm js <;> simp
  simp only [pgQueryJobs, hq, ← guarded_finds x bq he]
  by_cases hr : ∀ r ∈ rows, (bq.forExecutor x).Finds r → r.decode ≠ none
  · obtain ⟨js, h1, h2, -⟩ := hx.1 hr
    simp only [h1, hok, h2.mem_iff, List.mem_filterMap, List.mem_filter, decide_eq_true_eq]
    constructor
    · intro h r hrm hf
      obtain ⟨j, hj⟩ := Option.ne_none_iff_exists'.mp (hr r hrm hf)
      obtain ⟨t, ht⟩ := h j ⟨r, ⟨hrm, hf⟩, hj⟩
      exact ⟨j, t, hj, ht⟩
    · rintro h j ⟨r, ⟨hrm, hf⟩, hj⟩
      obtain ⟨j', t, h3, h4⟩ := h r hrm hf
      rw [hj, Option.some.injEq] at h3
      subst h3
      exact ⟨t, h4⟩
  · have : ∃ r ∈ rows, (bq.forExecutor x).Finds r ∧ r.decode = none := by
      simpa using hr
    rw [hx.2 this]
    obtain ⟨r, hrm, hf, hn⟩ := this
    refine ⟨fun ⟨_, h⟩ => (by cases h), fun h => ?_⟩
    obtain ⟨j, t, h3, -⟩ := h r hrm hf
    rw [hn] at h3
    cases h3

/-- A job with metadata and one without, from their builders. -/
def plainBuilder : JobBuilder String String := (JobBuilder.init 0).applyAll [.withData "hello"]
def plainJob : EnqueuableJob := { fullJob with metadata := .null, tags := [], priority := 0 }

/-- **C103 as stated is false.** Metadata may be omitted when a job is enqueued; if its type is
`String`, the job cannot be decoded. In memory, after enqueueing one job with metadata and one
without, asking for all scheduled jobs is an error, although the first job is there and is found
by a query that does not hold for the second. -/
theorem C103_violated :
    fullBuilder.build mailExecutor stringCodec stringCodec = some fullJob ∧
    plainBuilder.build mailExecutor stringCodec stringCodec = some plainJob ∧
    (let m := (fresh.run (enqSteps 0 0 fullJob ++ enqSteps 5 1 plainJob)).mem
     m.jobs.map (·.job.id) = [0, 1] ∧
     queryJobs stringCodec stringCodec "mail" (.statusEqual .scheduled) m = .err ∧
     ((match queryJobs stringCodec stringCodec "mail" (.tagsAllOf ["a"]) m with
       | .ok ts => ts.map (·.id) | _ => []) = [0])) := by
  decide

/-- The hypotheses of `C103_exactly` and `C103_exactly_postgres` hold for these queries, and
both sides of the equivalences are false, or true. -/
example : stringCodec.Lossless ∧
    (TQuery.statusEqual .scheduled : TQuery String String).toQuery stringCodec stringCodec = some (.statusEqual .scheduled) ∧
    ¬ HasEmpty (.statusEqual .scheduled) ∧
    decodeJob stringCodec stringCodec (plainJob.intoJob 0 1).job = .err ∧
    (∃ t, decodeJob stringCodec stringCodec (fullJob.intoJob 0 1).job = .ok t ∧ t.metadata = "world") :=
  ⟨stringCodec_lossless, rfl, nofun, by decide, _, rfl, rfl⟩

/-- **C103 as stated is false on Postgres**, in the same way, and also because of a job of another
executor with other types. -/
theorem C103_violated_postgres :
    (let rows := (PgConc.run sampleHash {} [pgAct 5000 (.plain fullJob), pgAct 6000 (.plain plainJob)]).pg.rows
     rows.map (·.id) = [1, 2] ∧
     pgQueryJobs stringCodec stringCodec Int.toNat "mail" (.statusEqual .scheduled) rows = .err ∧
     ((match pgQueryJobs stringCodec stringCodec Int.toNat "mail" (.tagsAllOf ["a"]) rows with
       | .ok ts => ts.map (·.id) | _ => []) = [1])) ∧
    (let rows := (PgConc.run sampleHash {} [pgAct 5000 (.plain fullJob),
       pgAct 6000 (.plain { fullJob with executor := "sms", data := .bool true })]).pg.rows
     pgQueryJobs stringCodec stringCodec Int.toNat "mail"
       (.or [.statusEqual .retryable, .statusEqual .scheduled]) rows = .err ∧
     ((match pgQueryJobs stringCodec stringCodec Int.toNat "mail" (.statusEqual .scheduled) rows with
       | .ok ts => ts.map (·.id) | _ => []) = [1])) := by
  decide

end Rexecutor
