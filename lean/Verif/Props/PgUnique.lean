import Verif.Spec.Pg
import Verif.Spec.PgQuery
import Verif.Spec.Samples
import Verif.Model.Fx
import Verif.Model.Cron
import Verif.Lemmas.Pg
import Verif.Props.Cron

/-! # C25, C26, C49, C59: unique enqueues on Postgres, one after the other -/

namespace Rexecutor

theorem pg_finds_iff {e : EnqueuableJob} {uc : Criteria} (hw : WholeTimes e uc) {r : Row} :
    uc.finds e.executor e.scheduledAt r = true ↔ PgDuplicate e uc r := by
  unfold Criteria.finds
  simp only [Bool.and_eq_true, Bool.or_eq_true, Bool.not_eq_true', beq_iff_eq, List.contains_iff_mem]
  have hkey : (match uc.key with
      | none => true
      | some key => r.uniquenessKey == some key) = true ↔ ∀ k, uc.key = some k → r.uniquenessKey = some k := by
    cases uc.key <;> simp
  have hwin : (match uc.duration with
      | none => true
      | some d => decide (pgTime (e.scheduledAt - d) ≤ r.scheduledAt) && decide (r.scheduledAt ≤ pgTime (e.scheduledAt + d))) = true ↔
      ∀ d, uc.duration = some d → e.scheduledAt - d ≤ r.scheduledAt ∧ r.scheduledAt ≤ e.scheduledAt + d := by
    cases hd : uc.duration with
    | none => simp
    | some d =>
      have h1 : (1000 : Int) ∣ e.scheduledAt - d := Int.dvd_sub hw.1 (hw.2 d hd)
      have h2 : (1000 : Int) ∣ e.scheduledAt + d := Int.dvd_add hw.1 (hw.2 d hd)
      simp [pgTime_whole h1, pgTime_whole h2]
  refine (and_congr (and_congr (and_congr Iff.rfl hkey) Iff.rfl) hwin).trans ?_
  constructor
  · rintro ⟨⟨⟨h1, h2⟩, h3⟩, h4⟩
    exact ⟨h1, h2, fun h => by simpa [h] using h3, h4⟩
  · rintro ⟨h1, h2, h3, h4⟩
    refine ⟨⟨⟨h1, h2⟩, ?_⟩, h4⟩
    cases h : uc.executor
    · exact .inl rfl
    · exact .inr (h3 h)

theorem unique_cases (hash : HashFn) (tie : Int → Nat) (now : Time) (e : EnqueuableJob) (uc : Criteria) (p : Pg)
    (hc : e.criteria = some uc) :
    ((∀ r ∈ p.rows, uc.finds e.executor e.scheduledAt r = false) ∧
      p.enqueue hash tie now e = p.insert now e (some (uc.identifier hash e.executor))) ∨
    (∃ r ∈ p.rows, uc.finds e.executor e.scheduledAt r = true ∧
      p.enqueue hash tie now e =
        match uc.onConflict with
        | .replace rep =>
          if rep.forStatuses.contains r.status then
            if rep.setsNothing then (.err .badState, p)
            else (.id r.id, { p with rows := (updateRows r.id (Row.replace rep e) p.rows).1 })
          else (.id r.id, p)
        | .doNothing => (.id r.id, p)) := by
  simp only [Pg.enqueue, hc, Pg.insertUnique]
  split
  · rename_i h
    left
    refine ⟨?_, rfl⟩
    intro r hr
    cases hf : uc.finds e.executor e.scheduledAt r
    · rfl
    · have : r ∈ p.rows.filter fun r => uc.finds e.executor e.scheduledAt r := List.mem_filter.mpr ⟨hr, hf⟩
      rw [sortBy_eq_nil.mp h] at this
      simp at this
  · rename_i r rs h
    right
    have hm : r ∈ p.rows.filter fun r => uc.finds e.executor e.scheduledAt r :=
      (sortBy_perm _ _).mem_iff.mp (by rw [h]; simp)
    exact ⟨r, (List.mem_filter.mp hm).1, (List.mem_filter.mp hm).2, rfl⟩

/-! ## C59 -/

/-- **C59, no duplicate.** Nobody else calling: if no row is a duplicate, one row is
added, with the next number, and nothing else changes (unless the 2^31 - 1 numbers are
used up, which is an error). -/
theorem C59_insert (hash : HashFn) (tie : Int → Nat) (now : Time) (e : EnqueuableJob) (uc : Criteria) (p : Pg)
    (hc : e.criteria = some uc) (hw : WholeTimes e uc) (hd : ∀ r ∈ p.rows, ¬ PgDuplicate e uc r)
    (hs : p.seq < 2147483647) :
    ∃ r, (p.enqueue hash tie now e).1 = .id ((p.seq : Int) + 1) ∧
      (p.enqueue hash tie now e).2 = { rows := p.rows ++ [r], seq := p.seq + 1 } ∧
      InsertedAs now e ((p.seq : Int) + 1) r := by
  rcases unique_cases hash tie now e uc p hc with ⟨-, h⟩ | ⟨r, hr, hf, -⟩
  · have hn : ¬ p.seq ≥ 2147483647 := by omega
    rw [h]
    simp only [Pg.insert, if_neg hn]
    refine ⟨_, ?_, rfl, ?_⟩
    · simp
    · exact ⟨by simp [EnqueuableJob.toRow], rfl, rfl, rfl, rfl, rfl, rfl, rfl, rfl, rfl, rfl, rfl, rfl, rfl, rfl, rfl⟩
  · exact (hd r hr ((pg_finds_iff hw).mp hf)).elim

/-- **C59, duplicate.** If there is one, no row is added and no number used; the result
is the number of a duplicate `r`. With "do nothing", or a replacement not for `r`'s
status, nothing changes. With a replacement for its status exactly `r` changes, and
there exactly the flagged fields take the new job's values; a replacement that flags
no field is an error that changes nothing. -/
theorem C59_conflict (hash : HashFn) (tie : Int → Nat) (now : Time) (e : EnqueuableJob) (uc : Criteria) (p : Pg)
    (hc : e.criteria = some uc) (hw : WholeTimes e uc) (hn : (p.rows.map (·.id)).Nodup)
    (hd : ∃ r ∈ p.rows, PgDuplicate e uc r) :
    ∃ r ∈ p.rows, PgDuplicate e uc r ∧ (p.enqueue hash tie now e).2.seq = p.seq ∧
      match uc.onConflict with
      | .doNothing => p.enqueue hash tie now e = (.id r.id, p)
      | .replace rep =>
        if r.status ∉ rep.forStatuses then p.enqueue hash tie now e = (.id r.id, p)
        else if rep.scheduledAt = false ∧ rep.data = false ∧ rep.metadata = false ∧ rep.priority = false ∧ rep.maxAttempts = false then
          p.enqueue hash tie now e = (.err .badState, p)
        else (p.enqueue hash tie now e).1 = .id r.id ∧
          ∀ i : Nat, (p.enqueue hash tie now e).2.rows[i]? = p.rows[i]?.map fun q =>
            if q = r then
              { q with
                scheduledAt := if rep.scheduledAt then pgTime e.scheduledAt else q.scheduledAt
                data := if rep.data then e.data else q.data
                metadata := if rep.metadata then e.metadata else q.metadata
                priority := if rep.priority then e.priority else q.priority
                maxAttempts := if rep.maxAttempts then e.maxAttempts else q.maxAttempts }
            else q := by
  rcases unique_cases hash tie now e uc p hc with ⟨h, -⟩ | ⟨r, hr, hf, h⟩
  · obtain ⟨r, hr, hd⟩ := hd
    have := h r hr
    rw [(pg_finds_iff hw).mpr hd] at this
    simp at this
  · refine ⟨r, hr, (pg_finds_iff hw).mp hf, ?_, ?_⟩
    · rw [h]
      split
      · split
        · split <;> rfl
        · rfl
      · rfl
    · rw [h]
      cases uc.onConflict with
      | doNothing => rfl
      | replace rep =>
        simp only
        by_cases hs : r.status ∈ rep.forStatuses
        · rw [if_neg (fun h => h hs), if_pos (List.contains_iff_mem.mpr hs)]
          have hsets : rep.setsNothing = true ↔ (rep.scheduledAt = false ∧ rep.data = false ∧ rep.metadata = false ∧
              rep.priority = false ∧ rep.maxAttempts = false) := by
            simp [Replace.setsNothing, and_assoc]
          by_cases h0 : rep.setsNothing = true
          · rw [if_pos h0, if_pos (hsets.mp h0)]
          · rw [if_neg h0, if_neg (fun h => h0 (hsets.mpr h))]
            refine ⟨rfl, ?_⟩
            intro i
            simp only [updateRows, List.getElem?_map]
            cases hi : p.rows[i]? with
            | none => rfl
            | some q =>
              have hq : q ∈ p.rows := List.mem_of_getElem? hi
              simp only [Option.map_some, Option.some.injEq]
              by_cases hqr : q = r
              · subst hqr; simp [Row.replace]
              · have : q.id ≠ r.id := fun h => hqr (row_unique hn hq hr h)
                rw [if_neg this, if_neg hqr]
        · have : ¬ rep.forStatuses.contains r.status = true := fun h => hs (List.contains_iff_mem.mp h)
          rw [if_pos hs, if_neg this]

/-- One job per executor within an hour of its time, the newer data wins. -/
def pgUnique : EnqueuableJob :=
  { sampleEnq with
    data := .str "new"
    criteria := some { executor := true, duration := some (3600 * sec), statuses := [.scheduled],
                       onConflict := .replace { data := true, forStatuses := [.scheduled] } } }

example : (∃ r ∈ [sampleRow 1, sampleRow 2], PgDuplicate pgUnique (pgUnique.criteria.getD {}) r) ∧
    ((⟨[sampleRow 1, sampleRow 2], 2⟩ : Pg).enqueue sampleHash Int.toNat 7 pgUnique).2.rows.map (·.data) =
      [.str "new", .str "hello"] ∧
    ((⟨[{ sampleRow 1 with scheduledAt := 3601 * sec }], 2⟩ : Pg).enqueue sampleHash Int.toNat 7 pgUnique).1 = .id 3 := by
  refine ⟨⟨sampleRow 1, by simp, ?_⟩, by decide, by decide⟩
  refine ⟨by decide, by intro k hk; simp [pgUnique, sampleEnq] at hk, fun _ => rfl, ?_⟩
  intro d hd
  have : d = 3600 * sec := (Option.some.inj hd).symm
  subst this
  decide

/-! ## C25 -/

/-- **C25, Postgres.** For every table, scheduled time and duration in whole
microseconds: a job is inserted exactly when no row that satisfies the other criteria
is scheduled within `d` of the new job's scheduled time, whatever the time of the
call. -/
theorem C25_postgres (hash : HashFn) (tie : Int → Nat) (now : Time) (e : EnqueuableJob) (uc : Criteria) (d : Delta) (p : Pg)
    (hc : e.criteria = some uc) (hd : uc.duration = some d) (hw : 1000 ∣ e.scheduledAt) (hwd : (1000 : Int) ∣ d)
    (hs : p.seq < 2147483647) :
    (p.enqueue hash tie now e).2.rows.length = p.rows.length + 1 ↔
      ∀ r ∈ p.rows, PgDuplicate e { uc with duration := none } r →
        ¬ (e.scheduledAt - d ≤ r.scheduledAt ∧ r.scheduledAt ≤ e.scheduledAt + d) := by
  have hwt : WholeTimes e uc := ⟨hw, fun d' h => by rw [hd] at h; rw [← Option.some.inj h]; exact hwd⟩
  have key : ∀ r, PgDuplicate e uc r ↔ PgDuplicate e { uc with duration := none } r ∧
      (e.scheduledAt - d ≤ r.scheduledAt ∧ r.scheduledAt ≤ e.scheduledAt + d) := by
    intro r
    constructor
    · rintro ⟨h1, h2, h3, h4⟩
      exact ⟨⟨h1, h2, h3, by simp⟩, h4 d hd⟩
    · rintro ⟨⟨h1, h2, h3, -⟩, h4⟩
      refine ⟨h1, h2, h3, ?_⟩
      intro d' h; rw [hd] at h; rw [← Option.some.inj h]; exact h4
  rcases unique_cases hash tie now e uc p hc with ⟨h, h'⟩ | ⟨r, hr, hf, h⟩
  · have hn : ¬ p.seq ≥ 2147483647 := by omega
    rw [h']
    simp only [Pg.insert, if_neg hn, List.length_append, List.length_singleton, true_iff]
    intro r hr h1 h2
    have := h r hr
    rw [(pg_finds_iff hwt).mpr ((key r).mpr ⟨h1, h2⟩)] at this
    simp at this
  · have hl : (p.enqueue hash tie now e).2.rows.length = p.rows.length := by
      rw [h]
      split
      · split
        · split
          · rfl
          · simp [updateRows]
        · rfl
      · rfl
    rw [hl]
    constructor
    · intro h; omega
    · intro hall
      have := (key r).mp ((pg_finds_iff hwt).mp hf)
      exact (hall r hr this.1 this.2).elim

/-! ## C49 -/

/-- **C49 fails** for every key whose hash is not by chance the key itself: the number
written to `uniqueness_key` is a hash of key, executor and statuses, the number looked
for is the key. For every table without a duplicate, every key criteria, and every
clock: the same enqueue twice adds two rows, both Scheduled, unless the numbers run
out. -/
theorem C49_violated (hash : HashFn) (tie tie' : Int → Nat) (now now' : Time) (e : EnqueuableJob) (uc : Criteria)
    (k : Int) (p : Pg) (hc : e.criteria = some uc) (hk : uc.key = some k)
    (hash_ne : uc.identifier hash e.executor ≠ k) (hw : WholeTimes e uc)
    (hd : ∀ r ∈ p.rows, ¬ PgDuplicate e uc r) (hs : p.seq + 1 < 2147483647) :
    ∃ r₁ r₂, ((p.enqueue hash tie now e).2.enqueue hash tie' now' e).2.rows = p.rows ++ [r₁, r₂] ∧
      InsertedAs now e ((p.seq : Int) + 1) r₁ ∧ InsertedAs now' e ((p.seq : Int) + 2) r₂ := by
  rcases unique_cases hash tie now e uc p hc with ⟨-, h⟩ | ⟨r, hr, hf, -⟩
  · have hn : ¬ p.seq ≥ 2147483647 := by omega
    have hins : (p.enqueue hash tie now e).2 =
        ⟨p.rows ++ [e.toRow now ((p.seq + 1 : Nat) : Int) (some (uc.identifier hash e.executor))], p.seq + 1⟩ := by
      rw [h]; simp only [Pg.insert, if_neg hn]
    have hdup : ∀ r ∈ (p.enqueue hash tie now e).2.rows, ¬ PgDuplicate e uc r := by
      rw [hins]
      intro r hr
      rcases List.mem_append.mp hr with hr | hr
      · exact hd r hr
      · intro hdup
        have := hdup.key k hk
        rw [List.mem_singleton.mp hr] at this
        simp only [EnqueuableJob.toRow, Option.some.injEq] at this
        exact hash_ne this
    obtain ⟨r₂, -, h2, h3⟩ := C59_insert hash tie' now' e uc (p.enqueue hash tie now e).2 hc hw hdup
      (by rw [hins]; exact hs)
    rw [h2, hins]
    refine ⟨_, r₂, by rw [List.append_assoc]; rfl, ⟨by simp [EnqueuableJob.toRow], rfl, rfl, rfl, rfl, rfl, rfl, rfl, rfl, rfl, rfl, rfl, rfl, rfl, rfl, rfl⟩, ?_⟩
    rw [hins] at h3
    have : (((p.seq + 1 : Nat) : Int) + 1) = (p.seq : Int) + 2 := by omega
    rw [this] at h3
    exact h3
  · exact (hd r hr ((pg_finds_iff hw).mp hf)).elim

/-- **C49 fails** with the hash function in use, for `by_key(&1u64)`: both enqueues
insert, and the table has two Scheduled rows with the same `uniqueness_key`. -/
theorem C49_fx_violated :
    let e : EnqueuableJob := { sampleEnq with criteria := some (Criteria.byKey (fxKeyU64 1)) }
    ((((⟨[], 0⟩ : Pg).enqueue fxHash Int.toNat 7 e).2.enqueue fxHash Int.toNat 8 e).2.rows.map fun r =>
      (r.id, r.status, r.uniquenessKey)) =
      [(1, .scheduled, some 6841065445340273522), (2, .scheduled, some 6841065445340273522)] := by
  decide +kernel

/-- **C49, partial** (missing: every key that is not a fixed point of the hash, see
`C49_violated`). An enqueue with a key after the same one, nothing in between, finds
the first one's row exactly if its hash is the key itself. -/
theorem C49_fixed_point_partial (hash : HashFn) (tie tie' : Int → Nat) (now now' : Time) (e : EnqueuableJob) (uc : Criteria)
    (k : Int) (p : Pg) (hc : e.criteria = some uc) (hk : uc.key = some k) (hs : .scheduled ∈ uc.statuses)
    (hw : WholeTimes e uc) (hpos : ∀ d, uc.duration = some d → (0 : Int) ≤ d)
    (hd : ∀ r ∈ p.rows, ¬ PgDuplicate e uc r) (hseq : p.seq + 1 < 2147483647) :
    ((p.enqueue hash tie now e).2.enqueue hash tie' now' e).2.rows.length = p.rows.length + 1 ↔
      uc.identifier hash e.executor = k := by
  by_cases hne : uc.identifier hash e.executor = k
  · refine ⟨fun _ => hne, fun _ => ?_⟩
    rcases unique_cases hash tie now e uc p hc with ⟨-, h⟩ | ⟨r, hr, hf, -⟩
    · have hn : ¬ p.seq ≥ 2147483647 := by omega
      have hins : (p.enqueue hash tie now e).2 =
          ⟨p.rows ++ [e.toRow now ((p.seq + 1 : Nat) : Int) (some (uc.identifier hash e.executor))], p.seq + 1⟩ := by
        rw [h]; simp only [Pg.insert, if_neg hn]
      have hdup : PgDuplicate e uc (e.toRow now ((p.seq + 1 : Nat) : Int) (some (uc.identifier hash e.executor))) := by
        refine ⟨hs, ?_, fun _ => rfl, ?_⟩
        · intro k' hk'
          rw [hk, Option.some.injEq] at hk'
          simp [EnqueuableJob.toRow, hne, hk']
        · intro d hd
          have := hpos d hd
          simp only [EnqueuableJob.toRow, pgTime_whole hw.1]
          simp only [Time, Delta] at *
          omega
      rcases unique_cases hash tie' now' e uc (p.enqueue hash tie now e).2 hc with ⟨h', -⟩ | ⟨r, hr, hf, h'⟩
      · have := h' (e.toRow now ((p.seq + 1 : Nat) : Int) (some (uc.identifier hash e.executor))) (by rw [hins]; simp)
        rw [(pg_finds_iff hw).mpr hdup] at this
        simp at this
      · have hl : ((p.enqueue hash tie now e).2.enqueue hash tie' now' e).2.rows.length =
            (p.enqueue hash tie now e).2.rows.length := by
          rw [h']
          split
          · split
            · split
              · rfl
              · simp [updateRows]
            · rfl
          · rfl
        rw [hl, hins]; simp
    · exact (hd r hr ((pg_finds_iff hw).mp hf)).elim
  · refine ⟨fun h => ?_, fun h => (hne h).elim⟩
    obtain ⟨r₁, r₂, h1, -⟩ := C49_violated hash tie tie' now now' e uc k p hc hk hne hw hd hseq
    rw [h1] at h
    simp at h

/-- A hash function that returns the key, for which the hypotheses above hold. -/
example : (((⟨[], 0⟩ : Pg).enqueue (fun k _ _ => k.getD 0) Int.toNat 7
      { sampleEnq with criteria := some (Criteria.byKey 5) }).2.enqueue (fun k _ _ => k.getD 0) Int.toNat 7
      { sampleEnq with criteria := some (Criteria.byKey 5) }).2.rows.length = 1 := by decide

/-! ## C26 -/

/-- **C26 fails on Postgres too**, for the same reason as C49: two cron runners with the
same executor and data that enqueue for the same tick, one after the other, add two
jobs, unless the hash of the criteria happens to be the hash of the data. For every
table without such a row, every tick in whole microseconds. -/
theorem C26_postgres_violated (hash : HashFn) (tie tie' : Int → Nat) (c : Cron D M) (tick now₁ now₂ : Time) (p : Pg)
    (j₁ j₂ : EnqueuableJob) (h₁ : c.job now₁ tick = some j₁) (h₂ : c.job now₂ tick = some j₂)
    (hash_ne : hash (some c.keyHash) (some c.consts.name) [.scheduled] ≠ c.keyHash) (hw : 1000 ∣ tick)
    (hd : ∀ r ∈ p.rows, r.uniquenessKey ≠ some c.keyHash) (hs : p.seq + 1 < 2147483647) :
    ∃ r₁ r₂, ((p.enqueue hash tie now₁ j₁).2.enqueue hash tie' now₂ j₂).2.rows = p.rows ++ [r₁, r₂] ∧
      r₁.status = .scheduled ∧ r₂.status = .scheduled ∧ r₁.executor = c.consts.name ∧ r₂.executor = c.consts.name ∧
      r₁.data = r₂.data ∧ r₁.scheduledAt = tick ∧ r₂.scheduledAt = tick := by
  have hjob : ∀ {now : Time} {j : EnqueuableJob}, c.job now tick = some j →
      j.criteria = some (cronCriteria c.keyHash) ∧ j.scheduledAt = tick ∧ j.executor = c.consts.name ∧
      c.cd.enc c.data = some j.data := by
    intro now j h
    simp only [Cron.job, JobBuilder.build, JobBuilder.applyAll, List.foldl, JobBuilder.apply, JobBuilder.init,
      Codec.encOption] at h
    split at h
    · simp at h
    · rename_i data hd
      simp only [Option.some.injEq] at h
      subst h
      exact ⟨rfl, rfl, rfl, hd⟩
  obtain ⟨a1, a2, a3, a4⟩ := hjob h₁
  obtain ⟨b1, b2, b3, b4⟩ := hjob h₂
  have hwt : ∀ {j : EnqueuableJob}, j.scheduledAt = tick → WholeTimes j (cronCriteria c.keyHash) := by
    intro j h
    refine ⟨by rw [h]; exact hw, ?_⟩
    intro d hd
    have : d = 0 := (Option.some.inj hd).symm
    rw [this]; exact Int.dvd_zero _
  have hnd : ∀ (j : EnqueuableJob), ∀ r ∈ p.rows, ¬ PgDuplicate j (cronCriteria c.keyHash) r :=
    fun j r hr h => hd r hr (h.key c.keyHash rfl)
  rcases unique_cases hash tie now₁ j₁ _ p a1 with ⟨-, h⟩ | ⟨r, hr, hf, -⟩
  · have hn : ¬ p.seq ≥ 2147483647 := by omega
    have hins : (p.enqueue hash tie now₁ j₁).2 =
        ⟨p.rows ++ [j₁.toRow now₁ ((p.seq + 1 : Nat) : Int) (some ((cronCriteria c.keyHash).identifier hash j₁.executor))], p.seq + 1⟩ := by
      rw [h]; simp only [Pg.insert, if_neg hn]
    obtain ⟨r₂, -, g1, g2⟩ := C59_insert hash tie' now₂ j₂ _ (p.enqueue hash tie now₁ j₁).2 b1 (hwt b2) (by
        rw [hins]
        intro r hr
        rcases List.mem_append.mp hr with hr | hr
        · exact hnd j₂ r hr
        · intro hdup
          have := hdup.key c.keyHash rfl
          rw [List.mem_singleton.mp hr] at this
          simp only [EnqueuableJob.toRow, Option.some.injEq] at this
          rw [a3] at this
          exact hash_ne this) (by rw [hins]; exact hs)
    rw [g1, hins]
    refine ⟨_, r₂, by rw [List.append_assoc]; rfl, rfl, g2.status, a3, by rw [g2.executor, b3], ?_, ?_, ?_⟩
    · rw [g2.data]
      rw [a4, Option.some.injEq] at b4
      exact b4
    · simp only [EnqueuableJob.toRow, a2, pgTime_whole hw]
    · rw [g2.scheduledAt, b2, pgTime_whole hw]
  · exact (hnd j₁ r hr ((pg_finds_iff (hwt a2)).mp hf)).elim

/-- With the hash function in use, the executor `mail` and the key of the value `1u64`
the hypothesis on the hash holds. -/
example : fxHash (some (fxKeyU64 1)) (some "mail") [.scheduled] ≠ fxKeyU64 1 := by decide +kernel

/-- **C26, partial** (missing: every hash of the criteria that differs from the hash of the
data, see `C26_postgres_violated`; the in-memory backend, see `C26_violated`). On Postgres two
cron runners with the same executor and data that enqueue for the same tick, one after the
other, nothing in between and no such job before, together add one job exactly if the hash of
the criteria is the hash of the data. -/
theorem C26_fixed_point_partial (hash : HashFn) (tie tie' : Int → Nat) (c : Cron D M) (tick now₁ now₂ : Time) (p : Pg)
    (j₁ j₂ : EnqueuableJob) (h₁ : c.job now₁ tick = some j₁) (h₂ : c.job now₂ tick = some j₂) (hw : 1000 ∣ tick)
    (hd : ∀ r ∈ p.rows, ¬ PgDuplicate j₁ (cronCriteria c.keyHash) r) (hs : p.seq + 1 < 2147483647) :
    ((p.enqueue hash tie now₁ j₁).2.enqueue hash tie' now₂ j₂).2.rows.length = p.rows.length + 1 ↔
      hash (some c.keyHash) (some c.consts.name) [.scheduled] = c.keyHash := by
  have hj : j₂ = j₁ := by
    rw [show c.job now₂ tick = c.job now₁ tick from rfl, h₁] at h₂
    exact (Option.some.inj h₂).symm
  subst hj
  have hjob : j₂.criteria = some (cronCriteria c.keyHash) ∧ j₂.scheduledAt = tick ∧ j₂.executor = c.consts.name := by
    simp only [Cron.job, JobBuilder.build, JobBuilder.applyAll, List.foldl, JobBuilder.apply, JobBuilder.init,
      Codec.encOption] at h₁
    split at h₁
    · simp at h₁
    · simp only [Option.some.injEq] at h₁
      subst h₁
      exact ⟨rfl, rfl, rfl⟩
  have hzero : ∀ d, (cronCriteria c.keyHash).duration = some d → d = 0 := fun d hd => (Option.some.inj hd).symm
  have := C49_fixed_point_partial hash tie tie' now₁ now₂ j₂ (cronCriteria c.keyHash) c.keyHash p hjob.1 rfl
    (show JobStatus.scheduled ∈ [JobStatus.scheduled] by simp) ⟨by rw [hjob.2.1]; exact hw, fun d hd => by rw [hzero d hd]; exact Int.dvd_zero _⟩
    (fun d hd => by rw [hzero d hd]; exact Int.le_refl _) hd hs
  rw [this]
  show hash (some c.keyHash) (some j₂.executor) [.scheduled] = _ ↔ _
  rw [hjob.2.2]

/-- With a hash that returns the key there is one job, with one that does not there are two. -/
example :
    (((⟨[], 0⟩ : Pg).enqueue (fun k _ _ => k.getD 0) Int.toNat 990000000 ((sampleCron.job 990000000 sec).getD sampleEnq)).2.enqueue
      (fun k _ _ => k.getD 0) Int.toNat 990000001 ((sampleCron.job 990000001 sec).getD sampleEnq)).2.rows.length = 1 ∧
    (((⟨[], 0⟩ : Pg).enqueue (fun _ _ _ => 0) Int.toNat 990000000 ((sampleCron.job 990000000 sec).getD sampleEnq)).2.enqueue
      (fun _ _ _ => 0) Int.toNat 990000001 ((sampleCron.job 990000001 sec).getD sampleEnq)).2.rows.length = 2 := by decide

end Rexecutor
