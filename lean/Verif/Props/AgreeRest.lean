import Verif.Props.AgreeUnique
import Verif.Props.Query
import Verif.Props.PgQuery
import Verif.Props.PgPrune
import Verif.Props.Store

/-!
# C142: queries, updates and prunes on both backends

What `C50` and `C141` leave out.
-/

namespace Rexecutor

/-! ## Queries -/

mutual
/-- The query with the ids of Postgres. -/
def Query.numbered : Query → Query
  | .not q => .not q.numbered
  | .and qs => .and (Query.numberedAll qs)
  | .or qs => .or (Query.numberedAll qs)
  | .idEquals id => .idEquals (id + 1)
  | .idIn ids => .idIn (ids.map (· + 1))
  | q => q
/-- The same for a list of queries. -/
def Query.numberedAll : List Query → List Query
  | [] => []
  | q :: qs => q.numbered :: Query.numberedAll qs
end

private theorem contains_succ (ids : List Int) (i : Int) : (ids.map (· + 1)).contains (i + 1) = ids.contains i := by
  rw [Bool.eq_iff_iff, List.contains_iff_mem, List.contains_iff_mem, List.mem_map]
  exact ⟨fun ⟨a, h, e⟩ => (by omega : a = i) ▸ h, fun h => ⟨i, h, rfl⟩⟩

mutual
private theorem numbered_matches (j : Job) : (q : Query) → q.numbered.matches j.numbered = q.matches j
  | .not q => by simp only [Query.numbered, Query.matches, numbered_matches j q]
  | .and qs => by simp only [Query.numbered, Query.matches]; exact (numbered_all j qs).1
  | .or qs => by simp only [Query.numbered, Query.matches]; exact (numbered_all j qs).2
  | .idEquals id => by
    simp only [Query.numbered, Query.matches, Job.numbered]
    rw [Bool.eq_iff_iff, beq_iff_eq, beq_iff_eq]; omega
  | .idIn ids => by simp only [Query.numbered, Query.matches, Job.numbered]; exact contains_succ ids j.id
  | .executorEqual e => rfl
  | .dataEquals d => rfl
  | .metadataEquals m => rfl
  | .statusEqual s => rfl
  | .tagsAllOf tags => rfl
  | .tagsOneOf tags => rfl
  | .scheduledAtBefore t => rfl
  | .scheduledAtAfter t => rfl
  | .scheduledAtEqual t => rfl
private theorem numbered_all (j : Job) : (qs : List Query) →
    Query.matchesAll (Query.numberedAll qs) j.numbered = Query.matchesAll qs j ∧
    Query.matchesAny (Query.numberedAll qs) j.numbered = Query.matchesAny qs j
  | [] => ⟨rfl, rfl⟩
  | q :: qs => by
    simp only [Query.numberedAll, Query.matchesAll, Query.matchesAny, numbered_matches j q, (numbered_all j qs).1, (numbered_all j qs).2, and_self]
end

private theorem numberedAll_map (qs : List Query) : Query.numberedAll qs = qs.map Query.numbered := by
  induction qs with
  | nil => rfl
  | cons q qs ih => rw [Query.numberedAll, ih]; rfl

private theorem numbered_literal {q : Query} (h : Literal q) : Literal q.numbered := by
  induction h with
  | idEquals i => exact .idEquals _
  | idIn i => exact .idIn _
  | not q h ih => exact .not _ ih
  | and q h ih => exact .and _ ih
  | or q h ih => exact .or _ ih
  | executorEqual e => exact .executorEqual e
  | dataEquals d => exact .dataEquals d
  | metadataEquals m => exact .metadataEquals m
  | statusEqual s => exact .statusEqual s
  | tagsAllOf ts => exact .tagsAllOf ts
  | tagsOneOf ts => exact .tagsOneOf ts
  | before t h => exact .before t h
  | after t h => exact .after t h
  | at' t h => exact .at' t h

private theorem numbered_conjunctive {q : Query} (h : Conjunctive q) : Conjunctive q.numbered := by
  induction h with
  | literal q h => exact .literal _ (numbered_literal h)
  | and q qs h ih =>
    refine .and _ _ (fun x hx => ?_)
    rw [show q.numbered :: Query.numberedAll qs = (q :: qs).map Query.numbered by rw [numberedAll_map]; rfl] at hx
    obtain ⟨y, hy, rfl⟩ := List.mem_map.mp hx
    exact ih y hy
  | or q h ih => exact .or _ ih

private theorem numbered_disjunctive {q : Query} (h : Disjunctive q) : Disjunctive q.numbered := by
  induction h with
  | conj q h => exact .conj _ (numbered_conjunctive h)
  | or q qs h ih =>
    refine .or _ _ (fun x hx => ?_)
    rw [show q.numbered :: Query.numberedAll qs = (q :: qs).map Query.numbered by rw [numberedAll_map]; rfl] at hx
    obtain ⟨y, hy, rfl⟩ := List.mem_map.mp hx
    exact ih y hy
  | and q h ih => exact .and _ ih

private theorem decodeRows_map {rows : List Row} {ks : List KeyedJob} (h : rows.map Row.decode = ks.map fun k => some k.job.numbered) :
    decodeRows rows = some (ks.map fun k => k.job.numbered) := by
  induction rows generalizing ks with
  | nil =>
    cases ks with
    | nil => rfl
    | cons k ks => simp at h
  | cons r rows ih =>
    cases ks with
    | nil => simp at h
    | cons k ks =>
      simp only [List.map_cons, List.cons.injEq] at h
      simp only [decodeRows, h.1, ih h.2, List.map_cons]

/-- **C142, queries, partial** (missing: queries that need parentheses or name several ids, see C43 and C44; the order of the
answer, see `C142_violated`). From equal stores the same query finds the same jobs on both backends and changes neither. -/
theorem C142_query_partial (tie : Int → Nat) (t : Time) (m : Mem) (p : Pg) (q : Query) (S : SameStore m p) (hq : Disjunctive q) :
    ∃ js js', m.step t (.query q) = (.jobs js, m) ∧ p.step tie t (.query q.numbered) = (.jobs js', p) ∧
      js'.Perm (js.map Job.numbered) ∧ js'.Pairwise fun a b => b.insertedAt ≤ a.insertedAt := by
  classical
  obtain ⟨js', h1, h2, h3⟩ := C43_disjunctive_partial tie p.rows _ q.numbered (decodeRows_map S.jobs) (numbered_disjunctive hq)
  refine ⟨_, js', C18_query_exact t m q, by simp only [Pg.step, h1], ?_, h3⟩
  refine h2.trans (List.Perm.of_eq ?_)
  rw [show (m.jobs.map fun k => k.job.numbered) = (m.jobs.map (·.job)).map Job.numbered by rw [List.map_map]; rfl, List.filter_map]
  congr 1
  refine List.filter_congr (fun j _ => ?_)
  simp only [Function.comp]
  rw [Bool.eq_iff_iff]
  simp only [decide_eq_true_eq]
  rw [← query_matches_iff, ← query_matches_iff, numbered_matches]

/-! ## Updates -/

/-- `job` is the stored job with other data, metadata, attempts allowed, scheduled time, priority or tags. -/
def Job.EditOf (job old : Job) : Prop :=
  job = { old with data := job.data, metadata := job.metadata, maxAttempts := job.maxAttempts, scheduledAt := job.scheduledAt,
                   priority := job.priority, tags := job.tags }

/-- **C142, updates, partial** (missing: updates of other fields, see `C142_violated`). From equal stores an update that
changes only these six fields of the stored job, or names no stored job, does the same on both backends. -/
theorem C142_update_partial (tie : Int → Nat) (t : Time) (m : Mem) (p : Pg) (job : Job) (S : SameStore m p) (ht : 1000 ∣ job.scheduledAt)
    (he : ∀ k ∈ m.jobs, k.job.id = job.id → job.EditOf k.job) :
    SameRes (m.step t (.update job)).1 (p.step tie t (.update job.numbered)).1 ∧
      SameStore (m.step t (.update job)).2 (p.step tie t (.update job.numbered)).2 := by
  refine agree_onJob S job.id (fun _ => job) (Row.update job.numbered) true (fun _ _ => rfl) ?_
  intro k hk hi r h
  have e := he k hk hi
  obtain ⟨es, hes, hj⟩ := agreeDecode h
  simp only [Row.decode, Row.update, hes, Option.some.injEq, Job.numbered, pgTime_whole ht]
  unfold Job.EditOf at e
  rw [e]
  simp only [Job.numbered, Job.mk.injEq] at hj ⊢
  obtain ⟨h1, h2, h3, h4, h5, h6, h7, h8, h9, h10, h11, h12, h13, h14, h15, h16⟩ := hj
  simp only [h1, h2, h3, h6, h10, h11, h13, h14, h15, h16]
  simp

/-! ## Prunes -/

private theorem filter_mapped {rows : List Row} {ks : List KeyedJob} {P : KeyedJob → Bool} {Q : Row → Bool}
    (h : rows.map Row.decode = ks.map fun k => some k.job.numbered)
    (hPQ : ∀ k ∈ ks, ∀ r ∈ rows, r.decode = some k.job.numbered → Q r = P k) :
    (rows.filter Q).map Row.decode = (ks.filter P).map fun k => some k.job.numbered := by
  induction rows generalizing ks with
  | nil =>
    cases ks with
    | nil => rfl
    | cons k ks => simp at h
  | cons r rows ih =>
    cases ks with
    | nil => simp at h
    | cons k ks =>
      simp only [List.map_cons, List.cons.injEq] at h
      have hr := ih h.2 (fun k hk r hr => hPQ k (List.mem_cons_of_mem _ hk) r (List.mem_cons_of_mem _ hr))
      have h1 := hPQ k List.mem_cons_self r List.mem_cons_self h.1
      rw [List.filter_cons, List.filter_cons, h1]
      split
      · rw [List.map_cons, List.map_cons, hr, h.1]
      · exact hr

private theorem same_row {m : Mem} {p : Pg} (S : SameStore m p) {r r' : Row} (hr : r ∈ p.rows) (hr' : r' ∈ p.rows) {j : Job}
    (h : r.decode = some j) (h' : r'.decode = some j) : r = r' := by
  have hid : r.id = r'.id := by rw [agreeDecodeId h, agreeDecodeId h']
  exact row_unique S.rowsOnce hr hr' hid

private theorem same_job {m : Mem} {p : Pg} (S : SameStore m p) {k k' : KeyedJob} (hk : k ∈ m.jobs) (hk' : k' ∈ m.jobs)
    (h : k.job.numbered = k'.job.numbered) : k = k' := by
  have hid : k.job.id = k'.job.id := by
    have := congrArg Job.id h
    simp only [Job.numbered] at this
    omega
  obtain ⟨l, r, hl⟩ := List.append_of_mem hk
  have hn := S.once
  rw [hl, List.map_append, List.map_cons, List.nodup_append, List.nodup_cons] at hn
  rw [hl] at hk'
  rcases List.mem_append.mp hk' with g | g
  · exact absurd hid.symm (hn.2.2 _ (List.mem_map_of_mem (f := fun k : KeyedJob => k.job.id) g) _ List.mem_cons_self)
  · rcases List.mem_cons.mp g with g | g
    · exact g.symm
    · exact absurd (List.mem_map_of_mem (f := fun k : KeyedJob => k.job.id) g) (by rw [← hid]; exact hn.2.1.1)

/-- Removing jobs from equal stores leaves equal stores exactly if the same jobs are removed. -/
private theorem filter_agree {m : Mem} {p : Pg} (S : SameStore m p) (P : KeyedJob → Bool) (Q : Row → Bool) :
    SameStore { m with jobs := m.jobs.filter P } { p with rows := p.rows.filter Q } ↔
      ∀ k ∈ m.jobs, ∀ r ∈ p.rows, r.decode = some k.job.numbered → Q r = P k := by
  constructor
  · intro S' k hk r hr hd
    rw [Bool.eq_iff_iff]
    constructor
    · intro hq
      obtain ⟨k', hk', hd'⟩ := agreeMem S'.jobs (List.mem_filter.mpr ⟨hr, hq⟩)
      rw [hd, Option.some.injEq] at hd'
      obtain ⟨hk', hp'⟩ := List.mem_filter.mp hk'
      rw [same_job S hk hk' hd']; exact hp'
    · intro hp
      have hk2 : some k.job.numbered ∈ (m.jobs.filter P).map fun k => some k.job.numbered :=
        List.mem_map_of_mem (f := fun k : KeyedJob => some k.job.numbered) (List.mem_filter.mpr ⟨hk, hp⟩)
      rw [← S'.jobs] at hk2
      obtain ⟨r', hr', hd'⟩ := List.mem_map.mp hk2
      obtain ⟨hr', hq'⟩ := List.mem_filter.mp hr'
      rw [same_row S hr hr' hd hd']; exact hq'
  · intro h
    refine ⟨filter_mapped S.jobs h, S.given, ?_, fun k hk => S.past k (List.mem_filter.mp hk).1⟩
    exact List.Sublist.nodup (List.filter_sublist.map _) S.once

private theorem decode_fields {r : Row} {j : Job} (h : r.decode = some j.numbered) :
    r.status = j.status ∧ r.executor = j.executor ∧ r.scheduledAt = j.scheduledAt := by
  obtain ⟨es, -, he⟩ := agreeDecode h
  have h1 := congrArg Job.status he
  have h2 := congrArg Job.executor he
  have h3 := congrArg Job.scheduledAt he
  simp only [Job.numbered] at h1 h2 h3
  exact ⟨h1.symm, h2.symm, h3.symm⟩

private theorem selects_row {spec : PruneSpec} {r : Row} {j : Job} (h : r.decode = some j.numbered) : spec.SelectsRow r ↔ spec.Selects j := by
  obtain ⟨h1, h2, -⟩ := decode_fields h
  unfold PruneSpec.SelectsRow PruneSpec.Selects
  rw [h1, h2]
  cases spec.executors <;> exact Iff.rfl

/-- **C142, pruning by age, exactly.** On equal stores pruning by an age leaves equal stores on both backends exactly if, for
a status that is final, every selected job was due less than the age from now, but not exactly the age ago; and, for
any other status, every one is due later than the age ago, but not exactly in the age from now. -/
theorem C142_prune_age_exactly (tie : Int → Nat) (t : Time) (m : Mem) (p : Pg) (spec : PruneSpec) (age : Delta) (S : SameStore m p)
    (hs : spec.pruneBy = .maxAge age) (h0 : 0 ≤ age) (ht : 1000 ∣ t) (ha : 1000 ∣ age) :
    (SameStore (m.step t (.prune spec)).2 (p.step tie t (.prune spec)).2 ↔
      ∀ k ∈ m.jobs, spec.Selects k.job →
        if spec.status.Finished then k.job.scheduledAt < t + age ∧ k.job.scheduledAt ≠ t - age
        else t - age < k.job.scheduledAt ∧ k.job.scheduledAt ≠ t + age) ∧
    (m.step t (.prune spec)).1 = .unit ∧ (p.step tie t (.prune spec)).1 = .unit := by
  refine ⟨?_, rfl, rfl⟩
  have e1 : (m.step t (.prune spec)).2 = { m with jobs := m.jobs.filter fun k => ¬ (spec.Selects k.job ∧
      (k.job.scheduledAt ≤ t - age ∨ t + age ≤ k.job.scheduledAt)) } := by
    have := C16_exactly t spec age m hs
    simp only [Mem.step] at this ⊢
    rw [← this]
    simp only [Mem.prune, hs]
  rw [e1]
  refine (filter_agree S _ (fun r => !(spec.doomed t tie p.rows).contains r.id)).trans ?_
  have hQ : ∀ k ∈ m.jobs, ∀ r ∈ p.rows, r.decode = some k.job.numbered →
      ((!(spec.doomed t tie p.rows).contains r.id) = true ↔ ¬ (spec.Selects k.job ∧
        if spec.status.Finished then k.job.scheduledAt < t - age else k.job.scheduledAt > t + age)) := by
    intro k hk r hr hd
    have h47 := C47_max_age tie t spec age p S.rowsOnce hs r
    simp only [Pg.step, Pg.prune, List.mem_filter, hr, true_and, selects_row hd, (decode_fields hd).2.2] at h47
    rw [h47, pgTime_whole (Int.dvd_sub ht ha), pgTime_whole (Int.dvd_add ht ha)]
  constructor
  · intro h k hk hsel
    obtain ⟨l, rest, hl⟩ := List.append_of_mem hk
    obtain ⟨rl, r, rr, f1, -, hd, -⟩ := agreeMapped S.jobs hl
    have hr : r ∈ p.rows := by rw [f1]; simp
    have h1 := h k hk r hr hd
    rw [Bool.eq_iff_iff, hQ k hk r hr hd] at h1
    simp only [hsel, true_and, decide_eq_true_eq] at h1
    by_cases hf : spec.status.Finished
    · simp only [hf, if_true, Time, Delta] at *; omega
    · simp only [hf, if_false, Time, Delta] at *; omega
  · intro h k hk r hr hd
    rw [Bool.eq_iff_iff, hQ k hk r hr hd]
    by_cases hsel : spec.Selects k.job
    · have h1 := h k hk hsel
      simp only [hsel, true_and, decide_eq_true_eq]
      by_cases hf : spec.status.Finished
      · simp only [hf, if_true, Time, Delta] at *; omega
      · simp only [hf, if_false, Time, Delta] at *; omega
    · simp [hsel]

/-- **C142, pruning by number.** On equal stores pruning all but the last `n` leaves equal stores only if no job is selected, or
exactly twice `n` are: in memory the first `n` are removed, on Postgres all but `n`. -/
theorem C142_prune_length_only_if (tie : Int → Nat) (t : Time) (m : Mem) (p : Pg) (spec : PruneSpec) (n : Nat) (S : SameStore m p)
    (hs : spec.pruneBy = .maxLength n) (h : SameStore (m.step t (.prune spec)).2 (p.step tie t (.prune spec)).2) :
    (∀ k ∈ m.jobs, ¬ spec.Selects k.job) ∨ (m.jobs.filter fun k => decide (spec.Selects k.job)).length = 2 * n := by
  have hcount : ∀ {m : Mem} {p : Pg}, SameStore m p → (p.rows.filter fun r => decide (spec.SelectsRow r)).length =
      (m.jobs.filter fun k => decide (spec.Selects k.job)).length := by
    intro m p S
    have := congrArg List.length (filter_mapped (P := fun k => decide (spec.Selects k.job)) (Q := fun r => decide (spec.SelectsRow r)) S.jobs
      (fun k _ r _ hd => by rw [Bool.eq_iff_iff, decide_eq_true_eq, decide_eq_true_eq]; exact selects_row hd))
    simpa using this
  have h1 := congrArg List.length (C17_max_length_partial t spec n m hs)
  have h2 := (C47_max_length tie t spec n p S.rowsOnce hs).1
  rw [hcount h, hcount S] at h2
  rw [List.length_drop] at h1
  rw [h1] at h2
  by_cases hz : (m.jobs.filter fun k => decide (spec.Selects k.job)).length = 0
  · left
    intro k hk hsel
    have := List.filter_eq_nil_iff.mp (List.length_eq_zero_iff.mp hz) k hk
    simp [hsel] at this
  · right; omega

private theorem retain_filter {spec : PruneSpec} {K : KeyedJob → Bool} (n c : Nat) (ks : List KeyedJob)
    (h0 : ∀ k ∈ ks, ¬ spec.Selects k.job → K k = true)
    (h1 : ∀ k ∈ (ks.filter fun k => decide (spec.Selects k.job)).take (n - c), K k = false)
    (h2 : ∀ k ∈ (ks.filter fun k => decide (spec.Selects k.job)).drop (n - c), K k = true) :
    Mem.retainLength spec n c ks = ks.filter K := by
  induction ks generalizing c with
  | nil => rfl
  | cons k ks ih =>
    have h0' : ∀ k ∈ ks, ¬ spec.Selects k.job → K k = true := fun k hk => h0 k (List.mem_cons_of_mem _ hk)
    rw [Mem.retainLength]
    by_cases hs : spec.Selects k.job
    · rw [if_pos (spec_matches.mpr hs)]
      rw [List.filter_cons, if_pos (by simpa using hs)] at h1 h2
      by_cases hc : c + 1 > n
      · have e1 : n - c = 0 := by omega
        have e2 : n - (c + 1) = 0 := by omega
        rw [e1] at h1 h2
        rw [if_pos hc, ih (c + 1) h0' (by rw [e2]; simp) (by rw [e2]; intro k hk; exact h2 k (List.mem_cons_of_mem _ hk)),
          List.filter_cons, if_pos (h2 k List.mem_cons_self)]
      · have e1 : n - c = (n - (c + 1)) + 1 := by omega
        rw [e1, List.take_succ_cons] at h1
        rw [e1, List.drop_succ_cons] at h2
        rw [if_neg hc, ih (c + 1) h0' (fun k hk => h1 k (List.mem_cons_of_mem _ hk)) h2, List.filter_cons,
          if_neg (by rw [h1 k List.mem_cons_self]; simp)]
    · rw [if_neg (fun h => hs (spec_matches.mp h))]
      rw [List.filter_cons, if_neg (by simpa using hs)] at h1 h2
      rw [ih c h0' h1 h2, List.filter_cons, if_pos (h0 k List.mem_cons_self hs)]

/-- **C142, pruning by number, partial** (missing: the other cases, in which the stores differ unless the database happens to order
jobs due at the same time so that they do not, see `C142_prune_length_only_if`). If no job is selected, or twice
`n`, the first half of them due before the second – after it, for a status that is not final – then
pruning all but `n` leaves equal stores. -/
theorem C142_prune_length_partial (tie : Int → Nat) (t : Time) (m : Mem) (p : Pg) (spec : PruneSpec) (n : Nat) (S : SameStore m p)
    (hs : spec.pruneBy = .maxLength n)
    (h : (∀ k ∈ m.jobs, ¬ spec.Selects k.job) ∨
      ∃ first second, (m.jobs.filter fun k => decide (spec.Selects k.job)) = first ++ second ∧ first.length = n ∧ second.length = n ∧
        ∀ k ∈ first, ∀ k' ∈ second,
          if spec.status.Finished then k.job.scheduledAt < k'.job.scheduledAt else k'.job.scheduledAt < k.job.scheduledAt) :
    SameStore (m.step t (.prune spec)).2 (p.step tie t (.prune spec)).2 := by
  have e1 : (m.step t (.prune spec)).2 = { m with jobs := Mem.retainLength spec n 0 m.jobs } := by
    simp only [Mem.step, Mem.prune, hs]
  have hrow : ∀ k ∈ m.jobs, ∃ r ∈ p.rows, r.decode = some k.job.numbered ∧ r.id = k.job.id + 1 := by
    intro k hk
    obtain ⟨l, rest, hl⟩ := List.append_of_mem hk
    obtain ⟨rl, r, rr, f1, -, hd, -⟩ := agreeMapped S.jobs hl
    exact ⟨r, by rw [f1]; simp, hd, by rw [agreeDecodeId hd]; rfl⟩
  have hkept : ∀ r ∈ p.rows, ((!(spec.doomed t tie p.rows).contains r.id) = true ↔ r ∈ (p.step tie t (.prune spec)).2.rows) := by
    intro r hr
    simp only [Pg.step, Pg.prune, List.mem_filter, hr, true_and]
  have hagree := (filter_agree S (fun k => !(spec.doomed t tie p.rows).contains (k.job.id + 1))
    (fun r => !(spec.doomed t tie p.rows).contains r.id)).mpr
    (fun k _ r _ hd => by rw [show r.id = k.job.id + 1 by rw [agreeDecodeId hd]; rfl])
  have hun : ∀ k ∈ m.jobs, ¬ spec.Selects k.job → (!(spec.doomed t tie p.rows).contains (k.job.id + 1)) = true := by
    intro k hk hns
    obtain ⟨r, hr, hd, hid⟩ := hrow k hk
    rw [← hid]
    exact (hkept r hr).mpr ((C47_frame tie t spec p S.rowsOnce).2.1 r hr (fun h => hns ((selects_row hd).mp h)))
  have done : (∀ k ∈ (m.jobs.filter fun k => decide (spec.Selects k.job)).take n, (!(spec.doomed t tie p.rows).contains (k.job.id + 1)) = false) →
      (∀ k ∈ (m.jobs.filter fun k => decide (spec.Selects k.job)).drop n, (!(spec.doomed t tie p.rows).contains (k.job.id + 1)) = true) →
      SameStore (m.step t (.prune spec)).2 (p.step tie t (.prune spec)).2 := by
    intro g1 g2
    rw [e1, retain_filter (K := fun k => !(spec.doomed t tie p.rows).contains (k.job.id + 1)) n 0 m.jobs hun g1 g2]
    exact hagree
  rcases h with h | ⟨first, second, hsel, hf, hl, hord⟩
  · have hnil : (m.jobs.filter fun k => decide (spec.Selects k.job)) = [] := by
      rw [List.filter_eq_nil_iff]; intro k hk; simpa using h k hk
    exact done (by rw [hnil]; simp) (by rw [hnil]; simp)
  · obtain ⟨h47, hbetter⟩ := C47_max_length tie t spec n p S.rowsOnce hs
    have hmem : ∀ k ∈ first ++ second, k ∈ m.jobs ∧ spec.Selects k.job := by
      intro k hk
      rw [← hsel] at hk
      simpa using List.mem_filter.mp hk
    -- as many are kept on Postgres as there are in the second half
    have hcount : (first ++ second).countP (fun k => !(spec.doomed t tie p.rows).contains (k.job.id + 1)) = n := by
      have h1 := congrArg List.length (filter_mapped (P := fun k => decide (spec.Selects k.job)) (Q := fun r => decide (spec.SelectsRow r)) S.jobs
        (fun k _ r _ hd => by rw [Bool.eq_iff_iff, decide_eq_true_eq, decide_eq_true_eq]; exact selects_row hd))
      have h2 := congrArg List.length (filter_mapped (P := fun k => decide (spec.Selects k.job)) (Q := fun r => decide (spec.SelectsRow r)) hagree.jobs
        (fun k _ r _ hd => by rw [Bool.eq_iff_iff, decide_eq_true_eq, decide_eq_true_eq]; exact selects_row hd))
      simp only [List.length_map] at h1 h2
      rw [h1, hsel, List.length_append, hf, hl] at h47
      simp only [Pg.step, Pg.prune] at h47
      rw [h47] at h2
      rw [← hsel, List.countP_eq_length_filter, List.filter_filter]
      rw [List.filter_filter] at h2
      rw [show (n : Nat) = min n (n + n) by omega, h2]
      congr 1
      refine List.filter_congr (fun k _ => ?_)
      rw [Bool.and_comm]
    -- one of the first half is kept only if all of the second are
    have hnone : ∀ k ∈ first, (!(spec.doomed t tie p.rows).contains (k.job.id + 1)) = false := by
      intro k hk
      cases hkk : (!(spec.doomed t tie p.rows).contains (k.job.id + 1)) with
      | false => rfl
      | true =>
        exfalso
        obtain ⟨hkm, hksel⟩ := hmem k (List.mem_append_left _ hk)
        obtain ⟨r, hr, hd, hid⟩ := hrow k hkm
        have hall : ∀ k' ∈ second, (!(spec.doomed t tie p.rows).contains (k'.job.id + 1)) = true := by
          intro k' hk'
          obtain ⟨hkm', hksel'⟩ := hmem k' (List.mem_append_right _ hk')
          obtain ⟨r', hr', hd', hid'⟩ := hrow k' hkm'
          rw [← hid']
          refine (hkept r' hr').mpr (Classical.byContradiction fun hgone => ?_)
          have h1 := hbetter r ((hkept r hr).mp (by rw [hid]; exact hkk)) ((selects_row hd).mpr hksel) r' hr' hgone
          have h2 := hord k hk k' hk'
          rw [(decode_fields hd).2.2, (decode_fields hd').2.2] at h1
          by_cases hfin : spec.status.Finished
          · simp only [hfin, if_true, Time] at h1 h2; omega
          · simp only [hfin, if_false, Time] at h1 h2; omega
        rw [List.countP_append, List.countP_eq_length.mpr hall, hl] at hcount
        have := List.countP_pos_iff (p := fun k : KeyedJob => !(spec.doomed t tie p.rows).contains (k.job.id + 1)) |>.mpr ⟨k, hk, hkk⟩
        omega
    have hall : ∀ k ∈ second, (!(spec.doomed t tie p.rows).contains (k.job.id + 1)) = true := by
      rw [List.countP_append, List.countP_eq_zero.mpr (fun k hk => by rw [hnone k hk]; simp), Nat.zero_add] at hcount
      exact List.countP_eq_length.mp (hcount.trans hl.symm)
    exact done (by rw [hsel, List.take_left' hf]; exact hnone) (by rw [hsel, List.drop_left' hf]; exact hall)

/-! ## Histories -/

/-- Calls of C50, unique enqueues as in C141, and queries, updates and prunes as above. The second call is the
first with the ids of Postgres. -/
inductive SameCallR (t : Time) (m : Mem) : Api → Api → Prop where
  | call (c c' : Api) (h : SameCall c c') (ho : Ordinary t m c) : SameCallR t m c c'
  | unique (e : EnqueuableJob) (uc : Criteria) (h : PlainUnique t m e uc) : SameCallR t m (.enqueue e) (.enqueue e)
  | query (q : Query) (h : Disjunctive q) : SameCallR t m (.op (.query q)) (.op (.query q.numbered))
  | update (job : Job) (h : 1000 ∣ job.scheduledAt) (he : ∀ k ∈ m.jobs, k.job.id = job.id → job.EditOf k.job) :
      SameCallR t m (.op (.update job)) (.op (.update job.numbered))
  | age (spec : PruneSpec) (age : Delta) (hs : spec.pruneBy = .maxAge age) (h0 : 0 ≤ age) (ht : 1000 ∣ t) (ha : 1000 ∣ age)
      (h : ∀ k ∈ m.jobs, spec.Selects k.job →
        if spec.status.Finished then k.job.scheduledAt < t + age ∧ k.job.scheduledAt ≠ t - age
        else t - age < k.job.scheduledAt ∧ k.job.scheduledAt ≠ t + age) : SameCallR t m (.op (.prune spec)) (.op (.prune spec))
  | length (spec : PruneSpec) (n : Nat) (hs : spec.pruneBy = .maxLength n)
      (h : (∀ k ∈ m.jobs, ¬ spec.Selects k.job) ∨
        ∃ first second, (m.jobs.filter fun k => decide (spec.Selects k.job)) = first ++ second ∧ first.length = n ∧ second.length = n ∧
          ∀ k ∈ first, ∀ k' ∈ second,
            if spec.status.Finished then k.job.scheduledAt < k'.job.scheduledAt else k'.job.scheduledAt < k.job.scheduledAt) :
      SameCallR t m (.op (.prune spec)) (.op (.prune spec))

/-- Histories of these calls. -/
inductive SameHistoryR : Mem → List TApi → List TApi → Prop where
  | nil (m : Mem) : SameHistoryR m [] []
  | cons (m : Mem) (t : Time) (c c' : Api) (cs cs' : List TApi) (h : SameCallR t m c c')
      (hs : SameHistoryR (m.api t c).2 cs cs') : SameHistoryR m (⟨t, c⟩ :: cs) (⟨t, c'⟩ :: cs')

/-- Results that mean the same, up to the order of the jobs of an answer. -/
inductive SameResR : Res → Res → Prop where
  | same (r r' : Res) (h : SameRes r r') : SameResR r r'
  | jobs (js js' : List Job) (h : js'.Perm (js.map Job.numbered)) : SameResR (.jobs js) (.jobs js')

/-- Results in the same order that mean the same. -/
inductive SameResultsR : List Res → List Res → Prop where
  | nil : SameResultsR [] []
  | cons (r r' : Res) (rs rs' : List Res) (h : SameResR r r') (hs : SameResultsR rs rs') : SameResultsR (r :: rs) (r' :: rs')

/-- **C142, histories, partial** (missing as before). From equal stores every history of these calls gives equal results, up to
the order of the jobs of an answer, and equal stores. -/
theorem C142_histories_partial (hash : HashFn) (ties : Nat → Int → Nat) (m : Mem) (p : Pg) (cs cs' : List TApi)
    (S : SameStore m p) (hh : SameHistoryR m cs cs') :
    SameResultsR (m.results cs) (p.results hash ties cs') ∧ SameStore (m.runApi cs) (p.runApi hash ties cs') := by
  induction hh generalizing p with
  | nil m => exact ⟨.nil, S⟩
  | cons m t c c' cs cs' hc hs ih =>
    have key : SameResR (m.api t c).1 (p.api hash (ties cs'.length) t c').1 ∧ SameStore (m.api t c).2 (p.api hash (ties cs'.length) t c').2 := by
      cases hc with
      | call _ _ hc ho =>
        obtain ⟨h1, h2⟩ := C50_agree hash (fun _ => ties cs'.length) m p [⟨t, c⟩] [⟨t, c'⟩] S (.cons m t c c' [] [] hc ho (.nil _))
        cases h1 with
        | cons _ _ _ _ h1 _ => exact ⟨.same _ _ h1, h2⟩
      | unique e uc hu =>
        obtain ⟨h1, h2⟩ := C141_agree_partial hash (ties cs'.length) t m p e uc S hu
        exact ⟨.same _ _ h1, h2⟩
      | query q hq =>
        obtain ⟨js, js', h1, h2, h3, -⟩ := C142_query_partial (ties cs'.length) t m p q S hq
        simp only [Mem.api, Pg.api, h1, h2]
        exact ⟨.jobs _ _ h3, S⟩
      | update job ht he =>
        obtain ⟨h1, h2⟩ := C142_update_partial (ties cs'.length) t m p job S ht he
        exact ⟨.same _ _ h1, h2⟩
      | age spec age hp h0 ht ha h =>
        obtain ⟨h1, h2, h3⟩ := C142_prune_age_exactly (ties cs'.length) t m p spec age S hp h0 ht ha
        refine ⟨.same _ _ ?_, h1.mpr h⟩
        simp only [Mem.api, Pg.api, h2, h3]
        exact .unit
      | length spec n hp h => exact ⟨.same _ _ .unit, C142_prune_length_partial (ties cs'.length) t m p spec n S hp h⟩
    obtain ⟨h3, h4⟩ := ih _ key.2
    exact ⟨.cons _ _ _ _ key.1 h3, h4⟩

/-! ## Where they differ -/

/-- One job for `mail`, waiting since the beginning, is stored. -/
def oneWaiting : List TApi := [⟨0, .enqueue sampleEnq⟩]

/-- **C142 fails**, from the empty stores, in five ways. A query for two jobs: the first comes first in memory, the last on
Postgres. A query that not both of two conditions hold: the job is found in memory only. An update of the status: in memory
the job is complete, on Postgres it is still waiting. Pruning waiting jobs by an age of an hour: a job that has waited for
two hours is removed in memory only. Pruning all but one: the only job there is is removed in memory only. -/
theorem C142_violated :
    (∃ cs q, (∀ c ∈ cs, ∃ e, c.call = .enqueue e ∧ e.criteria = none) ∧ Disjunctive q ∧
      ∃ js js', (Mem.init.runApi cs).step 2000 (.query q) = (.jobs js, Mem.init.runApi cs) ∧
        (Pg.runApi sampleHash (fun _ => Int.toNat) {} cs).step Int.toNat 2000 (.query q.numbered) = (.jobs js', Pg.runApi sampleHash (fun _ => Int.toNat) {} cs) ∧
        js' ≠ js.map Job.numbered) ∧
    (∃ q, ∃ js js', ((Mem.init.runApi oneWaiting).step 2000 (.query q)).1 = .jobs js ∧
        ((Pg.runApi sampleHash (fun _ => Int.toNat) {} oneWaiting).step Int.toNat 2000 (.query q.numbered)).1 = .jobs js' ∧
        ¬ js'.Perm (js.map Job.numbered)) ∧
    (∃ job : Job, SameStore (Mem.init.runApi oneWaiting) (Pg.runApi sampleHash (fun _ => Int.toNat) {} oneWaiting) ∧
      ¬ SameStore ((Mem.init.runApi oneWaiting).step 2000 (.update job)).2
        ((Pg.runApi sampleHash (fun _ => Int.toNat) {} oneWaiting).step Int.toNat 2000 (.update job.numbered)).2) ∧
    ¬ SameStore ((Mem.init.runApi oneWaiting).step 7200000000000 (.prune { status := .scheduled, pruneBy := .maxAge 3600000000000, executors := .except [] })).2
        ((Pg.runApi sampleHash (fun _ => Int.toNat) {} oneWaiting).step Int.toNat 7200000000000
          (.prune { status := .scheduled, pruneBy := .maxAge 3600000000000, executors := .except [] })).2 ∧
    ¬ SameStore ((Mem.init.runApi oneWaiting).step 2000 (.prune { status := .scheduled, pruneBy := .maxLength 1, executors := .except [] })).2
        ((Pg.runApi sampleHash (fun _ => Int.toNat) {} oneWaiting).step Int.toNat 2000
          (.prune { status := .scheduled, pruneBy := .maxLength 1, executors := .except [] })).2 := by
  refine ⟨⟨[⟨0, .enqueue sampleEnq⟩, ⟨1000, .enqueue sampleEnq⟩], .executorEqual "mail", ?_, .conj _ (.literal _ (.executorEqual _)), _, _, rfl, rfl, ?_⟩,
    ⟨.not (.and [.statusEqual .scheduled, .executorEqual "other"]), _, _, rfl, rfl, ?_⟩,
    ⟨{ (sampleEnq.intoJob 0 0).job with status := .complete }, ⟨by decide, by decide, by decide, by decide⟩, ?_⟩, ?_, ?_⟩
  · intro c hc
    simp only [List.mem_cons, List.not_mem_nil, or_false] at hc
    rcases hc with rfl | rfl <;> exact ⟨_, rfl, rfl⟩
  · intro h; exact absurd (congrArg (List.map Job.id) h) (by decide)
  · intro h; exact absurd h.length_eq (by decide)
  · intro h; exact absurd h.jobs (by decide)
  · intro h; exact absurd h.jobs (by decide)
  · intro h; exact absurd h.jobs (by decide)

/-- A history for `C142_histories_partial`: two jobs, a query, a change of a priority, hand-out and completion of both, and prunes
of those done by number – twice as many as are kept – and by age. -/
example : SameHistoryR (Mem.init)
      [⟨0, .enqueue sampleEnq⟩, ⟨1000, .enqueue { sampleEnq with scheduledAt := 1000 }⟩, ⟨2000, .op (.query (.idEquals 1))⟩,
        ⟨2000, .op (.update { ({ sampleEnq with scheduledAt := 1000 }.intoJob 1000 1).job with priority := 3 })⟩,
        ⟨3000, .op (.load "mail")⟩, ⟨4000, .op (.complete 0)⟩, ⟨5000, .op (.load "mail")⟩, ⟨6000, .op (.complete 1)⟩,
        ⟨7000, .op (.prune { status := .complete, pruneBy := .maxLength 1, executors := .except [] })⟩,
        ⟨9000, .op (.prune { status := .complete, pruneBy := .maxAge 2000, executors := .only ["mail"] })⟩]
      [⟨0, .enqueue sampleEnq⟩, ⟨1000, .enqueue { sampleEnq with scheduledAt := 1000 }⟩, ⟨2000, .op (.query (.idEquals 2))⟩,
        ⟨2000, .op (.update { ({ sampleEnq with scheduledAt := 1000 }.intoJob 1000 2).job with priority := 3 })⟩,
        ⟨3000, .op (.load "mail")⟩, ⟨4000, .op (.complete 1)⟩, ⟨5000, .op (.load "mail")⟩, ⟨6000, .op (.complete 2)⟩,
        ⟨7000, .op (.prune { status := .complete, pruneBy := .maxLength 1, executors := .except [] })⟩,
        ⟨9000, .op (.prune { status := .complete, pruneBy := .maxAge 2000, executors := .only ["mail"] })⟩] := by
  refine .cons _ _ _ _ _ _ (.call _ _ (.enqueue _ rfl) ⟨by decide, by decide, by decide⟩)
    (.cons _ _ _ _ _ _ (.call _ _ (.enqueue _ rfl) ⟨by decide, by decide, by decide⟩)
    (.cons _ _ _ _ _ _ (.query (.idEquals 1) (.conj _ (.literal _ (.idEquals 1))))
    (.cons _ _ _ _ _ _ (.update _ (by decide) ?_)
    (.cons _ _ _ _ _ _ (.call _ _ (.load _) ⟨by decide, .inr ?_⟩)
    (.cons _ _ _ _ _ _ (.call _ _ (.complete 0) (show (1000 : Int) ∣ 4000 by decide))
    (.cons _ _ _ _ _ _ (.call _ _ (.load _) ⟨by decide, .inr ?_⟩)
    (.cons _ _ _ _ _ _ (.call _ _ (.complete 1) (show (1000 : Int) ∣ 6000 by decide))
    (.cons _ _ _ _ _ _ (.length _ 1 rfl (.inr ?_))
    (.cons _ _ _ _ _ _ (.age _ 2000 rfl (by decide) (by decide) (by decide) (by decide)) (.nil _))))))))))
  · unfold Job.EditOf; decide
  · unfold Job.Due Job.Ahead; decide
  · unfold Job.Due Job.Ahead; decide
  · exact ⟨[_], [_], rfl, rfl, rfl, by decide⟩

end Rexecutor
