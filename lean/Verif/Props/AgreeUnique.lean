import Verif.Props.Agree
import Verif.Props.PgUnique
import Verif.Lemmas.Api

/-!
# C141: unique enqueues on both backends

What `C50` leaves out: an enqueue with uniqueness criteria, on equal stores.
-/

namespace Rexecutor

/-- A unique enqueue at time `t` on which the backends agree. The criteria have no key, and no stored job
in one of their statuses was stored under a key; the window around now and the one around the time the
new job is scheduled for hold the same stored jobs; no more than one stored job is a duplicate; a replacement replaces
something. Times are whole microseconds and ids have not run out. -/
structure PlainUnique (t : Time) (m : Mem) (e : EnqueuableJob) (uc : Criteria) : Prop where
  criteria : e.criteria = some uc
  noKey : uc.key = none
  unkeyed : ∀ k ∈ m.jobs, k.job.status ∈ uc.statuses → k.key = none
  window : ∀ d, uc.duration = some d → ∀ k ∈ m.jobs,
    ((t - d < k.job.scheduledAt ∧ k.job.scheduledAt < t + d) ↔
      (e.scheduledAt - d ≤ k.job.scheduledAt ∧ k.job.scheduledAt ≤ e.scheduledAt + d))
  one : ∀ k ∈ m.jobs, ∀ k' ∈ m.jobs, Duplicate t e uc k → Duplicate t e uc k' → k = k'
  something : ∀ rep, uc.onConflict = .replace rep →
    rep.scheduledAt = true ∨ rep.data = true ∨ rep.metadata = true ∨ rep.priority = true ∨ rep.maxAttempts = true
  whole : 1000 ∣ t ∧ 1000 ∣ e.scheduledAt ∧ ∀ d, uc.duration = some d → (1000 : Int) ∣ d
  ids : m.allocated < 2147483647

/-- The same jobs are duplicates. -/
private theorem duplicate_row {t : Time} {m : Mem} {e : EnqueuableJob} {uc : Criteria} (h : PlainUnique t m e uc)
    {k : KeyedJob} (hk : k ∈ m.jobs) {r : Row} (hr : r.decode = some k.job.numbered) :
    uc.finds e.executor e.scheduledAt r = true ↔ Duplicate t e uc k := by
  rw [pg_finds_iff ⟨h.whole.2.1, h.whole.2.2⟩]
  obtain ⟨es, -, he⟩ := agreeDecode hr
  have h1 : r.scheduledAt = k.job.scheduledAt := by
    have := congrArg Job.scheduledAt he; simpa [Job.numbered] using this.symm
  have h2 : r.status = k.job.status := by
    have := congrArg Job.status he; simpa [Job.numbered] using this.symm
  have h3 : r.executor = k.job.executor := by
    have := congrArg Job.executor he; simpa [Job.numbered] using this.symm
  constructor
  · intro d
    have hs := d.status
    rw [h2] at hs
    refine ⟨by rw [h.unkeyed k hk hs, h.noKey], fun hx => by rw [← h3]; exact d.executor hx, hs, fun w hw => ?_⟩
    have := d.window w hw
    rw [h1] at this
    exact (h.window w hw k hk).mpr this
  · intro d
    refine ⟨by rw [h2]; exact d.status, fun x hx => (by rw [h.noKey] at hx; cases hx), fun hx => (by rw [h3]; exact d.executor hx),
      fun w hw => ?_⟩
    rw [h1]
    exact (h.window w hw k hk).mp (d.window w hw)

/-- **C141, partial** (missing: criteria with a key, jobs stored under a key, windows that differ, several
duplicates, replacements of nothing – see `C141_violated`). From equal stores a unique enqueue gives the same result and
equal stores on both backends. -/
theorem C141_agree_partial (hash : HashFn) (tie : Int → Nat) (t : Time) (m : Mem) (p : Pg) (e : EnqueuableJob) (uc : Criteria)
    (S : SameStore m p) (h : PlainUnique t m e uc) :
    SameRes (m.enqueue t e).1 (p.enqueue hash tie t e).1 ∧ SameStore (m.enqueue t e).2 (p.enqueue hash tie t e).2 := by
  have hc := h.criteria
  have hm : ∀ k, e.matches t k = true ↔ Duplicate t e uc k := by
    intro k; rw [matches_iff]; simp [hc]
  rcases unique_cases hash tie t e uc p hc with ⟨hno, hp⟩ | ⟨r, hr, hf, hp⟩
  · -- no duplicate
    have hnil : m.jobs.filter (fun k => e.matches t k) = [] := by
      rw [List.filter_eq_nil_iff]
      intro k hk hd
      obtain ⟨l, r, hl⟩ := List.append_of_mem hk
      obtain ⟨rl, row, rr, e1, -, e3, -⟩ := agreeMapped S.jobs hl
      have := hno row (by rw [e1]; simp)
      rw [(duplicate_row h hk e3).mpr ((hm k).mp hd)] at this
      cases this
    rw [hp]
    simp only [Mem.enqueue, hc, Mem.insertUnique, hnil]
    exact agree_insert S t e _ h.whole.1 h.whole.2.1 h.ids
  · -- one duplicate
    obtain ⟨k, hk, hd⟩ := agreeMem S.jobs hr
    have hdup := (duplicate_row h hk hd).mp hf
    rcases enqueue_cases t e m uc hc with ⟨hno, -⟩ | ⟨l, k', rest, e1, -, hdup', e2, e3⟩
    · exact absurd hdup (hno k hk)
    have hk' : k' ∈ m.jobs := by rw [e1]; simp
    have hkk := h.one k hk k' hk' hdup hdup'
    subst hkk
    obtain ⟨g1, g2⟩ := update_replace (e := e) S.once e1
    have hid : r.id = k.job.id + 1 := by rw [agreeDecodeId hd]; rfl
    obtain ⟨rl, row, rr, f1, f2, f3, f4⟩ := agreeMapped S.jobs e1
    have hrow : row = r := by
      have hn : (rowIds p.rows).Nodup := S.rowsOnce
      have hid' : row.id = r.id := by rw [hid, agreeDecodeId f3]; rfl
      have hrr : r ∈ rl ++ row :: rr := by rw [← f1]; exact hr
      rw [f1, rowIds, List.map_append, List.map_cons, List.nodup_append, List.nodup_cons] at hn
      rcases List.mem_append.mp hrr with g | g
      · exact absurd hid'.symm (hn.2.2 r.id (List.mem_map_of_mem g) row.id List.mem_cons_self)
      · rcases List.mem_cons.mp g with g | g
        · exact g.symm
        · exact absurd (List.mem_map_of_mem (f := (·.id)) g) (by rw [← hid']; exact hn.2.1.1)
    subst hrow
    have hst : row.status = k.job.status := by
      obtain ⟨es, -, he⟩ := agreeDecode hd
      have := congrArg Job.status he; simpa [Job.numbered] using this.symm
    have hidr : (k.job.replace e).id = k.job.id := by
      unfold Job.replace; split
      · split <;> rfl
      · rfl
    -- the stores stay equal if the job and the row do
    have store : ∀ row', row'.decode = some (k.job.replace e).numbered →
        SameStore (m.enqueue t e).2 { p with rows := rl ++ row' :: rr } := by
      intro row' hrow'
      rw [e3]
      refine ⟨?_, ?_, ?_, ?_⟩
      · rw [g1]
        simp only [List.map_append, List.map_cons, f2, f4, hrow']
      · rw [g2]; exact S.given
      · rw [g1]
        have := S.once
        rw [e1] at this
        simpa [hidr] using this
      · rw [g1, g2]
        intro q hq
        have := S.past
        rw [e1] at this
        rcases List.mem_append.mp hq with hq | hq
        · exact this q (by simp [hq])
        · rcases List.mem_cons.mp hq with rfl | hq
          · have := this k (by simp)
            simpa [hidr] using this
          · exact this q (by simp [hq])
    have same : k.job.replace e = k.job → SameStore (m.enqueue t e).2 p := by
      intro hsame
      have := store row (by rw [hsame]; exact hd)
      rw [← f1] at this
      exact this
    rw [hp, e2]
    cases hon : uc.onConflict with
    | doNothing =>
      simp only [hid]
      refine ⟨.id _, same ?_⟩
      rcases replace_cases e k.job with ⟨uc', rep, q1, q2, -⟩ | ⟨-, q⟩
      · rw [hc, Option.some.injEq] at q1; subst q1; rw [hon] at q2; cases q2
      · exact q
    | replace rep =>
      simp only [List.contains_iff_mem, hst]
      by_cases hmem : k.job.status ∈ rep.forStatuses
      · have hsets : rep.setsNothing = false := by
          unfold Replace.setsNothing
          rcases h.something rep hon with q | q | q | q | q <;> simp [q]
        simp only [hmem, if_true, hsets, Bool.false_eq_true, if_false, hid]
        refine ⟨.id _, ?_⟩
        have hup : (updateRows (k.job.id + 1) (Row.replace rep e) p.rows).1 = rl ++ Row.replace rep e row :: rr := by
          rw [f1]
          exact agreeUpdateRows (by rw [← f1]; exact S.rowsOnce) hid
        rw [hup]
        refine store _ ?_
        obtain ⟨es, he, hj⟩ := agreeDecode hd
        have hrep : k.job.replace e = { k.job with
            scheduledAt := if rep.scheduledAt then e.scheduledAt else k.job.scheduledAt
            data := if rep.data then e.data else k.job.data
            metadata := if rep.metadata then e.metadata else k.job.metadata
            priority := if rep.priority then e.priority else k.job.priority
            maxAttempts := if rep.maxAttempts then e.maxAttempts else k.job.maxAttempts } := by
          unfold Job.replace
          rw [hc]
          obtain ⟨a1, a2, a3, a4, a5⟩ := uc
          simp only at hon
          subst hon
          simp [hmem]
        rw [hrep]
        simp only [Row.decode, Row.replace, he, Option.some.injEq, pgTime_whole h.whole.2.1]
        simp only [Job.numbered, Job.mk.injEq] at hj ⊢
        obtain ⟨h1, h2, h3, h4, h5, h6, h7, h8, h9, h10, h11, h12, h13, h14, h15, h16⟩ := hj
        simp only [h1, h2, h3, h4, h5, h6, h7, h8, h9, h10, h11, h12, h13, h14, h15, h16]
        simp
      · simp only [hmem, if_false, hid]
        refine ⟨.id _, same ?_⟩
        rcases replace_cases e k.job with ⟨uc', rep', q1, q2, q3, -⟩ | ⟨-, q⟩
        · rw [hc, Option.some.injEq] at q1; subst q1; rw [hon] at q2; cases q2; exact absurd q3 hmem
        · exact q

/-- Histories of the calls of C50 and unique enqueues as above. -/
inductive SameHistoryU : Mem → List TApi → List TApi → Prop where
  | nil (m : Mem) : SameHistoryU m [] []
  | call (m : Mem) (t : Time) (c c' : Api) (cs cs' : List TApi) (h : SameCall c c') (ho : Ordinary t m c)
      (hs : SameHistoryU (m.api t c).2 cs cs') : SameHistoryU m (⟨t, c⟩ :: cs) (⟨t, c'⟩ :: cs')
  | unique (m : Mem) (t : Time) (e : EnqueuableJob) (uc : Criteria) (cs cs' : List TApi) (h : PlainUnique t m e uc)
      (hs : SameHistoryU (m.api t (.enqueue e)).2 cs cs') : SameHistoryU m (⟨t, .enqueue e⟩ :: cs) (⟨t, .enqueue e⟩ :: cs')

/-- **C141, histories, partial** (missing as before). From equal stores, every history of the calls of C50 and such unique
enqueues gives equal results and equal stores. -/
theorem C141_histories_partial (hash : HashFn) (ties : Nat → Int → Nat) (m : Mem) (p : Pg) (cs cs' : List TApi)
    (S : SameStore m p) (hh : SameHistoryU m cs cs') :
    SameResults (m.results cs) (p.results hash ties cs') ∧ SameStore (m.runApi cs) (p.runApi hash ties cs') := by
  induction hh generalizing p with
  | nil m => exact ⟨.nil, S⟩
  | call m t c c' cs cs' hc ho hs ih =>
    obtain ⟨h1, h2⟩ := C50_agree hash (fun _ => ties cs'.length) m p [⟨t, c⟩] [⟨t, c'⟩] S (.cons m t c c' [] [] hc ho (.nil _))
    have h1' : SameRes (m.api t c).1 (p.api hash (ties cs'.length) t c').1 := by
      cases h1 with
      | cons _ _ _ _ h1 _ => exact h1
    obtain ⟨h3, h4⟩ := ih _ h2
    exact ⟨.cons _ _ _ _ h1' h3, h4⟩
  | unique m t e uc cs cs' hu hs ih =>
    obtain ⟨h1, h2⟩ := C141_agree_partial hash (ties cs'.length) t m p e uc S hu
    obtain ⟨h3, h4⟩ := ih _ h2
    exact ⟨.cons _ _ _ _ h1 h3, h4⟩

/-! ## Where they differ -/

private def resId : Res → Option Int
  | .id i => some i
  | _ => none

private theorem ids_agree {rs rs' : List Res} (h : SameResults rs rs') : rs'.map resId = rs.map (fun r => (resId r).map (· + 1)) := by
  induction h with
  | nil => rfl
  | cons r r' rs rs' h hs ih =>
    rw [List.map_cons, List.map_cons, ih]
    cases h <;> rfl

/-- A job for `mail`, due in an hour, with these criteria. -/
def inAnHour (uc : Criteria) : EnqueuableJob := { sampleEnq with scheduledAt := 3600000000000, criteria := some uc }

/-- The criteria of `UniquenessCriteria::by_executor()`. -/
def byExecutor : Criteria := { executor := true, statuses := [.scheduled] }

/-- **C141 fails**, from the empty stores, in five ways. The same enqueue with a key, twice: the second finds the first in
memory, and not on Postgres, where the stored key is a hash. An enqueue without a key after one with a key: a duplicate on Postgres only. A job due
in an hour, enqueued twice to be unique within a minute: a duplicate on Postgres only, where the window is around the hour
to come. A third enqueue after two that are not unique: in memory the first is the duplicate, on Postgres it can be either. A replacement that
replaces nothing: an error on Postgres only. -/
theorem C141_violated :
    (∃ cs : List TApi, (∀ c ∈ cs, ∃ e, c.call = .enqueue e ∧ ∃ uc, e.criteria = some uc ∧ uc.key = some 7 ∧ uc.duration = none ∧ uc.onConflict = .doNothing) ∧
      ¬ SameResults (Mem.init.results cs) (Pg.results sampleHash (fun _ => Int.toNat) {} cs)) ∧
    (∃ cs : List TApi, (∀ c ∈ cs, ∃ e, c.call = .enqueue e ∧ ∃ uc, e.criteria = some uc ∧ uc.duration = none ∧ uc.onConflict = .doNothing) ∧
      (∃ c ∈ cs.getLast?, ∃ e, c.call = .enqueue e ∧ ∃ uc, e.criteria = some uc ∧ uc.key = none) ∧
      ¬ SameResults (Mem.init.results cs) (Pg.results sampleHash (fun _ => Int.toNat) {} cs)) ∧
    (∃ cs : List TApi, (∀ c ∈ cs, ∃ e, c.call = .enqueue e ∧ ∃ uc, e.criteria = some uc ∧ uc.key = none ∧ uc.duration = some 60000000000 ∧ uc.onConflict = .doNothing) ∧
      ¬ SameResults (Mem.init.results cs) (Pg.results sampleHash (fun _ => Int.toNat) {} cs)) ∧
    (∃ cs : List TApi, (∀ c ∈ cs, ∃ e, c.call = .enqueue e ∧ ∀ uc, e.criteria = some uc → uc.key = none ∧ uc.duration = none ∧ uc.onConflict = .doNothing) ∧
      ∃ tie, ¬ SameResults (Mem.init.results cs) (Pg.results sampleHash (fun _ => tie) {} cs)) ∧
    (∃ cs : List TApi, (∀ c ∈ cs, ∃ e, c.call = .enqueue e ∧ ∃ uc, e.criteria = some uc ∧ uc.key = none ∧ uc.duration = none) ∧
      ¬ SameResults (Mem.init.results cs) (Pg.results sampleHash (fun _ => Int.toNat) {} cs)) := by
  refine ⟨⟨[⟨0, .enqueue (inAnHour { byExecutor with key := some 7 })⟩, ⟨0, .enqueue (inAnHour { byExecutor with key := some 7 })⟩], ?_, ?_⟩,
    ⟨[⟨0, .enqueue (inAnHour { byExecutor with key := some 7 })⟩, ⟨0, .enqueue (inAnHour byExecutor)⟩], ?_, ?_, ?_⟩,
    ⟨[⟨0, .enqueue (inAnHour { byExecutor with duration := some 60000000000 })⟩, ⟨0, .enqueue (inAnHour { byExecutor with duration := some 60000000000 })⟩], ?_, ?_⟩,
    ⟨[⟨0, .enqueue sampleEnq⟩, ⟨0, .enqueue sampleEnq⟩, ⟨0, .enqueue (inAnHour byExecutor)⟩], ?_, (fun i => if i = 1 then 2 else 1), ?_⟩,
    ⟨[⟨0, .enqueue (inAnHour byExecutor)⟩, ⟨0, .enqueue (inAnHour { byExecutor with onConflict := .replace { forStatuses := [.scheduled] } })⟩], ?_, ?_⟩⟩
  · intro c hc
    simp only [List.mem_cons, List.not_mem_nil, or_false, or_self] at hc
    subst hc; exact ⟨_, rfl, _, rfl, rfl, rfl, rfl⟩
  · intro h; exact absurd (ids_agree h) (by decide)
  · intro c hc
    simp only [List.mem_cons, List.not_mem_nil, or_false] at hc
    rcases hc with rfl | rfl <;> exact ⟨_, rfl, _, rfl, rfl, rfl⟩
  · exact ⟨_, rfl, _, rfl, _, rfl, rfl⟩
  · intro h; exact absurd (ids_agree h) (by decide)
  · intro c hc
    simp only [List.mem_cons, List.not_mem_nil, or_false, or_self] at hc
    subst hc; exact ⟨_, rfl, _, rfl, rfl, rfl, rfl⟩
  · intro h; exact absurd (ids_agree h) (by decide)
  · intro c hc
    simp only [List.mem_cons, List.not_mem_nil, or_false] at hc
    rcases hc with rfl | rfl | rfl
    · exact ⟨_, rfl, nofun⟩
    · exact ⟨_, rfl, nofun⟩
    · refine ⟨_, rfl, fun uc hu => ?_⟩
      cases hu; exact ⟨rfl, rfl, rfl⟩
  · intro h; exact absurd (ids_agree h) (by decide)
  · intro c hc
    simp only [List.mem_cons, List.not_mem_nil, or_false] at hc
    rcases hc with rfl | rfl <;> exact ⟨_, rfl, _, rfl, rfl, rfl⟩
  · intro h; exact absurd (ids_agree h) (by decide)

/-- A history for `C141_histories_partial`: a job, a duplicate of it that changes its priority, the hand-out, another that is
no duplicate any more. -/
example : SameStore (Mem.init) {} ∧ SameHistoryU (Mem.init)
      [⟨0, .enqueue sampleUnique⟩,
        ⟨1000, .enqueue { sampleUnique with priority := 4, criteria := some { byExecutor with onConflict := .replace { priority := true, forStatuses := [.scheduled] } } }⟩,
        ⟨2000, .op (.load "mail")⟩, ⟨3000, .enqueue sampleUnique⟩]
      [⟨0, .enqueue sampleUnique⟩,
        ⟨1000, .enqueue { sampleUnique with priority := 4, criteria := some { byExecutor with onConflict := .replace { priority := true, forStatuses := [.scheduled] } } }⟩,
        ⟨2000, .op (.load "mail")⟩, ⟨3000, .enqueue sampleUnique⟩] := by
  refine ⟨⟨rfl, rfl, by decide, by decide⟩, ?_⟩
  refine .unique _ _ _ _ _ _ ⟨rfl, rfl, by decide, nofun, by decide, nofun, ⟨by decide, by decide, nofun⟩, by decide⟩
    (.unique _ _ _ _ _ _ ⟨rfl, rfl, by decide, nofun, by decide, ?_, ⟨by decide, by decide, nofun⟩, by decide⟩
      (.call _ _ _ _ _ _ (.load _) ?_
        (.unique _ _ _ _ _ _ ⟨rfl, rfl, by decide, nofun, by decide, nofun, ⟨by decide, by decide, nofun⟩, by decide⟩ (.nil _))))
  · intro rep hrep
    cases hrep
    exact .inr (.inr (.inr (.inl rfl)))
  · refine ⟨by decide, .inr ⟨_, List.mem_cons_self, ?_, ?_⟩⟩
    · exact ⟨rfl, .inl rfl, by decide⟩
    · intro k' hk' _ hne
      exact (hne (List.mem_singleton.mp hk')).elim

end Rexecutor
