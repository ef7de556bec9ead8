import Verif.Lemmas.PgRow
import Verif.Props.Spacing

/-! # C123 on Postgres: unique within a period means at most one job in the period -/

namespace Rexecutor

/-- The actions allowed in the histories of `C123_spaced_on_postgres_partial`: unique
enqueues for executor `x` are by executor within `d`, without key, looking at the
statuses `sts`, for a time in whole microseconds; there are no plain enqueues for `x`; no
unique enqueue replaces the time; nobody retries, snoozes, reruns or updates. -/
def SpacedAct (x : String) (sts : List JobStatus) (d : Delta) : PgAct → Prop
  | .unique e uc =>
    (e.executor = x → uc.executor = true ∧ uc.key = none ∧ uc.duration = some d ∧ uc.statuses = sts ∧
      1000 ∣ e.scheduledAt) ∧
    ∀ rep, uc.onConflict = .replace rep → rep.scheduledAt = false
  | .plain e => e.executor ≠ x
  | .stmt (.retryable _ _ _) => False
  | .stmt (.snoozed _ _) => False
  | .stmt (.rerun _) => False
  | .stmt (.update _) => False
  | _ => True

/-- The session will not change the time of a row. -/
private def Session.leavesTime : Session → Prop
  | .unique _ uc _ | .holding _ uc _ | .missing _ uc _ | .found _ uc _ _ | .inserted _ uc _ =>
    ∀ rep, uc.onConflict = .replace rep → rep.scheduledAt = false
  | .replacing _ _ rep _ => rep.scheduledAt = false
  | _ => True

private theorem leaves_step {x : String} {sts : List JobStatus} {d : Delta} {c : PgConc} {hash : HashFn}
    {tie : Int → Nat} {now : Time} {a : PgAct} (Q : ∀ s ∈ c.sessions, Session.leavesTime s)
    (ha : SpacedAct x sts d a) : ∀ s ∈ (c.step hash tie now a).2.sessions, Session.leavesTime s := by
  intro s hs
  rcases session_back hs with h | h
  · exact Q s h
  · cases s with
    | handout y => trivial
    | looking y t snap => trivial
    | locked y t id => trivial
    | done r => trivial
    | unique e uc t =>
      simp only [SessionFrom] at h
      rw [h.1] at ha
      exact ha.2
    | holding e uc t => exact Q (.unique e uc t) h
    | missing e uc t => exact Q (.holding e uc t) h
    | found e uc id st => obtain ⟨⟨t, h⟩, -⟩ := h; exact Q (.holding e uc t) h
    | inserted e uc row => obtain ⟨⟨t, h, -⟩, -⟩ := h; exact Q (.missing e uc t) h
    | replacing e uc rep id => obtain ⟨st, h, h2, -⟩ := h; exact Q (.found e uc id st) h rep h2

/-- The row was there before, with the same time, and if it was not handed out by the
step, with the same time of its last attempt. -/
private def FromOld (x : String) (rows : List Row) (r' : Row) : Prop :=
  ∃ r ∈ rows, r.id = r'.id ∧ r.executor = x ∧ r.scheduledAt = r'.scheduledAt ∧
    (r'.attemptedAt = r.attemptedAt ∨ ∃ t, r.ready t x = true ∧ r'.attemptedAt = some (pgTime t))

private theorem fromOld_same {x : String} {rows : List Row} :
    ∀ r' ∈ rows, r'.executor = x → FromOld x rows r' :=
  fun r' h hx => ⟨r', h, rfl, hx, rfl, .inl rfl⟩

private theorem fromOld_update {x : String} {id : Int} {f : Row → Row} {rows : List Row}
    (hf : ∀ r ∈ rows, r.id = id → (f r).id = r.id ∧ (f r).executor = r.executor ∧ (f r).scheduledAt = r.scheduledAt ∧
      (r.executor = x → (f r).attemptedAt = r.attemptedAt ∨ ∃ t, r.ready t x = true ∧ (f r).attemptedAt = some (pgTime t))) :
    ∀ r' ∈ (updateRows id f rows).1, r'.executor = x → FromOld x rows r' := by
  intro r' hr' hx
  obtain ⟨q, hq, rfl⟩ := updateRows_mem.mp hr'
  by_cases h : q.id = id
  · rw [if_pos h] at hx ⊢
    obtain ⟨h1, h2, h3, h4⟩ := hf q hq h
    have hqx : q.executor = x := by rw [← h2]; exact hx
    exact ⟨q, hq, h1.symm, hqx, h3.symm, h4 hqx⟩
  · rw [if_neg h] at hx ⊢
    exact ⟨q, hq, rfl, hx, rfl, .inl rfl⟩

private theorem fromOld_onRow {x : String} {id : Int} {f : Row → Row} {p : Pg} (hn : (rowIds p.rows).Nodup)
    (hf : ∀ r, (f r).id = r.id ∧ (f r).executor = r.executor ∧ (f r).scheduledAt = r.scheduledAt ∧
      (f r).attemptedAt = r.attemptedAt) :
    ∀ r' ∈ (p.onRow id f).2.rows, r'.executor = x → FromOld x p.rows r' := by
  rcases onRow_cases id f p hn with ⟨-, h⟩ | ⟨-, h⟩
  · rw [h]; exact fromOld_same
  · rw [h]; exact fromOld_update fun r _ _ => ⟨(hf r).1, (hf r).2.1, (hf r).2.2.1, fun _ => .inl (hf r).2.2.2⟩

private theorem fromOld_step {x : String} {sts : List JobStatus} {d : Delta} {c : PgConc} (H : PgInv c)
    (Q : ∀ s ∈ c.sessions, Session.leavesTime s) (hash : HashFn) (tie : Int → Nat) (now : Time) (a : PgAct)
    (ha : SpacedAct x sts d a) :
    (∃ row uc', (c.step hash tie now a).1 = .inserted row (some uc')) ∨
      ∀ r' ∈ (c.step hash tie now a).2.pg.rows, r'.executor = x → FromOld x c.pg.rows r' := by
  cases a with
  | handout y => exact .inr fromOld_same
  | unique e uc' => exact .inr fromOld_same
  | abort i =>
    right
    simp only [PgConc.step]
    split <;> exact fromOld_same
  | plain e =>
    right
    simp only [PgConc.step]
    split
    · exact fromOld_same
    · intro r' hr' hx
      rcases List.mem_append.mp hr' with hr' | hr'
      · exact fromOld_same r' hr' hx
      · rw [List.mem_singleton] at hr'; subst hr'
        exact (ha hx).elim
  | stmt o =>
    right
    have key : ∀ o' : Op, (∀ r' ∈ (c.pg.step tie now o').2.rows, r'.executor = x → FromOld x c.pg.rows r') →
        (∀ y, o' ≠ .load y) →
        ∀ r' ∈ (c.step hash tie now (.stmt o')).2.pg.rows, r'.executor = x → FromOld x c.pg.rows r' := by
      intro o' h hl
      have hstep : c.step hash tie now (.stmt o') =
          if (o'.needs tie now c.pg.rows).any c.rowLocked then (.blocked, c)
          else (.stmt o' (c.pg.step tie now o').1, { c with pg := (c.pg.step tie now o').2 }) := by
        cases o' <;> first | (exact (hl _ rfl).elim) | (simp only [PgConc.step])
      rw [hstep]
      split
      · exact fromOld_same
      · exact h
    cases o with
    | load y => exact fromOld_same
    | complete i => exact key _ (fromOld_onRow (f := Row.markComplete now) H.nodup (fun _ => ⟨rfl, rfl, rfl, rfl⟩)) (by simp)
    | retryable i next e => exact ha.elim
    | discarded i e => exact key _ (fromOld_onRow (f := Row.markDiscarded now e) H.nodup (fun _ => ⟨rfl, rfl, rfl, rfl⟩)) (by simp)
    | cancelled i e => exact key _ (fromOld_onRow (f := Row.markCancelled now e) H.nodup (fun _ => ⟨rfl, rfl, rfl, rfl⟩)) (by simp)
    | snoozed i next => exact ha.elim
    | rerun i => exact ha.elim
    | update job => exact ha.elim
    | prune spec =>
      refine key _ ?_ (by simp)
      intro r' hr' hx
      exact fromOld_same r' (prune_mem.mp hr').1 hx
    | query q => exact key _ fromOld_same (by simp)
    | subscribe y => exact key _ fromOld_same (by simp)
    | notifyAll => exact key _ fromOld_same (by simp)
  | advance i =>
    simp only [PgConc.step]
    split
    · exact .inr fromOld_same
    · rename_i s hs
      cases s with
      | inserted e u row => exact .inl ⟨row, u, rfl⟩
      | handout y => exact .inr fromOld_same
      | looking y t snap => right; simp only [PgConc.advance]; split <;> exact fromOld_same
      | locked y t id =>
        right
        obtain ⟨r₀, hr₀, hid₀, hrd⟩ := H.lockedReady i y t id hs
        simp only [PgConc.advance]
        split
        · exact fromOld_same
        · refine fromOld_update (f := Row.markExecuting t) ?_
          intro r hr hid
          refine ⟨rfl, rfl, rfl, fun hx => .inr ⟨t, ?_, rfl⟩⟩
          have : r = r₀ := row_unique H.nodup hr hr₀ (by rw [hid, hid₀])
          subst this
          have hy : y = x := by rw [← hx]; exact ((ready_iff'.mp hrd).executor).symm
          rw [← hy]; exact hrd
      | unique e u t => right; simp only [PgConc.advance]; split <;> exact fromOld_same
      | holding e u t => right; simp only [PgConc.advance]; split <;> exact fromOld_same
      | missing e u t => right; simp only [PgConc.advance]; split <;> exact fromOld_same
      | found e u id st =>
        right
        simp only [PgConc.advance]
        split
        · split
          · split
            · exact fromOld_same
            · split <;> exact fromOld_same
          · exact fromOld_same
        · exact fromOld_same
      | replacing e u rep id =>
        right
        have hrep : rep.scheduledAt = false := Q _ (List.mem_of_getElem? hs)
        refine fromOld_update (f := Row.replace rep e) ?_
        intro r _ _
        exact ⟨rfl, rfl, by simp [Row.replace, hrep], fun _ => .inl rfl⟩
      | done r => exact .inr fromOld_same

private theorem spaced_noArrivals {x : String} {sts : List JobStatus} {d : Delta} (hall : ∀ st, st ∈ sts) (hash : HashFn)
    {as : List TPgAct} {c : PgConc} (H : PgInv c) (Q : ∀ s ∈ c.sessions, Session.leavesTime s)
    (ha : ∀ a ∈ as, SpacedAct x sts d a.act) :
    NoArrivals hash { executor := true, duration := some d, statuses := sts } x c as := by
  induction as generalizing c with
  | nil => trivial
  | cons a as ih =>
    refine ⟨?_, ih (H.step hash a.tie a.now a.act) (leaves_step Q (ha a (by simp))) (fun b hb => ha b (List.mem_cons_of_mem _ hb))⟩
    rcases fromOld_step H Q hash a.tie a.now a.act (ha a (by simp)) with h | h
    · exact .inl h
    · refine .inr ?_
      intro r' hr' hc
      obtain ⟨r, hr, h1, h2, h3, -⟩ := h r' hr' (hc.2 rfl)
      exact ⟨r, hr, h1, ⟨hall _, fun _ => h2⟩, fun _ => h3⟩

/-- **C123, the table.** In every interleaving of any number of nodes, from the empty
database, in which every enqueue for `x` is unique by executor within `d`, looking at jobs
of every status: any two rows of `x` are scheduled more than `d` apart, at any time.
Missing: criteria that look at Scheduled rows only (the default), for which it is false. -/
theorem C123_spaced_on_postgres_partial (hash : HashFn) (x : String) (sts : List JobStatus) (d : Delta) (as : List TPgAct)
    (hall : ∀ st, st ∈ sts) (hd : (1000 : Int) ∣ d) (has : ∀ a ∈ as, SpacedAct x sts d a.act) :
    ∀ a ∈ (PgConc.run hash {} as).pg.rows, ∀ b ∈ (PgConc.run hash {} as).pg.rows,
      a.executor = x → b.executor = x → a.id ≠ b.id →
      d < a.scheduledAt - b.scheduledAt ∨ d < b.scheduledAt - a.scheduledAt := by
  intro a ha b hb hax hbx hne
  have := C48_no_clash hash { executor := true, duration := some d, statuses := sts } x [] as
    (by intro d' h; simp only [Option.some.injEq] at h; subst h; exact hd) (by simp [PgConc.run]) (by simp [PgConc.run])
    (by
      intro t ht e uc' he hx
      have h := has t ht
      rw [he] at h
      obtain ⟨h1, h2, h3, h4, h5⟩ := h.1 (hx rfl)
      exact ⟨⟨h2, h1, h3, h4⟩, fun _ => h5⟩)
    (spaced_noArrivals hall hash (pgInv hash []) (by simp [PgConc.run]) has)
    a ha b hb (fun h => hne (by rw [h]))
  by_cases hw : a.scheduledAt - d ≤ b.scheduledAt ∧ b.scheduledAt ≤ a.scheduledAt + d
  · refine (this ⟨⟨hall _, fun _ => hax⟩, ⟨hall _, fun _ => hbx⟩, ?_⟩).elim
    intro d' h
    simp only [Option.some.injEq] at h
    subst h
    exact hw
  · simp only [Time, Delta] at *
    omega

private theorem spaced_begun (hash : HashFn) (x : String) (sts : List JobStatus) (d : Delta) (as : List TPgAct)
    (has : ∀ a ∈ as, SpacedAct x sts d a.act) :
    ∀ r ∈ (PgConc.run hash {} as).pg.rows, r.executor = x → ∀ t, r.attemptedAt = some t → r.scheduledAt < t + 100000000 := by
  suffices h : ∀ as : List TPgAct, (∀ a ∈ as, SpacedAct x sts d a.act) →
      (∀ s ∈ (PgConc.run hash {} as).sessions, Session.leavesTime s) ∧
      ∀ r ∈ (PgConc.run hash {} as).pg.rows, r.executor = x → ∀ t, r.attemptedAt = some t → r.scheduledAt < t + 100000000 from
    (h as has).2
  intro as
  refine snoc_induction (P := fun as => (∀ a ∈ as, SpacedAct x sts d a.act) →
      (∀ s ∈ (PgConc.run hash {} as).sessions, Session.leavesTime s) ∧
      ∀ r ∈ (PgConc.run hash {} as).pg.rows, r.executor = x → ∀ t, r.attemptedAt = some t → r.scheduledAt < t + 100000000)
    as ?_ ?_
  · intro _; simp [PgConc.run]
  · intro as a ih has
    obtain ⟨Q, IH⟩ := ih (fun b hb => has b (by simp [hb]))
    have H := pgInv hash as
    have I := pgHist hash as
    rw [PgConc.run_append]
    simp only [PgConc.run]
    generalize PgConc.run hash {} as = c at *
    have ha := has a (by simp)
    refine ⟨leaves_step Q ha, ?_⟩
    intro r' hr' hx t ht
    have hold : FromOld x c.pg.rows r' → r'.scheduledAt < t + 100000000 := by
      rintro ⟨r, hr, -, hrx, hsch, h | ⟨u, hrd, h⟩⟩
      · rw [← hsch]; exact IH r hr hrx t (by rw [← h]; exact ht)
      · have := (ready_iff'.mp hrd).due
        rw [h, Option.some.injEq] at ht
        subst ht
        rw [← hsch]; exact this
    rcases (table_step H hash a.tie a.now a.act).back hr' with ⟨uc, he, hn⟩ | ⟨r, hr, hid, hm, hi⟩
    · obtain ⟨e, u, key, hrow⟩ := inserted_fresh I he
      rw [hrow] at ht
      simp [EnqueuableJob.toRow] at ht
    · rcases fromOld_step H Q hash a.tie a.now a.act ha with ⟨row, uc', he⟩ | h
      · have : r' = r := by
          rw [he] at hm
          cases hm with
          | keep h e => exact e
          | handout x t res h => simp at h
          | replaced rep enq h => simp at h
          | complete h => simp at h
          | retryable next err h => simp at h
          | discarded err h => simp at h
          | cancelled err h => simp at h
          | snoozed next h => simp at h
          | rerun h => simp at h
          | update job hid h => simp at h
        subst this
        exact IH r' hr hx t ht
      · exact hold (h r' hr' hx)

/-- **C123, executions on Postgres.** In such a history two jobs of `x` that have begun,
each at most `late` after its time, have begun more than `d` apart, less the lateness and
the 100 ms by which a job may be handed out early. -/
theorem C123_begun_on_postgres_partial (hash : HashFn) (x : String) (sts : List JobStatus) (d late : Delta)
    (as : List TPgAct) (hall : ∀ st, st ∈ sts) (hd : (1000 : Int) ∣ d) (has : ∀ a ∈ as, SpacedAct x sts d a.act)
    (a b : Row) (ha : a ∈ (PgConc.run hash {} as).pg.rows) (hb : b ∈ (PgConc.run hash {} as).pg.rows)
    (hax : a.executor = x) (hbx : b.executor = x) (hne : a.id ≠ b.id) (t₁ t₂ : Time)
    (h₁ : a.attemptedAt = some t₁) (h₂ : b.attemptedAt = some t₂)
    (l₁ : t₁ ≤ a.scheduledAt + late) (l₂ : t₂ ≤ b.scheduledAt + late) :
    d - late - 100000000 < t₁ - t₂ ∨ d - late - 100000000 < t₂ - t₁ := by
  have h := C123_spaced_on_postgres_partial hash x sts d as hall hd has a ha b hb hax hbx hne
  have e1 := spaced_begun hash x sts d as has a ha hax t₁ h₁
  have e2 := spaced_begun hash x sts d as has b hb hbx t₂ h₂
  simp only [Time, Delta] at *
  omega

/-- The whole of one enqueue by session `i`, with the criteria `uc`, for the time `t`. -/
def pgFiveMinutes (uc : Criteria) (t : Time) (i : Nat) : List TPgAct :=
  pgAct t (.unique { sampleEnq with scheduledAt := t } uc) ::
    List.replicate 4 (pgAct t (.advance i))

/-- The whole of one hand-out by session `i`. -/
def pgHandout (t : Time) (i : Nat) : List TPgAct :=
  pgAct t (.handout "mail") :: List.replicate 3 (pgAct t (.advance i))

private theorem pgFiveMinutes_spaced {t : Time} {i : Nat} (h : 1000 ∣ t) :
    ∀ a ∈ pgFiveMinutes (documentedCriteria.andStatuses JobStatus.all) t i, SpacedAct "mail" JobStatus.all (300 * sec) a.act := by
  intro a ha
  simp only [pgFiveMinutes, List.mem_cons] at ha
  rcases ha with rfl | ha
  · refine ⟨fun _ => ⟨rfl, rfl, rfl, rfl, h⟩, ?_⟩
    intro rep h; cases h; rfl
  · rw [List.eq_of_mem_replicate ha]; trivial

/-- Enqueued at 0, 300 s and 301 s and executed: the second enqueue finds the first job,
although it is complete; two jobs have begun, at 0 and 301 s. -/
example :
    let as := pgFiveMinutes (documentedCriteria.andStatuses JobStatus.all) 0 0 ++ pgHandout 0 1 ++ [pgAct 0 (.stmt (.complete 1))] ++
      pgFiveMinutes (documentedCriteria.andStatuses JobStatus.all) (300 * sec) 2 ++ pgFiveMinutes (documentedCriteria.andStatuses JobStatus.all) (301 * sec) 3 ++ pgHandout (301 * sec) 4
    (∀ a ∈ as, SpacedAct "mail" JobStatus.all (300 * sec) a.act) ∧ (∀ st, st ∈ JobStatus.all) ∧
    (PgConc.run sampleHash {} as).pg.rows.map (fun r => (r.id, r.status, r.attemptedAt)) =
      [(1, .complete, some 0), (2, .executing, some (301 * sec))] := by
  refine ⟨?_, by intro st; cases st <;> decide, by decide +kernel⟩
  intro a ha
  simp only [List.mem_append] at ha
  have hh : ∀ t i, a ∈ pgHandout t i → SpacedAct "mail" JobStatus.all (300 * sec) a.act := by
    intro t i h
    simp only [pgHandout, List.mem_cons] at h
    rcases h with rfl | h
    · trivial
    · rw [List.eq_of_mem_replicate h]; trivial
  rcases ha with ((((h | h) | h) | h) | h) | h
  · exact pgFiveMinutes_spaced (by decide) a h
  · exact hh _ _ h
  · rw [List.mem_singleton] at h; subst h; trivial
  · exact pgFiveMinutes_spaced (by decide) a h
  · exact pgFiveMinutes_spaced (by decide) a h
  · exact hh _ _ h

/-- **C123 fails on Postgres.** With the documented criteria (Scheduled is what
`by_executor()` sets) three jobs are enqueued and executed within three seconds. -/
theorem C123_violated_on_postgres :
    let as := pgFiveMinutes documentedCriteria 0 0 ++ pgHandout 0 1 ++ [pgAct 0 (.stmt (.complete 1))] ++
      pgFiveMinutes documentedCriteria sec 2 ++ pgHandout sec 3 ++ [pgAct sec (.stmt (.complete 2))] ++
      pgFiveMinutes documentedCriteria (2 * sec) 4 ++ pgHandout (2 * sec) 5 ++ [pgAct (2 * sec) (.stmt (.complete 3))]
    (PgConc.run sampleHash {} as).pg.rows.map (fun r => (r.id, r.status, r.attempt, r.attemptedAt)) =
      [(1, .complete, 1, some 0), (2, .complete, 1, some sec), (3, .complete, 1, some (2 * sec))] := by
  decide +kernel

end Rexecutor
