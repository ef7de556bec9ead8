import Verif.Model.PgConc
import Verif.Lemmas.ListLemmas

/-! Lemmas about the Postgres model. -/

namespace Rexecutor

/-- Ids of rows. -/
def rowIds (rows : List Row) : List Int := rows.map (·.id)

/-- Whole microseconds are kept. -/
theorem pgTime_whole {t : Time} (h : 1000 ∣ t) : pgTime t = t := by
  have : Int.tmod (t - epoch2000) 1000 = 0 := by
    apply Int.tmod_eq_zero_of_dvd
    exact Int.dvd_sub h (by decide)
  simp [pgTime, this]

theorem mem_rowIds {rows : List Row} {i : Int} : i ∈ rowIds rows ↔ ∃ r ∈ rows, r.id = i := by
  simp [rowIds]

theorem row_unique {rows : List Row} (h : (rowIds rows).Nodup) {a b : Row} (ha : a ∈ rows) (hb : b ∈ rows)
    (hi : a.id = b.id) : a = b := by
  induction rows with
  | nil => cases ha
  | cons r rs ih =>
    simp only [rowIds, List.map_cons, List.nodup_cons, List.mem_map, not_exists, not_and] at h
    rcases List.mem_cons.mp ha with rfl | ha'
    · rcases List.mem_cons.mp hb with rfl | hb'
      · rfl
      · exact (h.1 b hb' hi.symm).elim
    · rcases List.mem_cons.mp hb with rfl | hb'
      · exact (h.1 a ha' hi).elim
      · exact ih h.2 ha' hb'

theorem updateRows_mem {id : Int} {f : Row → Row} {rows : List Row} {r : Row} :
    r ∈ (updateRows id f rows).1 ↔ ∃ q ∈ rows, r = if q.id = id then f q else q := by
  simp only [updateRows, List.mem_map]
  constructor
  · rintro ⟨q, h, rfl⟩; exact ⟨q, h, rfl⟩
  · rintro ⟨q, h, rfl⟩; exact ⟨q, h, rfl⟩

theorem updateRows_ids {id : Int} {f : Row → Row} (hf : ∀ r, (f r).id = r.id) (rows : List Row) :
    rowIds (updateRows id f rows).1 = rowIds rows := by
  simp only [rowIds, updateRows, List.map_map]
  apply List.map_congr_left
  intro r _
  simp only [Function.comp]
  split
  · exact hf r
  · rfl

theorem updateRows_keep {id : Int} {f : Row → Row} {rows : List Row} {r : Row} (h : r ∈ rows) (hi : r.id ≠ id) :
    r ∈ (updateRows id f rows).1 :=
  updateRows_mem.mpr ⟨r, h, by simp [hi]⟩

theorem updateRows_count {id : Int} {f : Row → Row} {rows : List Row} (h : (rowIds rows).Nodup) :
    (updateRows id f rows).2 = if id ∈ rowIds rows then 1 else 0 := by
  have hc : (updateRows id f rows).2 = (rowIds rows).count id := by
    simp only [updateRows, rowIds, List.count, List.countP_eq_length_filter, List.filter_map, List.length_map]
    rfl
  rw [hc]
  split
  · rename_i hm
    have h1 := List.nodup_iff_count.mp h id
    have h2 := List.count_pos_iff.mpr hm
    omega
  · rename_i hm
    exact List.count_eq_zero_of_not_mem hm

/-- What a by-id call does to a table without duplicate ids. -/
theorem onRow_cases (id : Int) (f : Row → Row) (p : Pg) (h : (rowIds p.rows).Nodup) :
    (id ∉ rowIds p.rows ∧ p.onRow id f = (.err (.jobNotFound id), p)) ∨
    (id ∈ rowIds p.rows ∧ p.onRow id f = (.unit, { p with rows := (updateRows id f p.rows).1 })) := by
  have hc := updateRows_count (f := f) (id := id) h
  unfold Pg.onRow
  generalize hu : updateRows id f p.rows = u at hc
  obtain ⟨rs, n⟩ := u
  simp only at hc
  by_cases hm : id ∈ rowIds p.rows
  · rw [if_pos hm] at hc; subst hc
    exact .inr ⟨hm, rfl⟩
  · rw [if_neg hm] at hc; subst hc
    exact .inl ⟨hm, rfl⟩

/-- What a single statement does to a table without duplicate ids. -/
theorem pg_step_cases (tie : Int → Nat) (now : Time) (p : Pg) (o : Op) (h : (rowIds p.rows).Nodup)
    (hl : ∀ x, o ≠ .load x) :
    (p.step tie now o).2 = p ∨
    (∃ id f, o.needs tie now p.rows = [id] ∧ (∀ r : Row, (f r).id = r.id) ∧ id ∈ rowIds p.rows ∧
      p.step tie now o = (.unit, { p with rows := (updateRows id f p.rows).1 })) ∨
    (∃ spec, o = .prune spec ∧ p.step tie now o = (.unit, p.prune tie now spec)) := by
  have key : ∀ id f, o.needs tie now p.rows = [id] → (∀ r : Row, (f r).id = r.id) →
      p.step tie now o = p.onRow id f →
      (p.step tie now o).2 = p ∨
      (∃ id f, o.needs tie now p.rows = [id] ∧ (∀ r : Row, (f r).id = r.id) ∧ id ∈ rowIds p.rows ∧
        p.step tie now o = (.unit, { p with rows := (updateRows id f p.rows).1 })) ∨
      (∃ spec, o = .prune spec ∧ p.step tie now o = (.unit, p.prune tie now spec)) := by
    intro id f h1 h2 h3
    rcases onRow_cases id f p h with ⟨-, h5⟩ | ⟨h4, h5⟩
    · left; rw [h3, h5]
    · right; left; exact ⟨id, f, h1, h2, h4, by rw [h3, h5]⟩
  cases o with
  | complete id => exact key id (Row.markComplete now) rfl (fun _ => rfl) rfl
  | retryable id next e => exact key id (Row.markRetryable now next e) rfl (fun _ => rfl) rfl
  | discarded id e => exact key id (Row.markDiscarded now e) rfl (fun _ => rfl) rfl
  | cancelled id e => exact key id (Row.markCancelled now e) rfl (fun _ => rfl) rfl
  | snoozed id next => exact key id (Row.markSnoozed next) rfl (fun _ => rfl) rfl
  | rerun id => exact key id (Row.markRerunable now) rfl (fun _ => rfl) rfl
  | update job => exact key job.id (Row.update job) rfl (fun _ => rfl) rfl
  | prune spec => exact .inr (.inr ⟨spec, rfl, rfl⟩)
  | query q => exact .inl rfl
  | load x => exact (hl x rfl).elim
  | subscribe x => exact .inl rfl
  | notifyAll => exact .inl rfl

theorem prune_mem {tie : Int → Nat} {now : Time} {spec : PruneSpec} {p : Pg} {r : Row} :
    r ∈ (p.prune tie now spec).rows ↔ r ∈ p.rows ∧ r.id ∉ spec.doomed now tie p.rows := by
  simp [Pg.prune, List.mem_filter]

theorem prune_nodup {tie : Int → Nat} {now : Time} {spec : PruneSpec} {p : Pg} (h : (rowIds p.rows).Nodup) :
    (rowIds (p.prune tie now spec).rows).Nodup := by
  have : (p.prune tie now spec).rows.Sublist p.rows := List.filter_sublist
  exact (this.map _).nodup h

/-! ## Rows under interleaving -/

/-- How an action changes the table. -/
inductive RowsStep (rows : List Row) (seq : Nat) : List Row → Nat → Prop where
  | same (seq' : Nat) (h : seq ≤ seq') : RowsStep rows seq rows seq'
  | append (row : Row) (seq' : Nat) (h : seq ≤ seq') (hb : row.id ≤ seq') (hn : row.id ∉ rowIds rows) :
      RowsStep rows seq (rows ++ [row]) seq'
  | update (id : Int) (f : Row → Row) (hf : ∀ r, (f r).id = r.id) : RowsStep rows seq (updateRows id f rows).1 seq
  | remove (tie : Int → Nat) (now : Time) (spec : PruneSpec) (rs : List Row)
      (h : ∀ r, r ∈ rs ↔ r ∈ rows ∧ r.id ∉ spec.doomed now tie rows)
      (hn : (rowIds rows).Nodup → (rowIds rs).Nodup) : RowsStep rows seq rs seq

/-- What holds in every reachable state of the database. -/
structure PgInv (c : PgConc) : Prop where
  nodup : (rowIds c.pg.rows).Nodup
  bound : ∀ i ∈ rowIds c.pg.rows, i ≤ (c.pg.seq : Int)
  pending : ∀ (i : Nat) (e : EnqueuableJob) (uc : Criteria) (row : Row),
    c.sessions[i]? = some (.inserted e uc row) → row.id ≤ (c.pg.seq : Int) ∧ row.id ∉ rowIds c.pg.rows
  pendingOne : ∀ (i k : Nat) (e e' : EnqueuableJob) (uc uc' : Criteria) (row row' : Row),
    c.sessions[i]? = some (.inserted e uc row) → c.sessions[k]? = some (.inserted e' uc' row') →
    row.id = row'.id → i = k
  lockOne : ∀ (i k : Nat) (s s' : Session) (id : Int), c.sessions[i]? = some s → c.sessions[k]? = some s' →
    s.rowLock = some id → s'.rowLock = some id → i = k
  lockedReady : ∀ (i : Nat) (x : String) (t : Time) (id : Int), c.sessions[i]? = some (.locked x t id) →
    ∃ r ∈ c.pg.rows, r.id = id ∧ r.ready t x = true

theorem rowLocked_iff {c : PgConc} {id : Int} :
    c.rowLocked id = true ↔ ∃ (i : Nat) (s : Session), c.sessions[i]? = some s ∧ s.rowLock = some id := by
  simp only [PgConc.rowLocked, List.any_eq_true, beq_iff_eq]
  constructor
  · rintro ⟨s, m, h⟩
    obtain ⟨i, hi⟩ := List.mem_iff_getElem?.mp m
    exact ⟨i, s, hi, h⟩
  · rintro ⟨i, s, hi, h⟩
    exact ⟨s, List.mem_of_getElem? hi, h⟩

theorem PgInv.init : PgInv {} where
  nodup := by simp [rowIds]
  bound := by simp [rowIds]
  pending := by simp
  pendingOne := by simp
  lockOne := by simp
  lockedReady := by simp

/-- The invariant survives a change of the table that does not touch rows locked by
others, and a change of one session. -/
private theorem inv_change {c : PgConc} (H : PgInv c) {rows : List Row} {seq : Nat} {sessions : List Session}
    (i : Nat) (hstep : RowsStep c.pg.rows c.pg.seq rows seq)
    (hothers : ∀ k, k ≠ i → sessions[k]? = c.sessions[k]?)
    -- rows locked by others stay
    (hkeep : ∀ k, k ≠ i → ∀ s id, c.sessions[k]? = some s → s.rowLock = some id →
      ∀ r ∈ c.pg.rows, r.id = id → r ∈ rows)
    -- an appended row is not pending elsewhere
    (happ : ∀ k, k ≠ i → ∀ e uc row, c.sessions[k]? = some (.inserted e uc row) → row.id ∉ rowIds rows)
    -- the session itself
    (hlock : ∀ s id, sessions[i]? = some s → s.rowLock = some id →
      ∀ k s', k ≠ i → c.sessions[k]? = some s' → s'.rowLock ≠ some id)
    (hready : ∀ x t id, sessions[i]? = some (.locked x t id) → ∃ r ∈ rows, r.id = id ∧ r.ready t x = true)
    (hpend : ∀ e uc row, sessions[i]? = some (.inserted e uc row) →
      row.id ≤ (seq : Int) ∧ row.id ∉ rowIds rows ∧
      ∀ k, k ≠ i → ∀ e' uc' row', c.sessions[k]? = some (.inserted e' uc' row') → row'.id ≠ row.id) :
    PgInv { pg := { rows := rows, seq := seq }, sessions := sessions } := by
  have hseq : c.pg.seq ≤ seq := by cases hstep <;> first | assumption | exact Nat.le_refl _
  refine ⟨?_, ?_, ?_, ?_, ?_, ?_⟩
  · cases hstep with
    | same => exact H.nodup
    | append row _ _ _ hn =>
      simp only [rowIds, List.map_append, List.map_cons, List.map_nil]
      rw [List.nodup_append]
      refine ⟨H.nodup, by simp, ?_⟩
      intro a ha b hb
      rw [List.mem_singleton.mp hb]
      intro e; subst e; exact hn ha
    | update id f hf => simp only [updateRows_ids hf]; exact H.nodup
    | remove tie now spec rs h hn => exact hn H.nodup
  · intro j hj
    cases hstep with
    | same => exact Int.le_trans (H.bound j hj) (by simp only; omega)
    | append row _ _ hb hn =>
      simp only [rowIds, List.map_append, List.mem_append, List.map_cons, List.map_nil, List.mem_singleton] at hj
      rcases hj with hj | rfl
      · exact Int.le_trans (H.bound j hj) (by simp only; omega)
      · exact hb
    | update id f hf => simp only [updateRows_ids hf] at hj; exact H.bound j hj
    | remove tie now spec rs h hn =>
      obtain ⟨r, hr, rfl⟩ := mem_rowIds.mp hj
      exact H.bound _ (mem_rowIds.mpr ⟨r, ((h r).mp hr).1, rfl⟩)
  · intro k e uc row hk
    by_cases hki : k = i
    · subst hki
      obtain ⟨h1, h2, -⟩ := hpend e uc row hk
      exact ⟨h1, h2⟩
    · simp only at hk
      rw [hothers k hki] at hk
      refine ⟨Int.le_trans (H.pending k e uc row hk).1 (by simp only; omega), happ k hki e uc row hk⟩
  · intro k l e e' uc uc' row row' hk hl heq
    simp only at hk hl
    by_cases hki : k = i
    · by_cases hli : l = i
      · rw [hki, hli]
      · subst hki
        rw [hothers l hli] at hl
        exact ((hpend e uc row hk).2.2 l hli e' uc' row' hl heq.symm).elim
    · rw [hothers k hki] at hk
      by_cases hli : l = i
      · subst hli
        exact ((hpend e' uc' row' hl).2.2 k hki e uc row hk heq).elim
      · rw [hothers l hli] at hl
        exact H.pendingOne k l e e' uc uc' row row' hk hl heq
  · intro k l s s' id hk hl hs hs'
    simp only at hk hl
    by_cases hki : k = i
    · by_cases hli : l = i
      · rw [hki, hli]
      · subst hki
        rw [hothers l hli] at hl
        exact (hlock s id hk hs l s' hli hl hs').elim
    · rw [hothers k hki] at hk
      by_cases hli : l = i
      · subst hli
        exact (hlock s' id hl hs' k s hki hk hs).elim
      · rw [hothers l hli] at hl
        exact H.lockOne k l s s' id hk hl hs hs'
  · intro k x t id hk
    by_cases hki : k = i
    · subst hki; exact hready x t id hk
    · simp only at hk
      rw [hothers k hki] at hk
      obtain ⟨r, hr, hid, hrd⟩ := H.lockedReady k x t id hk
      exact ⟨r, hkeep k hki _ id hk rfl r hr hid, hid, hrd⟩

/-- `l ++ [s]` elsewhere than at the end. -/
private theorem append_other {l : List α} {s : α} {k : Nat} (h : k ≠ l.length) : (l ++ [s])[k]? = l[k]? := by
  rcases Nat.lt_trichotomy k l.length with h' | h' | h'
  · exact List.getElem?_append_left h'
  · exact (h h').elim
  · rw [List.getElem?_eq_none (by simp; omega), List.getElem?_eq_none (by omega)]

private theorem set_other {l : List α} {s : α} {i k : Nat} (h : k ≠ i) : (l.set i s)[k]? = l[k]? := by
  rw [List.getElem?_set]; simp [Ne.symm h]

private theorem set_self {l : List α} {s s' : α} {i : Nat} (h : (l.set i s)[i]? = some s') : s' = s := by
  rw [List.getElem?_set] at h
  split at h
  · split at h
    · exact (Option.some.inj h).symm
    · simp at h
  · simp_all

private theorem toRow_id (now : Time) (e : EnqueuableJob) (id : Int) (key : Option Int) :
    (e.toRow now id key).id = id := rfl

private theorem markExecuting_id (t : Time) (r : Row) : (r.markExecuting t).id = r.id := rfl

private theorem seq_new {c : PgConc} (H : PgInv c) : ((c.pg.seq + 1 : Nat) : Int) ∉ rowIds c.pg.rows := by
  intro h
  have := H.bound _ h
  omega

private theorem inv_session {c : PgConc} (H : PgInv c) (i : Nat) (s' : Session)
    (hl : s'.rowLock = none) (hp : ∀ e uc row, s' ≠ .inserted e uc row) :
    PgInv { c with sessions := c.sessions.set i s' } := by
  refine inv_change H (rows := c.pg.rows) (seq := c.pg.seq) i (.same _ (Nat.le_refl _)) (fun k hk => set_other hk)
    (fun _ _ _ _ _ _ r hr _ => hr) (fun k _ e uc row h => (H.pending k e uc row h).2) ?_ ?_ ?_
  · intro s id h1 h2; rw [set_self h1, hl] at h2; simp at h2
  · intro x t id h
    have := set_self h
    rw [← this] at hl; simp [Session.rowLock] at hl
  · intro e uc row h; exact (hp e uc row (set_self h).symm).elim

theorem PgInv.step {c : PgConc} (H : PgInv c) (hash : HashFn) (tie : Int → Nat) (now : Time) (a : PgAct) :
    PgInv (c.step hash tie now a).2 := by
  cases a with
  | handout x =>
    simp only [PgConc.step]
    refine inv_change H (rows := c.pg.rows) (seq := c.pg.seq) c.sessions.length (.same _ (Nat.le_refl _))
      (fun k hk => append_other hk) (fun _ _ _ _ _ _ r hr _ => hr)
      (fun k _ e uc row h => (H.pending k e uc row h).2) ?_ ?_ ?_
    · intro s id h1 h2; simp at h1; subst h1; simp [Session.rowLock] at h2
    · intro x t id h; simp at h
    · intro e uc row h; simp at h
  | unique e uc =>
    simp only [PgConc.step]
    refine inv_change H (rows := c.pg.rows) (seq := c.pg.seq) c.sessions.length (.same _ (Nat.le_refl _))
      (fun k hk => append_other hk) (fun _ _ _ _ _ _ r hr _ => hr)
      (fun k _ e uc row h => (H.pending k e uc row h).2) ?_ ?_ ?_
    · intro s id h1 h2; simp at h1; subst h1; simp [Session.rowLock] at h2
    · intro x t id h; simp at h
    · intro e uc row h; simp at h
  | abort i =>
    simp only [PgConc.step]
    split
    · exact H
    · exact H
    · exact inv_session H i _ rfl (by simp)
  | plain e =>
    simp only [PgConc.step]
    split
    · exact H
    · refine inv_change H (sessions := c.sessions) c.sessions.length
        (.append (e.toRow now ((c.pg.seq + 1 : Nat) : Int) none) (c.pg.seq + 1) (by omega) (by simp [toRow_id])
          (by simpa [toRow_id] using seq_new H)) (fun k _ => rfl) ?_ ?_ ?_ ?_ ?_
      · intro k _ s id _ _ r hr _; exact List.mem_append_left _ hr
      · intro k _ e' uc row h
        obtain ⟨h1, h2⟩ := H.pending k e' uc row h
        simp only [rowIds, List.map_append, List.mem_append, not_or, List.map_cons, List.map_nil,
          List.mem_singleton, toRow_id]
        exact ⟨h2, by omega⟩
      · intro s id h; simp at h
      · intro x t id h; simp at h
      · intro e uc row h; simp at h
  | stmt o =>
    by_cases hload : ∃ x, o = .load x
    · obtain ⟨x, rfl⟩ := hload; exact H
    have hl : ∀ x, o ≠ .load x := fun x e => hload ⟨x, e⟩
    have hstep : (c.step hash tie now (.stmt o)).2 =
        if (o.needs tie now c.pg.rows).any c.rowLocked then c
        else { c with pg := (c.pg.step tie now o).2 } := by
      cases o <;> first | (exact (hl _ rfl).elim) | (simp only [PgConc.step]; split <;> rfl)
    rw [hstep]
    split
    · exact H
    · rename_i hnb
      have hfree : ∀ id ∈ o.needs tie now c.pg.rows, ∀ (k : Nat) (s : Session), c.sessions[k]? = some s → s.rowLock ≠ some id := by
        intro id hid k s hk hs
        apply hnb
        rw [List.any_eq_true]
        exact ⟨id, hid, rowLocked_iff.mpr ⟨k, s, hk, hs⟩⟩
      rcases pg_step_cases tie now c.pg o H.nodup hl with h | ⟨id, f, h1, h2, h3, h4⟩ | ⟨spec, h1, h2⟩
      · rw [h]; exact H
      · rw [h4]
        refine inv_change H (sessions := c.sessions) c.sessions.length (.update id f h2) (fun k _ => rfl) ?_ ?_ ?_ ?_ ?_
        · intro k _ s id' hk hs r hr hid
          refine updateRows_keep hr ?_
          intro e
          exact hfree id (by rw [h1]; simp) k s hk (by rw [hs, ← hid, e])
        · intro k _ e uc row hk
          rw [updateRows_ids h2]; exact (H.pending k e uc row hk).2
        · intro s id h; simp at h
        · intro x t id h; simp at h
        · intro e uc row h; simp at h
      · rw [h2]
        subst h1
        refine inv_change H (sessions := c.sessions) c.sessions.length
          (.remove tie now spec _ (fun r => prune_mem) prune_nodup) (fun k _ => rfl) ?_ ?_ ?_ ?_ ?_
        · intro k _ s id' hk hs r hr hid
          refine prune_mem.mpr ⟨hr, ?_⟩
          intro hd
          exact hfree r.id hd k s hk (by rw [hs, hid])
        · intro k _ e uc row hk hm
          obtain ⟨r, hr, hid⟩ := mem_rowIds.mp hm
          exact (H.pending k e uc row hk).2 (mem_rowIds.mpr ⟨r, (prune_mem.mp hr).1, hid⟩)
        · intro s id h; simp at h
        · intro x t id h; simp at h
        · intro e uc row h; simp at h
  | advance i =>
    simp only [PgConc.step]
    split
    · exact H
    · rename_i s hs
      have pend := fun k (_ : k ≠ i) e uc row h => (H.pending k e uc row h).2
      cases s with
      | handout x => exact inv_session H i _ rfl (by simp [PgConc.advance])
      | looking x t snap =>
        simp only [PgConc.advance]
        split
        · exact inv_session H i _ rfl (by simp)
        · rename_i r hr
          have hp := List.find?_some hr
          simp only [Bool.and_eq_true, Bool.not_eq_true', List.any_eq_true, beq_iff_eq] at hp
          obtain ⟨hfree, r', hr', hid, hrd⟩ := hp
          refine inv_change H (rows := c.pg.rows) (seq := c.pg.seq) i (.same _ (Nat.le_refl _)) (fun k hk => set_other hk)
            (fun _ _ _ _ _ _ r hr _ => hr) pend ?_ ?_ ?_
          · intro s id h1 h2 k s' _ hk' hs'
            rw [set_self h1] at h2
            simp only [Session.rowLock, Option.some.injEq] at h2
            have : c.rowLocked r.id = true := rowLocked_iff.mpr ⟨k, s', hk', by rw [hs', h2]⟩
            rw [this] at hfree; simp at hfree
          · intro x' t' id h
            have := set_self h
            simp only [Session.locked.injEq] at this
            obtain ⟨rfl, rfl, rfl⟩ := this
            exact ⟨r', hr', hid, hrd⟩
          · intro e uc row h; have := set_self h; simp at this
      | locked x t id =>
        simp only [PgConc.advance]
        split
        · exact inv_session H i _ rfl (by simp)
        · refine inv_change H i (.update id (Row.markExecuting t) (fun _ => rfl)) (fun k hk => set_other hk) ?_ ?_ ?_ ?_ ?_
          · intro k hk s id' hks hsl r hr hid
            refine updateRows_keep hr ?_
            intro e
            exact hk (H.lockOne k i s _ id hks hs (by rw [hsl, ← hid, e]) rfl)
          · intro k hk e uc row h
            rw [updateRows_ids (f := Row.markExecuting t) (fun _ => rfl)]; exact pend k hk e uc row h
          · intro s id h1 h2; rw [set_self h1] at h2; simp [Session.rowLock] at h2
          · intro x t id h; have := set_self h; simp at this
          · intro e uc row h; have := set_self h; simp at this
      | unique e uc t =>
        simp only [PgConc.advance]
        split
        · exact inv_session H i _ rfl (by simp)
        · exact inv_session H i _ rfl (by simp)
      | holding e uc t =>
        simp only [PgConc.advance]
        split
        · exact inv_session H i _ rfl (by simp)
        · exact inv_session H i _ rfl (by simp)
      | missing e uc t =>
        simp only [PgConc.advance]
        split
        · exact inv_session H i _ rfl (by simp)
        · refine inv_change H (rows := c.pg.rows) (seq := c.pg.seq + 1) i (.same _ (by omega)) (fun k hk => set_other hk)
            (fun _ _ _ _ _ _ r hr _ => hr) pend ?_ ?_ ?_
          · intro s id h1 h2; rw [set_self h1] at h2; simp [Session.rowLock] at h2
          · intro x t id h; have := set_self h; simp at this
          · intro e' uc' row h
            have := set_self h
            simp only [Session.inserted.injEq] at this
            obtain ⟨rfl, rfl, rfl⟩ := this
            refine ⟨by simp [toRow_id], by simpa [toRow_id] using seq_new H, ?_⟩
            intro k _ e'' uc'' row'' hk
            have := (H.pending k _ _ _ hk).1
            simp only [toRow_id]
            omega
      | found e uc id status =>
        simp only [PgConc.advance]
        split
        · split
          · split
            · exact inv_session H i _ rfl (by simp)
            · split
              · exact inv_session H i _ rfl (by simp)
              · rename_i hfree
                refine inv_change H (rows := c.pg.rows) (seq := c.pg.seq) i (.same _ (Nat.le_refl _))
                  (fun k hk => set_other hk) (fun _ _ _ _ _ _ r hr _ => hr) pend ?_ ?_ ?_
                · intro s id' h1 h2 k s' _ hk' hs'
                  rw [set_self h1] at h2
                  simp only [Session.rowLock, Option.some.injEq] at h2
                  exact hfree (rowLocked_iff.mpr ⟨k, s', hk', by rw [hs', h2]⟩)
                · intro x t id h; have := set_self h; simp at this
                · intro e uc row h; have := set_self h; simp at this
          · exact inv_session H i _ rfl (by simp)
        · exact inv_session H i _ rfl (by simp)
      | inserted e uc row =>
        simp only [PgConc.advance]
        obtain ⟨hb, hn⟩ := H.pending i e uc row hs
        refine inv_change H i (.append row c.pg.seq (Nat.le_refl _) hb hn) (fun k hk => set_other hk) ?_ ?_ ?_ ?_ ?_
        · intro k _ s id _ _ r hr _; exact List.mem_append_left _ hr
        · intro k hk e' uc' row' h
          simp only [rowIds, List.map_append, List.mem_append, not_or, List.map_cons, List.map_nil, List.mem_singleton]
          refine ⟨pend k hk _ _ _ h, ?_⟩
          intro heq
          exact hk (H.pendingOne k i _ _ _ _ _ _ h hs heq)
        · intro s id h1 h2; rw [set_self h1] at h2; simp [Session.rowLock] at h2
        · intro x t id h; have := set_self h; simp at this
        · intro e uc row h; have := set_self h; simp at this
      | replacing e uc rep id =>
        simp only [PgConc.advance]
        refine inv_change H i (.update id (Row.replace rep e) (fun _ => rfl)) (fun k hk => set_other hk) ?_ ?_ ?_ ?_ ?_
        · intro k hk s id' hks hsl r hr hid
          refine updateRows_keep hr ?_
          intro e
          exact hk (H.lockOne k i s _ id hks hs (by rw [hsl, ← hid, e]) rfl)
        · intro k hk e' uc row h
          rw [updateRows_ids (f := Row.replace rep e) (fun _ => rfl)]; exact pend k hk e' uc row h
        · intro s id h1 h2; rw [set_self h1] at h2; simp [Session.rowLock] at h2
        · intro x t id h; have := set_self h; simp at this
        · intro e uc row h; have := set_self h; simp at this
      | done r => exact inv_session H i _ rfl (by simp [PgConc.advance])

theorem PgInv.run {c : PgConc} (H : PgInv c) (hash : HashFn) (as : List TPgAct) : PgInv (c.run hash as) := by
  induction as generalizing c with
  | nil => exact H
  | cons a as ih => exact ih (H.step hash a.tie a.now a.act)

/-- The invariant in every history. -/
theorem pgInv (hash : HashFn) (as : List TPgAct) : PgInv (PgConc.run hash {} as) := PgInv.init.run hash as

theorem PgConc.trace_split {hash : HashFn} {as : List TPgAct} {c : PgConc} {pre post : List PgEv} {e : PgEv}
    (h : c.trace hash as = pre ++ e :: post) :
    ∃ as₁ a as₂, as = as₁ ++ a :: as₂ ∧ c.trace hash as₁ = pre ∧
      ((c.run hash as₁).step hash a.tie a.now a.act).1 = e ∧
      (((c.run hash as₁).step hash a.tie a.now a.act).2).trace hash as₂ = post := by
  induction pre generalizing c as with
  | nil =>
    cases as with
    | nil => simp [PgConc.trace] at h
    | cons a as =>
      simp only [PgConc.trace, List.nil_append, List.cons.injEq] at h
      exact ⟨[], a, as, rfl, rfl, h.1, h.2⟩
  | cons p pre ih =>
    cases as with
    | nil => simp [PgConc.trace] at h
    | cons a as =>
      simp only [PgConc.trace, List.cons_append, List.cons.injEq] at h
      obtain ⟨as₁, b, as₂, rfl, h2, h3, h4⟩ := ih h.2
      exact ⟨a :: as₁, b, as₂, rfl, by simp [PgConc.trace, h2, h.1], h3, h4⟩

end Rexecutor
