import Verif.Lemmas.Pg
import Verif.Spec.PgHistory

/-! What a step of the database does to each row. -/

namespace Rexecutor

/-- How an event changes a row. -/
inductive RowMove (now : Time) (ev : PgEv) (r r' : Row) : Prop where
  | keep (h : ev.touches r.id = false) (e : r' = r)
  | handout (x : String) (t : Time) (res : Res) (h : ev = .handedOut r' res) (hr : r.ready t x = true)
      (e : r' = r.markExecuting t)
  | replaced (rep : Replace) (enq : EnqueuableJob) (h : ev = .replaced r.id) (e : r' = r.replace rep enq)
  | complete (h : ev = .stmt (.complete r.id) .unit) (e : r' = r.markComplete now)
  | retryable (next : Time) (err : ExecError) (h : ev = .stmt (.retryable r.id next err) .unit)
      (e : r' = r.markRetryable now next err)
  | discarded (err : ExecError) (h : ev = .stmt (.discarded r.id err) .unit) (e : r' = r.markDiscarded now err)
  | cancelled (err : ExecError) (h : ev = .stmt (.cancelled r.id err) .unit) (e : r' = r.markCancelled now err)
  | snoozed (next : Time) (h : ev = .stmt (.snoozed r.id next) .unit) (e : r' = r.markSnoozed next)
  | rerun (h : ev = .stmt (.rerun r.id) .unit) (e : r' = r.markRerunable now)
  | update (job : Job) (hid : job.id = r.id) (h : ev = .stmt (.update job) .unit) (e : r' = r.update job)

theorem RowMove.id_eq {now : Time} {ev : PgEv} {r r' : Row} (h : RowMove now ev r r') : r'.id = r.id := by
  cases h <;> rename_i e <;> rw [e] <;> rfl

/-- A row changes only by events that touch it. -/
theorem RowMove.quiet {now : Time} {ev : PgEv} {r r' : Row} (h : RowMove now ev r r') (ht : ev.touches r.id = false) :
    r' = r := by
  cases h with
  | keep _ e => exact e
  | handout x t res h hr e =>
    subst h e; simp [PgEv.touches, PgEv.handsOut, Row.markExecuting] at ht
  | replaced rep enq h e => subst h; simp [PgEv.touches, PgEv.edits] at ht
  | complete h e => subst h; simp [PgEv.touches, PgEv.finishes] at ht
  | retryable next err h e => subst h; simp [PgEv.touches, PgEv.retries] at ht
  | discarded err h e => subst h; simp [PgEv.touches, PgEv.finishes] at ht
  | cancelled err h e => subst h; simp [PgEv.touches, PgEv.finishes] at ht
  | snoozed next h e => subst h; simp [PgEv.touches, PgEv.snoozes] at ht
  | rerun h e => subst h; simp [PgEv.touches, PgEv.reruns] at ht
  | update job hid h e => subst h; simp [PgEv.touches, PgEv.edits, hid] at ht

/-- All the ways a step can change the table. -/
inductive TableStep (now : Time) (rows : List Row) : PgEv → List Row → Prop where
  | same (ev : PgEv) (ht : ∀ id, ev.touches id = false) (hi : ∀ id, ev.inserts id = false) : TableStep now rows ev rows
  | insert (row : Row) (uc : Option Criteria) (hn : row.id ∉ rowIds rows) :
      TableStep now rows (.inserted row uc) (rows ++ [row])
  | change (ev : PgEv) (id : Int) (f : Row → Row) (hm : id ∈ rowIds rows) (ht : ∀ i, ev.touches i = (i == id))
      (hi : ∀ i, ev.inserts i = false)
      (hf : ∀ r ∈ rows, r.id = id → RowMove now ev r (f r)) :
      TableStep now rows ev (updateRows id f rows).1
  | prune (spec : PruneSpec) (rows' : List Row) (hs : ∀ r, r ∈ rows' → r ∈ rows) :
      TableStep now rows (.stmt (.prune spec) .unit) rows'
  | ghost (id : Int) (hm : id ∉ rowIds rows) : TableStep now rows (.replaced id) rows

private theorem touches_stmt_one {o : Op} {id : Int}
    (h : o = .complete id ∨ (∃ n e, o = .retryable id n e) ∨ (∃ e, o = .discarded id e) ∨ (∃ e, o = .cancelled id e) ∨
      (∃ n, o = .snoozed id n) ∨ o = .rerun id ∨ ∃ j, j.id = id ∧ o = .update j) (i : Int) :
    (PgEv.stmt o .unit).touches i = (i == id) := by
  have hc : (id == i) = (i == id) := by
    by_cases h : i = id
    · subst h; rfl
    · rw [beq_eq_false_iff_ne.mpr h, beq_eq_false_iff_ne.mpr (fun e => h e.symm)]
  rcases h with rfl | ⟨n, e, rfl⟩ | ⟨e, rfl⟩ | ⟨e, rfl⟩ | ⟨n, rfl⟩ | rfl | ⟨j, hj, rfl⟩ <;>
    simp [PgEv.touches, PgEv.handsOut, PgEv.retries, PgEv.snoozes, PgEv.reruns, PgEv.edits, PgEv.finishes, hc, *]

private theorem quiet_err {o : Op} {e : BackendError} (i : Int) : (PgEv.stmt o (.err e)).touches i = false := by
  cases o <;> rfl

theorem table_onRow {now : Time} {p : Pg} (hn : (rowIds p.rows).Nodup) {o : Op} {id : Int} {f : Row → Row}
    (ht : ∀ i, (PgEv.stmt o .unit).touches i = (i == id))
    (hf : ∀ r ∈ p.rows, r.id = id → RowMove now (.stmt o .unit) r (f r)) :
    TableStep now p.rows (.stmt o (p.onRow id f).1) (p.onRow id f).2.rows := by
  rcases onRow_cases id f p hn with ⟨h1, h2⟩ | ⟨h1, h2⟩
  · rw [h2]; exact .same _ quiet_err (fun _ => rfl)
  · rw [h2]; exact .change _ id f h1 ht (fun _ => rfl) hf

theorem table_step {c : PgConc} (H : PgInv c) (hash : HashFn) (tie : Int → Nat) (now : Time) (a : PgAct) :
    TableStep now c.pg.rows (c.step hash tie now a).1 (c.step hash tie now a).2.pg.rows := by
  cases a with
  | handout x => exact .same _ (fun _ => rfl) (fun _ => rfl)
  | unique e uc => exact .same _ (fun _ => rfl) (fun _ => rfl)
  | abort i =>
    simp only [PgConc.step]
    split <;> exact .same _ (fun _ => rfl) (fun _ => rfl)
  | plain e =>
    simp only [PgConc.step]
    split
    · exact .same _ (fun _ => rfl) (fun _ => rfl)
    · refine .insert _ _ ?_
      intro h
      have := H.bound _ h
      simp only [EnqueuableJob.toRow] at this
      omega
  | stmt o =>
    by_cases hload : ∃ x, o = .load x
    · obtain ⟨x, rfl⟩ := hload; exact .same _ (fun _ => rfl) (fun _ => rfl)
    have hl : ∀ x, o ≠ .load x := fun x e => hload ⟨x, e⟩
    have hstep : c.step hash tie now (.stmt o) =
        if (o.needs tie now c.pg.rows).any c.rowLocked then (.blocked, c)
        else (.stmt o (c.pg.step tie now o).1, { c with pg := (c.pg.step tie now o).2 }) := by
      cases o <;> first | (exact (hl _ rfl).elim) | (simp only [PgConc.step])
    rw [hstep]
    split
    · exact .same _ (fun _ => rfl) (fun _ => rfl)
    · simp only
      cases o with
      | complete id =>
        exact table_onRow H.nodup (touches_stmt_one (.inl rfl)) (fun r _ h => .complete (by rw [h]) rfl)
      | retryable id next e =>
        exact table_onRow H.nodup (touches_stmt_one (.inr (.inl ⟨_, _, rfl⟩)))
          (fun r _ h => .retryable next e (by rw [h]) rfl)
      | discarded id e =>
        exact table_onRow H.nodup (touches_stmt_one (.inr (.inr (.inl ⟨_, rfl⟩))))
          (fun r _ h => .discarded e (by rw [h]) rfl)
      | cancelled id e =>
        exact table_onRow H.nodup (touches_stmt_one (.inr (.inr (.inr (.inl ⟨_, rfl⟩)))))
          (fun r _ h => .cancelled e (by rw [h]) rfl)
      | snoozed id next =>
        exact table_onRow H.nodup (touches_stmt_one (.inr (.inr (.inr (.inr (.inl ⟨_, rfl⟩))))))
          (fun r _ h => .snoozed next (by rw [h]) rfl)
      | rerun id =>
        exact table_onRow H.nodup (touches_stmt_one (.inr (.inr (.inr (.inr (.inr (.inl rfl)))))))
          (fun r _ h => .rerun (by rw [h]) rfl)
      | update job =>
        exact table_onRow H.nodup (touches_stmt_one (.inr (.inr (.inr (.inr (.inr (.inr ⟨job, rfl, rfl⟩)))))))
          (fun r _ h => .update job h.symm rfl rfl)
      | prune spec => exact .prune spec _ (fun r hr => (prune_mem.mp hr).1)
      | query q =>
        refine .same _ (fun id => ?_) (fun _ => rfl)
        generalize (c.pg.step tie now (.query q)).1 = res
        cases res <;> rfl
      | load x => exact (hl x rfl).elim
      | subscribe x => exact .same _ (fun _ => rfl) (fun _ => rfl)
      | notifyAll => exact .same _ (fun _ => rfl) (fun _ => rfl)
  | advance i =>
    simp only [PgConc.step]
    split
    · exact .same _ (fun _ => rfl) (fun _ => rfl)
    · rename_i s hs
      cases s with
      | handout x => exact .same _ (fun _ => rfl) (fun _ => rfl)
      | done r => exact .same _ (fun _ => rfl) (fun _ => rfl)
      | looking x t snap =>
        simp only [PgConc.advance]; split <;> exact .same _ (fun _ => rfl) (fun _ => rfl)
      | unique e uc t =>
        simp only [PgConc.advance]; split <;> exact .same _ (fun _ => rfl) (fun _ => rfl)
      | holding e uc t =>
        simp only [PgConc.advance]; split <;> exact .same _ (fun _ => rfl) (fun _ => rfl)
      | missing e uc t =>
        simp only [PgConc.advance]; split <;> exact .same _ (fun _ => rfl) (fun _ => rfl)
      | found e uc id st =>
        simp only [PgConc.advance]
        split
        · split
          · split
            · exact .same _ (fun _ => rfl) (fun _ => rfl)
            · split <;> exact .same _ (fun _ => rfl) (fun _ => rfl)
          · exact .same _ (fun _ => rfl) (fun _ => rfl)
        · exact .same _ (fun _ => rfl) (fun _ => rfl)
      | inserted e uc row =>
        exact .insert row (some uc) (H.pending i e uc row hs).2
      | replacing e uc rep id =>
        simp only [PgConc.advance]
        by_cases hm : id ∈ rowIds c.pg.rows
        · refine .change _ id _ hm (fun j => ?_) (fun _ => rfl) (fun r _ h => .replaced rep e (by rw [h]) rfl)
          simp only [PgEv.touches, PgEv.handsOut, PgEv.retries, PgEv.snoozes, PgEv.reruns, PgEv.edits, PgEv.finishes,
            Bool.false_or, Bool.or_false]
          by_cases hj : j = id
          · subst hj; rfl
          · rw [beq_eq_false_iff_ne.mpr hj, beq_eq_false_iff_ne.mpr (fun e => hj e.symm)]
        · have : (updateRows id (Row.replace rep e) c.pg.rows).1 = c.pg.rows := by
            simp only [updateRows]
            refine (List.map_congr_left fun r hr => ?_).trans (List.map_id _)
            rw [if_neg (fun e => hm (mem_rowIds.mpr ⟨r, hr, e⟩))]; rfl
          rw [this]
          exact .ghost id hm
      | locked x t id =>
        obtain ⟨r₀, hr₀, hid₀, hrd⟩ := H.lockedReady i x t id hs
        simp only [PgConc.advance]
        split
        · exact .same _ (fun _ => rfl) (fun _ => rfl)
        · rename_i r hr
          have hrid : r.id = id := by simpa using List.find?_some hr
          have hrr : r₀ = r := row_unique H.nodup hr₀ (List.mem_of_find?_eq_some hr) (by rw [hid₀, hrid])
          subst hrr
          refine .change _ id _ (mem_rowIds.mpr ⟨r₀, hr₀, hid₀⟩) (fun j => ?_) (fun _ => rfl) ?_
          · simp only [PgEv.touches, PgEv.handsOut, PgEv.retries, PgEv.snoozes, PgEv.reruns, PgEv.edits, PgEv.finishes,
              Bool.or_false, Row.markExecuting, hrid]
            by_cases hj : j = id
            · subst hj; rfl
            · rw [beq_eq_false_iff_ne.mpr hj, beq_eq_false_iff_ne.mpr (fun e => hj e.symm)]
          · intro q hq hqid
            have : q = r₀ := row_unique H.nodup hq hr₀ (by rw [hqid, hid₀])
            subst this
            exact .handout x t _ rfl hrd rfl

/-- Every row after a step is new, or comes from a row before it. -/
theorem TableStep.back {now : Time} {rows rows' : List Row} {ev : PgEv} (h : TableStep now rows ev rows')
    {r' : Row} (hr : r' ∈ rows') :
    (∃ uc, ev = .inserted r' uc ∧ r'.id ∉ rowIds rows) ∨
    (∃ r ∈ rows, r.id = r'.id ∧ RowMove now ev r r' ∧ ev.inserts r.id = false) := by
  cases h with
  | same _ ht hi => exact .inr ⟨r', hr, rfl, .keep (ht _) rfl, hi _⟩
  | insert row uc hn =>
    rcases List.mem_append.mp hr with hr | hr
    · refine .inr ⟨r', hr, rfl, .keep rfl rfl, ?_⟩
      simp only [PgEv.inserts, beq_eq_false_iff_ne]
      intro e; exact hn (mem_rowIds.mpr ⟨r', hr, e.symm⟩)
    · rw [List.mem_singleton.mp hr]; exact .inl ⟨uc, rfl, hn⟩
  | change _ id f hm ht hi hf =>
    obtain ⟨q, hq, e⟩ := updateRows_mem.mp hr
    by_cases hid : q.id = id
    · rw [if_pos hid] at e
      have := hf q hq hid
      rw [← e] at this
      exact .inr ⟨q, hq, this.id_eq.symm, this, hi _⟩
    · rw [if_neg hid] at e
      subst e
      exact .inr ⟨r', hq, rfl, .keep (by rw [ht]; simpa using hid) rfl, hi _⟩
  | prune spec _ hs => exact .inr ⟨r', hs r' hr, rfl, .keep rfl rfl, rfl⟩
  | ghost id hm =>
    refine .inr ⟨r', hr, rfl, .keep ?_ rfl, rfl⟩
    have hne : id ≠ r'.id := fun e => hm (mem_rowIds.mpr ⟨r', hr, e.symm⟩)
    simp [PgEv.touches, PgEv.handsOut, PgEv.retries, PgEv.snoozes, PgEv.reruns, PgEv.edits, PgEv.finishes, hne]

/-- Every row before a step is still there after it, unless the step is a prune. -/
theorem TableStep.forth {now : Time} {rows rows' : List Row} {ev : PgEv} (h : TableStep now rows ev rows')
    {r : Row} (hr : r ∈ rows) :
    (∃ spec, ev = .stmt (.prune spec) .unit) ∨ ∃ r' ∈ rows', r'.id = r.id ∧ RowMove now ev r r' := by
  cases h with
  | same _ ht hi => exact .inr ⟨r, hr, rfl, .keep (ht _) rfl⟩
  | insert row uc hn => exact .inr ⟨r, List.mem_append_left _ hr, rfl, .keep rfl rfl⟩
  | change _ id f hm ht hi hf =>
    by_cases hid : r.id = id
    · exact .inr ⟨f r, updateRows_mem.mpr ⟨r, hr, by rw [if_pos hid]⟩, (hf r hr hid).id_eq, hf r hr hid⟩
    · exact .inr ⟨r, updateRows_keep hr hid, rfl, .keep (by rw [ht]; simpa using hid) rfl⟩
  | prune spec _ hs => exact .inl ⟨spec, rfl⟩
  | ghost id hm =>
    refine .inr ⟨r, hr, rfl, .keep ?_ rfl⟩
    have hne : id ≠ r.id := fun e => hm (mem_rowIds.mpr ⟨r, hr, e.symm⟩)
    simp [PgEv.touches, PgEv.handsOut, PgEv.retries, PgEv.snoozes, PgEv.reruns, PgEv.edits, PgEv.finishes, hne]

/-! ## Histories -/

/-- Induction over lists from the end. -/
@[elab_as_elim]
theorem snoc_induction {P : List α → Prop} (l : List α) (nil : P []) (snoc : ∀ l a, P l → P (l ++ [a])) : P l := by
  have : ∀ l : List α, P l.reverse := by
    intro l
    induction l with
    | nil => exact nil
    | cons a l ih => rw [List.reverse_cons]; exact snoc _ _ ih
  simpa using this l.reverse

theorem PgConc.run_append (hash : HashFn) (c : PgConc) (as bs : List TPgAct) :
    c.run hash (as ++ bs) = (c.run hash as).run hash bs := by
  induction as generalizing c with
  | nil => rfl
  | cons a as ih => simp only [List.cons_append, PgConc.run, ih]

theorem PgConc.history_append (hash : HashFn) (c : PgConc) (as bs : List TPgAct) :
    c.history hash (as ++ bs) = c.history hash as ++ (c.run hash as).history hash bs := by
  induction as generalizing c with
  | nil => rfl
  | cons a as ih => simp only [List.cons_append, PgConc.history, PgConc.run, ih]

/-- Induction over histories. -/
theorem pg_history_from {hash : HashFn} (P : List TPgEv → PgConc → Prop)
    (hs : ∀ (h : List TPgEv) (c : PgConc) (a : TPgAct), PgInv c → P h c →
      P (h ++ [⟨a.now, (c.step hash a.tie a.now a.act).1⟩]) (c.step hash a.tie a.now a.act).2)
    (as : List TPgAct) {h : List TPgEv} {c : PgConc} (H : PgInv c) (h0 : P h c) :
    P (h ++ c.history hash as) (c.run hash as) := by
  induction as generalizing h c with
  | nil => simpa [PgConc.history, PgConc.run] using h0
  | cons a as ih =>
    have := ih (H.step hash a.tie a.now a.act) (hs h c a H h0)
    simpa [PgConc.history, PgConc.run, List.append_assoc] using this

theorem pg_history {hash : HashFn} (P : List TPgEv → PgConc → Prop) (h0 : P [] {})
    (hs : ∀ (h : List TPgEv) (c : PgConc) (a : TPgAct), PgInv c → P h c →
      P (h ++ [⟨a.now, (c.step hash a.tie a.now a.act).1⟩]) (c.step hash a.tie a.now a.act).2)
    (as : List TPgAct) : P (PgConc.history hash {} as) (PgConc.run hash {} as) := by
  simpa using pg_history_from P hs as PgInv.init h0

/-- Splitting a history at an event. -/
theorem PgConc.history_split {hash : HashFn} {as : List TPgAct} {c : PgConc} {pre post : List TPgEv} {e : TPgEv}
    (h : c.history hash as = pre ++ e :: post) :
    ∃ as₁ a as₂, as = as₁ ++ a :: as₂ ∧ c.history hash as₁ = pre ∧
      e = ⟨a.now, ((c.run hash as₁).step hash a.tie a.now a.act).1⟩ ∧
      (((c.run hash as₁).step hash a.tie a.now a.act).2).history hash as₂ = post := by
  induction pre generalizing c as with
  | nil =>
    cases as with
    | nil => simp [PgConc.history] at h
    | cons a as =>
      simp only [PgConc.history, List.nil_append, List.cons.injEq] at h
      exact ⟨[], a, as, rfl, rfl, h.1.symm, h.2⟩
  | cons p pre ih =>
    cases as with
    | nil => simp [PgConc.history] at h
    | cons a as =>
      simp only [PgConc.history, List.cons_append, List.cons.injEq] at h
      obtain ⟨as₁, b, as₂, rfl, h2, h3, h4⟩ := ih h.2
      exact ⟨a :: as₁, b, as₂, rfl, by simp [PgConc.history, h2, h.1], h3, h4⟩

/-! ## Sessions -/

/-- Where a session that was not there before a step comes from. -/
def SessionFrom (hash : HashFn) (tie : Int → Nat) (now : Time) (c : PgConc) (a : PgAct) : Session → Prop
  | .inserted e uc row => (∃ t, Session.missing e uc t ∈ c.sessions ∧
      row = e.toRow t ((c.pg.seq + 1 : Nat) : Int) (some (uc.identifier hash e.executor))) ∧
      c.pg.seq < 2147483647 ∧
      (c.step hash tie now a).1 = .internal ∧ (c.step hash tie now a).2.pg = { c.pg with seq := c.pg.seq + 1 }
  | .found e uc id st => (∃ t, Session.holding e uc t ∈ c.sessions) ∧
      ∃ r ∈ c.pg.rows, r.id = id ∧ r.status = st ∧ uc.finds e.executor e.scheduledAt r = true
  | .replacing e uc rep id => ∃ st, Session.found e uc id st ∈ c.sessions ∧ uc.onConflict = .replace rep ∧
      st ∈ rep.forStatuses
  | .unique e uc t => a = .unique e uc ∧ t = now
  | .holding e uc t => Session.unique e uc t ∈ c.sessions
  | .missing e uc t => Session.holding e uc t ∈ c.sessions
  | .looking x t _ => Session.handout x ∈ c.sessions ∧ t = now
  | .locked x t _ => ∃ snap, Session.looking x t snap ∈ c.sessions
  | .handout x => a = .handout x
  | .done (.id id) => (∃ e uc st, Session.found e uc id st ∈ c.sessions) ∨
      (∃ e uc rep, Session.replacing e uc rep id ∈ c.sessions) ∨
      (∃ e uc row, row.id = id ∧ Session.inserted e uc row ∈ c.sessions ∧ (c.step hash tie now a).1 = .inserted row (some uc))
  | .done _ => True

theorem session_back {c : PgConc} {hash : HashFn} {tie : Int → Nat} {now : Time} {a : PgAct} {s' : Session}
    (hs' : s' ∈ (c.step hash tie now a).2.sessions) :
    s' ∈ c.sessions ∨ SessionFrom hash tie now c a s' := by
  cases a with
  | handout x =>
    simp only [PgConc.step, List.mem_append, List.mem_singleton] at hs'
    rcases hs' with h | rfl
    · exact .inl h
    · exact .inr rfl
  | unique e uc =>
    simp only [PgConc.step, List.mem_append, List.mem_singleton] at hs'
    rcases hs' with h | rfl
    · exact .inl h
    · exact .inr ⟨rfl, rfl⟩
  | abort i =>
    simp only [PgConc.step] at hs'
    split at hs'
    · exact .inl hs'
    · exact .inl hs'
    · rcases List.mem_or_eq_of_mem_set hs' with h | rfl
      · exact .inl h
      · exact .inr trivial
  | plain e =>
    simp only [PgConc.step] at hs'
    split at hs' <;> exact .inl hs'
  | stmt o =>
    left
    cases o <;> simp only [PgConc.step] at hs' <;> first | exact hs' | (split at hs' <;> exact hs')
  | advance i =>
    cases hi : c.sessions[i]? with
    | none => simp only [PgConc.step, hi] at hs'; exact .inl hs'
    | some s =>
      have hm := List.mem_of_getElem? hi
      have hst : c.step hash tie now (.advance i) =
          ((c.advance hash tie now s).1,
            { pg := (c.advance hash tie now s).2.2, sessions := c.sessions.set i (c.advance hash tie now s).2.1 }) := by
        simp only [PgConc.step, hi]
      have hs2 := hs'
      rw [hst] at hs2
      simp only at hs2
      rcases List.mem_or_eq_of_mem_set hs2 with h | h
      · exact .inl h
      clear hs2 hs'
      subst h
      cases s with
      | handout x => exact .inr ⟨hm, rfl⟩
      | done r => exact .inl hm
      | looking x t snap =>
        simp only [PgConc.advance]
        split
        · exact .inr trivial
        · exact .inr ⟨snap, hm⟩
      | unique e uc t =>
        simp only [PgConc.advance]
        split
        · exact .inl hm
        · exact .inr hm
      | holding e uc t =>
        simp only [PgConc.advance]
        split
        · exact .inr hm
        · rename_i r rs hr
          refine .inr ?_
          have : r ∈ sortBy (fun a b => decide (tie a.id ≤ tie b.id))
              (c.pg.rows.filter fun r => uc.finds e.executor e.scheduledAt r) := by rw [hr]; simp
          have hf := List.mem_filter.mp ((sortBy_perm _ _).mem_iff.mp this)
          exact ⟨⟨t, hm⟩, r, hf.1, rfl, rfl, hf.2⟩
      | missing e uc t =>
        simp only [PgConc.advance]
        split
        · exact .inr trivial
        · rename_i hseq
          refine .inr ⟨⟨t, hm, rfl⟩, by omega, ?_, ?_⟩ <;> rw [hst] <;> simp [PgConc.advance, hseq]
      | found e uc id st =>
        simp only [PgConc.advance]
        split
        · rename_i rep hrep
          split
          · rename_i hst
            split
            · exact .inr trivial
            · split
              · exact .inl hm
              · exact .inr ⟨st, hm, hrep, List.contains_iff_mem.mp hst⟩
          · exact .inr (.inl ⟨e, uc, st, hm⟩)
        · exact .inr (.inl ⟨e, uc, st, hm⟩)
      | inserted e uc row => exact .inr (.inr (.inr ⟨e, uc, row, rfl, hm, by rw [hst]; rfl⟩))
      | replacing e uc rep id => exact .inr (.inr (.inl ⟨e, uc, rep, hm⟩))
      | locked x t id =>
        simp only [PgConc.advance]
        split
        · exact .inr trivial
        · rename_i r _
          refine .inr ?_
          cases (r.markExecuting t).decode <;> trivial

/-- A session of some index after a step. -/
theorem session_at {c : PgConc} {hash : HashFn} {tie : Int → Nat} {now : Time} {a : PgAct} {i : Nat} {s s' : Session}
    (hs : c.sessions[i]? = some s) (hs' : (c.step hash tie now a).2.sessions[i]? = some s') :
    s' = s ∨ (a = .advance i ∧ s' = (c.advance hash tie now s).2.1) ∨ s' = .done (.err .io) := by
  have hlt : i < c.sessions.length := (List.getElem?_eq_some_iff.mp hs).1
  cases a with
  | handout x =>
    simp only [PgConc.step, List.getElem?_append_left hlt, hs, Option.some.injEq] at hs'
    exact .inl hs'.symm
  | unique e uc =>
    simp only [PgConc.step, List.getElem?_append_left hlt, hs, Option.some.injEq] at hs'
    exact .inl hs'.symm
  | plain e =>
    simp only [PgConc.step] at hs'
    split at hs' <;> exact .inl (Option.some.inj (hs'.symm.trans hs))
  | stmt o =>
    have : (c.step hash tie now (.stmt o)).2.sessions = c.sessions := by
      cases o <;> simp only [PgConc.step] <;> first | rfl | (split <;> rfl)
    rw [this, hs] at hs'
    exact .inl (Option.some.inj hs').symm
  | abort j =>
    simp only [PgConc.step] at hs'
    split at hs'
    · exact .inl (Option.some.inj (hs'.symm.trans hs))
    · exact .inl (Option.some.inj (hs'.symm.trans hs))
    · rw [List.getElem?_set] at hs'
      split at hs'
      · rw [if_pos (by rename_i h; rw [h]; exact hlt)] at hs'
        exact .inr (.inr (Option.some.inj hs').symm)
      · exact .inl (Option.some.inj (hs'.symm.trans hs))
  | advance j =>
    simp only [PgConc.step] at hs'
    split at hs'
    · exact .inl (Option.some.inj (hs'.symm.trans hs))
    · rename_i s₀ hj
      simp only [List.getElem?_set] at hs'
      split at hs'
      · rename_i h
        subst h
        rw [if_pos hlt] at hs'
        rw [hj] at hs
        cases hs
        exact .inr (.inl ⟨rfl, (Option.some.inj hs').symm⟩)
      · exact .inl (Option.some.inj (hs'.symm.trans hs))

theorem sessions_length_mono {c : PgConc} {hash : HashFn} {tie : Int → Nat} {now : Time} {a : PgAct} :
    c.sessions.length ≤ (c.step hash tie now a).2.sessions.length := by
  cases a with
  | handout x => simp [PgConc.step]
  | unique e uc => simp [PgConc.step]
  | plain e => simp only [PgConc.step]; split <;> exact Nat.le_refl _
  | stmt o => cases o <;> simp only [PgConc.step] <;> first | exact Nat.le_refl _ | (split <;> exact Nat.le_refl _)
  | abort j => simp only [PgConc.step]; split <;> simp
  | advance j => simp only [PgConc.step]; split <;> simp

/-- Where an inserted row comes from. -/
theorem inserted_from {c : PgConc} {hash : HashFn} {tie : Int → Nat} {now : Time} {a : PgAct} {row : Row}
    {uc : Option Criteria} (h : (c.step hash tie now a).1 = .inserted row uc) :
    (∃ e uc', uc = some uc' ∧ Session.inserted e uc' row ∈ c.sessions) ∨
    (∃ e, a = .plain e ∧ uc = none ∧ c.pg.seq < 2147483647 ∧ row = e.toRow now ((c.pg.seq + 1 : Nat) : Int) none ∧
      (c.step hash tie now a).2.pg.seq = c.pg.seq + 1) := by
  cases a with
  | handout x => simp [PgConc.step] at h
  | unique e uc => simp [PgConc.step] at h
  | abort i => simp only [PgConc.step] at h; split at h <;> simp at h
  | plain e =>
    simp only [PgConc.step] at h ⊢
    split at h
    · simp at h
    · rename_i hs
      simp only [PgEv.inserted.injEq] at h
      exact .inr ⟨e, rfl, h.2.symm, by omega, h.1.symm, by simp [hs]⟩
  | stmt o =>
    cases o <;> simp only [PgConc.step] at h <;> first | (split at h <;> cases h) | cases h
  | advance i =>
    simp only [PgConc.step] at h
    split at h
    · simp at h
    · rename_i s hi
      have hm := List.mem_of_getElem? hi
      cases s with
      | inserted e uc' row' =>
        simp only [PgConc.advance, PgEv.inserted.injEq] at h
        obtain ⟨rfl, h2⟩ := h
        exact .inl ⟨e, uc', h2.symm, hm⟩
      | handout x => simp [PgConc.advance] at h
      | done r => simp [PgConc.advance] at h
      | looking x t snap => simp only [PgConc.advance] at h; split at h <;> simp at h
      | unique e uc t => simp only [PgConc.advance] at h; split at h <;> simp at h
      | holding e uc t => simp only [PgConc.advance] at h; split at h <;> simp at h
      | missing e uc t => simp only [PgConc.advance] at h; split at h <;> simp at h
      | found e uc id st =>
        simp only [PgConc.advance] at h
        split at h
        · split at h
          · split at h
            · simp at h
            · split at h <;> simp at h
          · simp at h
        · simp at h
      | replacing e uc rep id => simp [PgConc.advance] at h
      | locked x t id => simp only [PgConc.advance] at h; split at h <;> simp at h

/-- The sequence never goes back. -/
theorem seq_mono {c : PgConc} (H : PgInv c) (hash : HashFn) (tie : Int → Nat) (now : Time) (a : PgAct) :
    c.pg.seq ≤ (c.step hash tie now a).2.pg.seq := by
  cases a with
  | handout x => exact Nat.le_refl _
  | unique e uc => exact Nat.le_refl _
  | abort i => simp only [PgConc.step]; split <;> exact Nat.le_refl _
  | plain e =>
    simp only [PgConc.step]; split
    · exact Nat.le_refl _
    · simp
  | stmt o =>
    by_cases hload : ∃ x, o = .load x
    · obtain ⟨x, rfl⟩ := hload; exact Nat.le_refl _
    have hl : ∀ x, o ≠ .load x := fun x e => hload ⟨x, e⟩
    have hstep : (c.step hash tie now (.stmt o)).2 =
        if (o.needs tie now c.pg.rows).any c.rowLocked then c
        else { c with pg := (c.pg.step tie now o).2 } := by
      cases o <;> first | (exact (hl _ rfl).elim) | (simp only [PgConc.step]; split <;> rfl)
    rw [hstep]
    split
    · exact Nat.le_refl _
    · rcases pg_step_cases tie now c.pg o H.nodup hl with h | ⟨id, f, h1, h2, h3, h4⟩ | ⟨spec, h1, h2⟩
      · rw [h]; exact Nat.le_refl _
      · rw [h4]; exact Nat.le_refl _
      · rw [h2]; exact Nat.le_refl _
  | advance i =>
    simp only [PgConc.step]
    split
    · exact Nat.le_refl _
    · rename_i s hi
      cases s with
      | found e uc id st =>
        simp only [PgConc.advance]
        split
        · split
          · split
            · exact Nat.le_refl _
            · split <;> exact Nat.le_refl _
          · exact Nat.le_refl _
        · exact Nat.le_refl _
      | missing e uc t => simp only [PgConc.advance]; split <;> simp
      | looking x t snap => simp only [PgConc.advance]; split <;> exact Nat.le_refl _
      | unique e uc t => simp only [PgConc.advance]; split <;> exact Nat.le_refl _
      | holding e uc t => simp only [PgConc.advance]; split <;> exact Nat.le_refl _
      | locked x t id => simp only [PgConc.advance]; split <;> exact Nat.le_refl _
      | handout x => exact Nat.le_refl _
      | done r => exact Nat.le_refl _
      | inserted e uc row => exact Nat.le_refl _
      | replacing e uc rep id => exact Nat.le_refl _

/-! ## Ids in histories -/

/-- What a history says about the ids of the database it leads to. -/
structure PgHist (h : List TPgEv) (c : PgConc) : Prop where
  ids : ∀ r ∈ c.pg.rows, r.id ∈ pgInserted h
  nodup : (pgInserted h).Nodup
  low : ∀ id ∈ pgInserted h, 1 ≤ id ∧ id ≤ (c.pg.seq : Int)
  pos : ∀ e uc row, Session.inserted e uc row ∈ c.sessions → 1 ≤ row.id
  fresh : ∀ e uc row, Session.inserted e uc row ∈ c.sessions → row.id ∉ pgInserted h
  aimed : ∀ e uc id st, Session.found e uc id st ∈ c.sessions → id ∈ pgInserted h
  aimed' : ∀ e uc rep id, Session.replacing e uc rep id ∈ c.sessions → id ∈ pgInserted h
  touched : ∀ e ∈ h, ∀ id, e.ev.touches id = true → id ∈ pgInserted h
  made : ∀ e uc row, Session.inserted e uc row ∈ c.sessions → ∃ t key, row = e.toRow t row.id key

theorem pgInserted_append (h : List TPgEv) (e : TPgEv) :
    pgInserted (h ++ [e]) = pgInserted h ++ (match e.ev with | .inserted row _ => [row.id] | _ => []) := by
  unfold pgInserted
  rw [List.filterMap_append]
  congr 1
  obtain ⟨now, ev⟩ := e
  cases ev <;> rfl

theorem mem_pgInserted_append {h : List TPgEv} {e : TPgEv} {id : Int} :
    id ∈ pgInserted (h ++ [e]) ↔ id ∈ pgInserted h ∨ e.ev.inserts id = true := by
  rw [pgInserted_append]
  obtain ⟨now, ev⟩ := e
  cases ev with
  | inserted row uc =>
    simp only [PgEv.inserts, List.mem_append, List.mem_singleton, beq_iff_eq]
    exact or_congr_right ⟨Eq.symm, Eq.symm⟩
  | _ => simp [PgEv.inserts]

/-- An event that touches a row: the row is there, or the event is a replacement
aimed at it. -/
theorem touches_row {now : Time} {rows rows' : List Row} {ev : PgEv} (h : TableStep now rows ev rows') {id : Int}
    (ht : ev.touches id = true) : id ∈ rowIds rows ∨ ev = .replaced id := by
  cases h with
  | same _ ht' => rw [ht'] at ht; cases ht
  | insert => cases ht
  | change _ id' f hm ht' => rw [ht'] at ht; left; rw [eq_of_beq ht]; exact hm
  | prune => cases ht
  | ghost id' hm =>
    right
    simp only [PgEv.touches, PgEv.handsOut, PgEv.retries, PgEv.snoozes, PgEv.reruns, PgEv.edits, PgEv.finishes,
      Bool.false_or, Bool.or_false, beq_iff_eq] at ht
    rw [ht]

/-- Where a replacement comes from. -/
theorem replaced_from {c : PgConc} {hash : HashFn} {tie : Int → Nat} {now : Time} {a : PgAct} {id : Int}
    (h : (c.step hash tie now a).1 = .replaced id) : ∃ e uc rep, Session.replacing e uc rep id ∈ c.sessions := by
  cases a with
  | handout x => simp [PgConc.step] at h
  | unique e uc => simp [PgConc.step] at h
  | abort i => simp only [PgConc.step] at h; split at h <;> simp at h
  | plain e => simp only [PgConc.step] at h; split at h <;> simp at h
  | stmt o =>
    cases o <;> simp only [PgConc.step] at h <;> first | (split at h <;> cases h) | cases h
  | advance i =>
    simp only [PgConc.step] at h
    split at h
    · simp at h
    · rename_i s hi
      have hm := List.mem_of_getElem? hi
      cases s with
      | replacing e uc rep id' =>
        simp only [PgConc.advance, PgEv.replaced.injEq] at h
        subst h
        exact ⟨e, uc, rep, hm⟩
      | inserted e uc' row' => simp [PgConc.advance] at h
      | handout x => simp [PgConc.advance] at h
      | done r => simp [PgConc.advance] at h
      | looking x t snap => simp only [PgConc.advance] at h; split at h <;> simp at h
      | unique e uc t => simp only [PgConc.advance] at h; split at h <;> simp at h
      | holding e uc t => simp only [PgConc.advance] at h; split at h <;> simp at h
      | missing e uc t => simp only [PgConc.advance] at h; split at h <;> simp at h
      | found e uc id st =>
        simp only [PgConc.advance] at h
        split at h
        · split at h
          · split at h
            · simp at h
            · split at h <;> simp at h
          · simp at h
        · simp at h
      | locked x t id => simp only [PgConc.advance] at h; split at h <;> simp at h

theorem PgHist.step {h : List TPgEv} {c : PgConc} (H : PgInv c) (I : PgHist h c) (hash : HashFn) (tie : Int → Nat)
    (now : Time) (a : PgAct) :
    PgHist (h ++ [⟨now, (c.step hash tie now a).1⟩]) (c.step hash tie now a).2 := by
  have T := table_step H hash tie now a
  have H' := H.step hash tie now a
  have hseq := seq_mono H hash tie now a
  -- facts about a row inserted by this step
  have hnew : ∀ row uc, (c.step hash tie now a).1 = .inserted row uc →
      row.id ∉ pgInserted h ∧ 1 ≤ row.id ∧ row.id ≤ ((c.step hash tie now a).2.pg.seq : Int) := by
    intro row uc he
    rcases inserted_from he with ⟨e, uc', -, hm⟩ | ⟨e, -, -, -, hrow, hs⟩
    · obtain ⟨i, hi⟩ := List.mem_iff_getElem?.mp hm
      have := (H.pending i e uc' row hi).1
      exact ⟨I.fresh _ _ _ hm, I.pos _ _ _ hm, by omega⟩
    · have hid : row.id = ((c.pg.seq + 1 : Nat) : Int) := by rw [hrow]; rfl
      refine ⟨fun hm => ?_, by omega, by omega⟩
      have := (I.low _ hm).2
      omega
  refine ⟨?_, ?_, ?_, ?_, ?_, ?_, ?_, ?_, ?_⟩
  · intro r hr
    rw [mem_pgInserted_append]
    rcases T.back hr with ⟨uc, he, -⟩ | ⟨q, hq, hid, -, -⟩
    · right; simp [he, PgEv.inserts]
    · left; rw [← hid]; exact I.ids q hq
  · rw [pgInserted_append]
    simp only
    split
    · rename_i row uc he
      rw [List.nodup_append]
      refine ⟨I.nodup, by simp, ?_⟩
      intro x hx y hy
      rw [List.mem_singleton.mp hy]
      intro e; subst e
      exact (hnew row uc he).1 hx
    · simpa using I.nodup
  · intro id hid
    rcases mem_pgInserted_append.mp hid with hid | hid
    · have := I.low id hid; exact ⟨this.1, by omega⟩
    · generalize hev : (c.step hash tie now a).1 = ev at hid
      cases ev <;> simp [PgEv.inserts] at hid
      rename_i row uc
      subst hid
      exact (hnew row uc hev).2
  · intro e uc row hm
    rcases session_back hm with hm | ⟨⟨t, -, hrow⟩, -⟩
    · exact I.pos _ _ _ hm
    · have hid : row.id = ((c.pg.seq + 1 : Nat) : Int) := by rw [hrow]; rfl
      omega
  · intro e uc row hm hin
    rcases mem_pgInserted_append.mp hin with hin | hin
    · rcases session_back hm with hm | ⟨⟨t, -, hrow⟩, -⟩
      · exact I.fresh _ _ _ hm hin
      · have hid : row.id = ((c.pg.seq + 1 : Nat) : Int) := by rw [hrow]; rfl
        have := (I.low _ hin).2
        omega
    · obtain ⟨i, hi⟩ := List.mem_iff_getElem?.mp hm
      refine (H'.pending i e uc row hi).2 ?_
      generalize (c.step hash tie now a).1 = ev at hin T
      cases ev <;> simp [PgEv.inserts] at hin
      rename_i row' uc'
      have : row' ∈ (c.step hash tie now a).2.pg.rows := by
        generalize (c.step hash tie now a).2.pg.rows = rows' at T
        cases T with
        | same _ _ hi => have := hi row'.id; simp [PgEv.inserts] at this
        | insert => simp
        | change _ _ _ _ _ hi => have := hi row'.id; simp [PgEv.inserts] at this
      exact mem_rowIds.mpr ⟨row', this, hin⟩
  · intro e uc id st hm
    rw [mem_pgInserted_append]
    left
    rcases session_back hm with hm | hm
    · exact I.aimed _ _ _ _ hm
    · obtain ⟨-, r, hr, hid, -⟩ := hm
      rw [← hid]; exact I.ids r hr
  · intro e uc rep id hm
    rw [mem_pgInserted_append]
    left
    rcases session_back hm with hm | ⟨st, hm, -⟩
    · exact I.aimed' _ _ _ _ hm
    · exact I.aimed _ _ _ _ hm
  · intro e he id ht
    rw [mem_pgInserted_append]
    left
    rcases List.mem_append.mp he with he | he
    · exact I.touched e he id ht
    · rw [List.mem_singleton.mp he] at ht
      rcases touches_row T ht with hr | hr
      · obtain ⟨r, hr, hid⟩ := mem_rowIds.mp hr
        rw [← hid]; exact I.ids r hr
      · obtain ⟨e, uc, rep, hm⟩ := replaced_from hr
        exact I.aimed' _ _ _ _ hm
  · intro e uc row hm
    rcases session_back hm with hm | ⟨⟨t, -, hrow⟩, -⟩
    · exact I.made _ _ _ hm
    · exact ⟨t, _, by rw [hrow]; rfl⟩

theorem PgHist.init : PgHist [] {} where
  ids := by simp
  nodup := by simp [pgInserted]
  low := by simp [pgInserted]
  pos := by simp
  fresh := by simp
  aimed := by simp
  aimed' := by simp
  touched := by simp
  made := by simp

theorem pgHist (hash : HashFn) (as : List TPgAct) : PgHist (PgConc.history hash {} as) (PgConc.run hash {} as) :=
  pg_history PgHist PgHist.init (fun _ _ a H I => I.step H hash a.tie a.now a.act) as

/-- A new row is as the insert statement writes it. -/
theorem inserted_fresh {h : List TPgEv} {c : PgConc} (I : PgHist h c) {hash : HashFn} {tie : Int → Nat} {now : Time}
    {a : PgAct} {row : Row} {uc : Option Criteria} (he : (c.step hash tie now a).1 = .inserted row uc) :
    ∃ e t key, row = EnqueuableJob.toRow t e row.id key := by
  rcases inserted_from he with ⟨e, uc', -, hm⟩ | ⟨e, -, -, -, hrow, -⟩
  · obtain ⟨t, key, h⟩ := I.made _ _ _ hm
    exact ⟨e, t, key, h⟩
  · exact ⟨e, now, none, by rw [hrow]; rfl⟩

/-- Induction over what has been done to the rows: `P` has to hold of new rows with no
history, and to survive every event. -/
theorem row_induction {hash : HashFn} (P : List TPgEv → Row → Prop)
    (hnew : ∀ (h : List TPgEv) (e : EnqueuableJob) (t : Time) (id : Int) (key : Option Int), (∀ x ∈ h, x.ev.touches id = false) → P h (EnqueuableJob.toRow t e id key))
    (hins : ∀ (h : List TPgEv) (row : Row) (uc : Option Criteria) (now : Time), P h row → P (h ++ [⟨now, .inserted row uc⟩]) row)
    (hmove : ∀ (h : List TPgEv) (now : Time) (ev : PgEv) (r r' : Row), ev.inserts r.id = false → RowMove now ev r r' → P h r → P (h ++ [⟨now, ev⟩]) r')
    (as : List TPgAct) : ∀ r ∈ (PgConc.run hash {} as).pg.rows, P (PgConc.history hash {} as) r := by
  have := pg_history (hash := hash) (fun h c => PgHist h c ∧ ∀ r ∈ c.pg.rows, P h r) ⟨PgHist.init, by simp⟩ ?_ as
  · exact this.2
  · rintro h c a H ⟨I, IH⟩
    refine ⟨I.step H hash a.tie a.now a.act, ?_⟩
    intro r' hr'
    have T := table_step H hash a.tie a.now a.act
    rcases T.back hr' with ⟨uc, he, hn⟩ | ⟨r, hr, hid, hm, hi⟩
    · obtain ⟨e, t, key, hrow⟩ := inserted_fresh I he
      rw [he]
      refine hins h r' uc a.now ?_
      rw [hrow]
      refine hnew h e t r'.id key ?_
      intro x hx
      by_cases ht : x.ev.touches r'.id = true
      · exfalso
        have hm := I.touched x hx _ ht
        rcases inserted_from he with ⟨e, uc', -, hs⟩ | ⟨e, -, -, -, hrow, -⟩
        · exact I.fresh _ _ _ hs hm
        · have hid : r'.id = ((c.pg.seq + 1 : Nat) : Int) := by rw [hrow]; rfl
          have := (I.low _ hm).2
          omega
      · simpa using ht
    · exact hmove h a.now _ r r' hi hm (IH r hr)

theorem touches_split {ev : PgEv} {id : Int} (h : ev.touches id = false) :
    ev.handsOut id = false ∧ ev.retries id = false ∧ ev.snoozes id = false ∧ ev.reruns id = false ∧
    ev.edits id = false ∧ ev.finishes id = false := by
  simp only [PgEv.touches, Bool.or_eq_false_iff] at h
  exact ⟨h.1.1.1.1.1, h.1.1.1.1.2, h.1.1.1.2, h.1.1.2, h.1.2, h.2⟩

/-- The row handed out is in the table. -/
theorem handedOut_mem {c : PgConc} (H : PgInv c) {hash : HashFn} {tie : Int → Nat} {now : Time} {a : PgAct}
    {row : Row} {res : Res} (h : (c.step hash tie now a).1 = .handedOut row res) :
    ∃ r ∈ c.pg.rows, r.id = row.id ∧ row ∈ (c.step hash tie now a).2.pg.rows ∧
      ∃ x t, Session.locked x t row.id ∈ c.sessions ∧ r.ready t x = true ∧ row = r.markExecuting t := by
  cases a with
  | handout x => simp [PgConc.step] at h
  | unique e uc => simp [PgConc.step] at h
  | abort i => simp only [PgConc.step] at h; split at h <;> simp at h
  | plain e => simp only [PgConc.step] at h; split at h <;> simp at h
  | stmt o =>
    cases o <;> simp only [PgConc.step] at h <;> first | (split at h <;> cases h) | cases h
  | advance i =>
    simp only [PgConc.step] at h ⊢
    split at h
    · simp at h
    · rename_i s hi
      have hm := List.mem_of_getElem? hi
      cases s with
      | locked x t id =>
        obtain ⟨r₀, hr₀, hid₀, hrd⟩ := H.lockedReady i x t id hi
        simp only [hi]
        simp only [PgConc.advance] at h ⊢
        split at h
        · simp at h
        · rename_i r hr
          have hrid : r.id = id := by simpa using List.find?_some hr
          have hrr : r₀ = r := row_unique H.nodup hr₀ (List.mem_of_find?_eq_some hr) (by rw [hid₀, hrid])
          subst hrr
          simp only [PgEv.handedOut.injEq] at h
          obtain ⟨rfl, -⟩ := h
          refine ⟨r₀, hr₀, rfl, ?_, x, t, ?_, hrd, rfl⟩
          · exact updateRows_mem.mpr ⟨r₀, hr₀, by rw [if_pos hid₀]⟩
          · simpa [Row.markExecuting, hid₀] using hm
      | replacing e uc rep id' => simp [PgConc.advance] at h
      | inserted e uc' row' => simp [PgConc.advance] at h
      | handout x => simp [PgConc.advance] at h
      | done r => simp [PgConc.advance] at h
      | looking x t snap => simp only [PgConc.advance] at h; split at h <;> simp at h
      | unique e uc t => simp only [PgConc.advance] at h; split at h <;> simp at h
      | holding e uc t => simp only [PgConc.advance] at h; split at h <;> simp at h
      | missing e uc t => simp only [PgConc.advance] at h; split at h <;> simp at h
      | found e uc id st =>
        simp only [PgConc.advance] at h
        split at h
        · split at h
          · split at h
            · simp at h
            · split at h <;> simp at h
          · simp at h
        · simp at h

/-- Following one row through a schedule. -/
theorem follow_row {hash : HashFn} {h : List TPgEv} {c : PgConc} {id : Int} (H : PgInv c) (I : PgHist h c)
    (hid : id ∈ pgInserted h) (P : Row → Prop) (ok : PgEv → Prop)
    (hmove : ∀ now ev r r', r.id = id → RowMove now ev r r' → ok ev → P r → P r') (as : List TPgAct)
    (hok : ∀ e ∈ c.history hash as, ok e.ev) (hp : ∀ r ∈ c.pg.rows, r.id = id → P r) :
    ∀ r ∈ (c.run hash as).pg.rows, r.id = id → P r := by
  induction as generalizing c h with
  | nil => exact hp
  | cons a as ih =>
    have I' := I.step H hash a.tie a.now a.act
    refine ih (H.step hash a.tie a.now a.act) I' (mem_pgInserted_append.mpr (.inl hid))
      (fun e he => hok e (by simp [PgConc.history, he])) ?_
    intro r' hr' hid'
    rcases (table_step H hash a.tie a.now a.act).back hr' with ⟨uc, he, -⟩ | ⟨r, hr, hrid, hm, -⟩
    · exfalso
      rcases inserted_from he with ⟨e, uc', -, hs⟩ | ⟨e, -, -, -, hrow, -⟩
      · exact I.fresh _ _ _ hs (by rw [hid']; exact hid)
      · have h1 : r'.id = ((c.pg.seq + 1 : Nat) : Int) := by rw [hrow]; rfl
        have := (I.low _ hid).2
        omega
    · have h2 : r.id = id := by rw [hrid, hid']
      exact hmove a.now _ r r' h2 hm (hok _ List.mem_cons_self) (hp r hr h2)

theorem not_waiting_of_finished {s : JobStatus} (h : s.Finished) : s ≠ .scheduled ∧ s ≠ .retryable := by
  rcases h with rfl | rfl | rfl <;> decide

theorem ready_iff' {t : Time} {x : String} {r : Row} : r.ready t x = true ↔ RowEligible t x r := by
  simp only [Row.ready, Bool.and_eq_true, Bool.or_eq_true, beq_iff_eq, decide_eq_true_eq, ms, Time]
  constructor
  · rintro ⟨⟨h1, h2⟩, h3⟩; exact ⟨h3, h2, by simp only [Time] at *; omega⟩
  · rintro ⟨h1, h2, h3⟩; exact ⟨⟨by simp only [Time] at *; omega, h2⟩, h1⟩

end Rexecutor
