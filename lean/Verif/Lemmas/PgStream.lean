import Verif.Lemmas.Pg
import Verif.Spec.PgStream

/-! Lemmas about notifications and streams of the Postgres backend. -/

namespace Rexecutor

private theorem notifies_iff (r : Row) : r.notifies = true ↔ r.Waiting := by
  simp [Row.notifies, Row.Waiting]

private theorem filter_id {rows : List Row} (h : (rowIds rows).Nodup) (id : Int) :
    (rows.filter (fun r => r.id == id) = [] ∧ ∀ r ∈ rows, r.id ≠ id) ∨
    ∃ r, rows.filter (fun r => r.id == id) = [r] ∧ r ∈ rows ∧ r.id = id := by
  induction rows with
  | nil => exact .inl ⟨rfl, by simp⟩
  | cons a rows ih =>
    have hn : a.id ∉ rowIds rows ∧ (rowIds rows).Nodup := List.nodup_cons.mp h
    by_cases ha : a.id = id
    · right
      refine ⟨a, ?_, by simp, ha⟩
      rw [List.filter_cons_of_pos (by simpa using ha)]
      congr 1
      rw [List.filter_eq_nil_iff]
      intro r hr he
      refine hn.1 (mem_rowIds.mpr ⟨r, hr, ?_⟩)
      rw [ha]
      simpa using he
    · rw [List.filter_cons_of_neg (by simpa using ha)]
      rcases ih hn.2 with ⟨h1, h2⟩ | ⟨r, h1, h2, h3⟩
      · refine .inl ⟨h1, ?_⟩
        intro r hr
        rcases List.mem_cons.mp hr with rfl | hr
        · exact ha
        · exact h2 r hr
      · exact .inr ⟨r, h1, by simp [h2], h3⟩

/-- An event commits at most one row. -/
theorem written_cases {rows : List Row} (h : (rowIds rows).Nodup) (ev : PgEv) :
    (ev.written rows = [] ∧ ∀ r, ¬ Commits rows ev r) ∨
    ∃ r, ev.written rows = [r] ∧ Commits rows ev r ∧ ∀ r', Commits rows ev r' → r' = r := by
  have key : ∀ (o : Op) (res : Res) (id : Int), Addresses id o → (∀ id', Addresses id' o → id' = id) →
      PgEv.written rows (.stmt o res) = rows.filter (fun r => r.id == id) →
      (PgEv.written rows (.stmt o res) = [] ∧ ∀ r, ¬ Commits rows (.stmt o res) r) ∨
      ∃ r, PgEv.written rows (.stmt o res) = [r] ∧ Commits rows (.stmt o res) r ∧
        ∀ r', Commits rows (.stmt o res) r' → r' = r := by
    intro o res id h1 h2 h3
    rw [h3]
    rcases filter_id h id with ⟨h4, h5⟩ | ⟨r, h4, h5, h6⟩
    · refine .inl ⟨h4, fun r hr => ?_⟩
      cases hr with
      | call _ _ _ hm ho => exact h5 r hm (h2 _ ho)
    · refine .inr ⟨r, h4, .call o res r h5 (h6 ▸ h1), fun r' hr' => ?_⟩
      cases hr' with
      | call _ _ _ hm ho => exact row_unique h hm h5 ((h2 _ ho).trans h6.symm)
  have none : ∀ (o : Op) (res : Res), (∀ id, ¬ Addresses id o) → PgEv.written rows (.stmt o res) = [] →
      PgEv.written rows (.stmt o res) = [] ∧ ∀ r, ¬ Commits rows (.stmt o res) r := by
    intro o res h1 h2
    refine ⟨h2, fun r hr => ?_⟩
    cases hr with
    | call _ _ _ hm ho => exact h1 _ ho
  cases ev with
  | handedOut row res =>
    refine .inr ⟨row, rfl, .handedOut row res, fun r' hr' => ?_⟩
    cases hr'; rfl
  | inserted row uc =>
    refine .inr ⟨row, rfl, .inserted row uc, fun r' hr' => ?_⟩
    cases hr'; rfl
  | replaced id =>
    rcases filter_id h id with ⟨h4, h5⟩ | ⟨r, h4, h5, h6⟩
    · refine .inl ⟨h4, fun r hr => ?_⟩
      cases hr with
      | replaced _ hm => exact h5 r hm rfl
    · subst h6
      refine .inr ⟨r, h4, .replaced r h5, fun r' hr' => ?_⟩
      generalize he : PgEv.replaced r.id = ev at hr'
      cases hr' with
      | replaced _ hm =>
        simp only [PgEv.replaced.injEq] at he
        exact row_unique h hm h5 he.symm
      | _ => simp at he
  | noJob => exact .inl ⟨rfl, fun r hr => nomatch hr⟩
  | checked f => exact .inl ⟨rfl, fun r hr => nomatch hr⟩
  | blocked => exact .inl ⟨rfl, fun r hr => nomatch hr⟩
  | internal => exact .inl ⟨rfl, fun r hr => nomatch hr⟩
  | stmt o res =>
    cases o with
    | complete id => exact key _ _ id .complete (fun _ h => by cases h; rfl) rfl
    | retryable id t e => exact key _ _ id (.retryable t e) (fun _ h => by cases h; rfl) rfl
    | discarded id e => exact key _ _ id (.discarded e) (fun _ h => by cases h; rfl) rfl
    | cancelled id e => exact key _ _ id (.cancelled e) (fun _ h => by cases h; rfl) rfl
    | snoozed id t => exact key _ _ id (.snoozed t) (fun _ h => by cases h; rfl) rfl
    | rerun id => exact key _ _ id .rerun (fun _ h => by cases h; rfl) rfl
    | update j => exact key _ _ j.id (.update j rfl) (fun _ h => by cases h with | update _ h => exact h.symm) rfl
    | prune spec => exact .inl (none _ _ (fun _ h => nomatch h) rfl)
    | query q => exact .inl (none _ _ (fun _ h => nomatch h) rfl)
    | load x => exact .inl (none _ _ (fun _ h => nomatch h) rfl)
    | subscribe x => exact .inl (none _ _ (fun _ h => nomatch h) rfl)
    | notifyAll => exact .inl (none _ _ (fun _ h => nomatch h) rfl)

/-- The notifications of an event, as news. -/
theorem news_notices {rows : List Row} (h : (rowIds rows).Nodup) (ev : PgEv) (x : String) :
    News x [.db ev rows] (((ev.notices rows).filter fun m => m.1 == x).map (·.2)) := by
  rcases written_cases h ev with ⟨h1, h2⟩ | ⟨r, h1, h2, h3⟩
  · simp only [PgEv.notices, h1]
    exact .none _ _ _ _ (fun r hr => (h2 r hr).elim) .nil
  · by_cases hw : r.Waiting ∧ r.executor = x
    · have : r.notifies = true := (notifies_iff r).mpr hw.1
      have : ((ev.notices rows).filter fun m => m.1 == x).map (·.2) = [r.scheduledAt] := by
        simp [PgEv.notices, h1, this, hw.2]
      rw [this]
      exact .news _ _ r _ _ h2 hw.1 hw.2 .nil
    · have : ((ev.notices rows).filter fun m => m.1 == x).map (·.2) = [] := by
        by_cases hn : r.notifies = true
        · have hx : r.executor ≠ x := fun hx => hw ⟨(notifies_iff r).mp hn, hx⟩
          simp [PgEv.notices, h1, hn, hx]
        · simp [PgEv.notices, h1, hn]
      rw [this]
      refine .none _ _ _ _ (fun r' hr' hwr hx => ?_) .nil
      rw [h3 r' hr'] at hwr hx
      exact hw ⟨hwr, hx⟩

/-- Lists of news can be put together. -/
theorem News.append {x : String} {as bs : List NetEv} {ts us : List Time} (h : News x as ts) (h' : News x bs us) :
    News x (as ++ bs) (ts ++ us) := by
  induction h with
  | nil => exact h'
  | news ev rows r evs ts h hw hx hs ih => exact .news _ _ r _ _ h hw hx ih
  | none ev rows evs ts h hs ih => exact .none _ _ _ _ h ih
  | other ev evs ts h hs ih => exact .other _ _ _ h ih

private theorem updated {id : Int} {f : Row → Row} {rows : List Row} {r : Row} (h : r ∈ (updateRows id f rows).1)
    (hf : ∀ r : Row, (f r).id = r.id) : r ∈ rows ∨ r.id = id := by
  rcases updateRows_mem.mp h with ⟨q, hq, rfl⟩
  split
  · rename_i hi
    exact .inr ((hf q).trans hi)
  · exact .inl hq

/-- A row that is waiting after an action was there before, or the action has sent a
notification for it. -/
theorem waiting_step {c : PgConc} (H : PgInv c) (hash : HashFn) (tie : Int → Nat) (now : Time) (a : PgAct) {r : Row}
    (hr : r ∈ (c.step hash tie now a).2.pg.rows) (hw : r.Waiting) :
    r ∈ c.pg.rows ∨ (r.executor, r.scheduledAt) ∈ (c.step hash tie now a).1.notices (c.step hash tie now a).2.pg.rows := by
  have tell : ∀ (ev : PgEv) (rows : List Row), r ∈ ev.written rows → (r.executor, r.scheduledAt) ∈ ev.notices rows := by
    intro ev rows h
    exact List.mem_map.mpr ⟨r, List.mem_filter.mpr ⟨h, (notifies_iff r).mpr hw⟩, rfl⟩
  cases a with
  | handout x => exact .inl hr
  | unique e uc => exact .inl hr
  | abort i =>
    left
    simp only [PgConc.step] at hr
    split at hr <;> exact hr
  | plain e =>
    simp only [PgConc.step] at hr ⊢
    split at hr
    · exact .inl hr
    · rename_i hs
      rw [if_neg hs]
      rcases List.mem_append.mp hr with hr | hr
      · exact .inl hr
      · exact .inr (tell _ _ (by simpa [PgEv.written] using hr))
  | advance i =>
    simp only [PgConc.step] at hr ⊢
    cases hs : c.sessions[i]? with
    | none => rw [hs] at hr; exact .inl hr
    | some s =>
      rw [hs] at hr
      simp only at hr ⊢
      cases s with
      | handout x => exact .inl hr
      | looking x t snap =>
        left
        simp only [PgConc.advance] at hr
        split at hr <;> exact hr
      | locked x t id =>
        left
        simp only [PgConc.advance] at hr
        cases hf : c.pg.rows.find? fun r => r.id == id with
        | none => rw [hf] at hr; exact hr
        | some q =>
          rw [hf] at hr
          simp only at hr
          obtain ⟨q', hq', he⟩ := updateRows_mem.mp hr
          split at he
          · subst he
            simp [Row.Waiting, Row.markExecuting] at hw
          · subst he; exact hq'
      | unique e uc t =>
        left
        simp only [PgConc.advance] at hr
        split at hr <;> exact hr
      | holding e uc t =>
        left
        simp only [PgConc.advance] at hr
        split at hr <;> exact hr
      | missing e uc t =>
        left
        simp only [PgConc.advance] at hr
        split at hr <;> exact hr
      | found e uc id status =>
        left
        simp only [PgConc.advance] at hr
        split at hr
        · split at hr
          · split at hr
            · exact hr
            · split at hr <;> exact hr
          · exact hr
        · exact hr
      | inserted e uc row =>
        simp only [PgConc.advance] at hr ⊢
        rcases List.mem_append.mp hr with hr | hr
        · exact .inl hr
        · exact .inr (tell _ _ (by simpa [PgEv.written] using hr))
      | replacing e uc rep id =>
        simp only [PgConc.advance] at hr ⊢
        rcases updated hr (fun _ => rfl) with h | h
        · exact .inl h
        · exact .inr (tell _ _ (List.mem_filter.mpr ⟨hr, by simpa using h⟩))
      | done res => exact .inl hr
  | stmt o =>
    have byId : ∀ (id : Int) (f : Row → Row), (∀ r : Row, (f r).id = r.id) → r ∈ (c.pg.onRow id f).2.rows →
        r ∈ c.pg.rows ∨ r ∈ (c.pg.onRow id f).2.rows.filter (fun r => r.id == id) := by
      intro id f hf h
      rcases onRow_cases id f c.pg H.nodup with ⟨-, h5⟩ | ⟨-, h5⟩
      · rw [h5] at h; exact .inl h
      · rw [h5] at h ⊢
        rcases updated h hf with h' | h'
        · exact .inl h'
        · exact .inr (List.mem_filter.mpr ⟨h, by simpa using h'⟩)
    by_cases hl : ∃ x, o = .load x
    · obtain ⟨x, rfl⟩ := hl; exact .inl hr
    · have hstep : c.step hash tie now (.stmt o) =
          if (o.needs tie now c.pg.rows).any c.rowLocked then (.blocked, c)
          else (.stmt o (c.pg.step tie now o).1, { c with pg := (c.pg.step tie now o).2 }) := by
        cases o <;> first | rfl | exact (hl ⟨_, rfl⟩).elim
      rw [hstep] at hr ⊢
      split at hr
      · exact .inl hr
      · rename_i hlk
        rw [if_neg hlk]
        simp only at hr ⊢
        cases o with
        | complete id => exact (byId id (Row.markComplete now) (fun _ => rfl) hr).imp_right (tell _ _)
        | retryable id t e => exact (byId id (Row.markRetryable now t e) (fun _ => rfl) hr).imp_right (tell _ _)
        | discarded id e => exact (byId id (Row.markDiscarded now e) (fun _ => rfl) hr).imp_right (tell _ _)
        | cancelled id e => exact (byId id (Row.markCancelled now e) (fun _ => rfl) hr).imp_right (tell _ _)
        | snoozed id t => exact (byId id (Row.markSnoozed t) (fun _ => rfl) hr).imp_right (tell _ _)
        | rerun id => exact (byId id (Row.markRerunable now) (fun _ => rfl) hr).imp_right (tell _ _)
        | update j => exact (byId j.id (Row.update j) (fun _ => rfl) hr).imp_right (tell _ _)
        | prune spec => exact .inl (prune_mem.mp hr).1
        | query q => exact .inl hr
        | load x => exact (hl ⟨_, rfl⟩).elim
        | subscribe x => exact .inl hr
        | notifyAll => exact .inl hr

end Rexecutor
