import Verif.Props.PgDispatch
import Verif.Props.PgRecords

/-!
# C85: overtaking on Postgres
-/

namespace Rexecutor

/-- Row `a` is another job waiting for the executor of `j`, and is handed out no later:
it has a lower priority number, or the same and is not scheduled later. -/
def RowAhead (j a : Row) : Prop :=
  a.id ≠ j.id ∧ a.executor = j.executor ∧ (a.status = .scheduled ∨ a.status = .retryable) ∧
    (a.priority < j.priority ∨ (a.priority = j.priority ∧ a.scheduledAt ≤ j.scheduledAt))

instance (j a : Row) : Decidable (RowAhead j a) := by unfold RowAhead; infer_instance

/-- The event, at time `now` in a table `rows`, queues nothing in front of row `j`: new
rows are not ahead of it; jobs of its executor that are retried or snoozed have no
lower priority number and are put off by at least 100 ms; no job of its executor is
rerun, updated or replaced; and no waiting jobs are pruned. -/
def PgEv.QueuesBehind (j : Row) (now : Time) (rows : List Row) : PgEv → Prop
  | .inserted row _ => ¬ RowAhead j row
  | .stmt (.retryable i next _) .unit => ∀ r ∈ rows, r.id = i → r.executor = j.executor →
      j.priority ≤ r.priority ∧ pgTime now + 100000000 ≤ pgTime next
  | .stmt (.snoozed i next) .unit => ∀ r ∈ rows, r.id = i → r.executor = j.executor →
      j.priority ≤ r.priority ∧ pgTime now + 100000000 ≤ pgTime next
  | .stmt (.rerun i) .unit => ∀ r ∈ rows, r.id = i → r.executor ≠ j.executor
  | .stmt (.update u) .unit => ∀ r ∈ rows, r.id = u.id → r.executor ≠ j.executor
  | .replaced i => ∀ r ∈ rows, r.id = i → r.executor ≠ j.executor
  | .stmt (.prune spec) _ => spec.status ≠ .scheduled ∧ spec.status ≠ .retryable
  | _ => True

instance instDecidablePgQueuesBehind (j : Row) (now : Time) (rows : List Row) (e : PgEv) : Decidable (e.QueuesBehind j now rows) := by
  unfold PgEv.QueuesBehind; split <;> infer_instance

/-- The event is a hand-out for executor `x`. -/
def PgEv.handsOutFor (x : String) : PgEv → Bool
  | .handedOut row _ => row.executor == x
  | _ => false

/-- The session is a hand-out for executor `x` that has not come to its end. -/
def Session.takesFor (x : String) : Session → Bool
  | .handout y => y == x
  | .looking y _ _ => y == x
  | .locked y _ _ => y == x
  | _ => false

/-! ## Counting -/

private theorem length_le_of_subset {α : Type _} [DecidableEq α] {l l' : List α} (hn : l.Nodup) (hs : ∀ a ∈ l, a ∈ l') :
    l.length ≤ l'.length := by
  induction l generalizing l' with
  | nil => simp
  | cons a l ih =>
    rw [List.nodup_cons] at hn
    have ha : a ∈ l' := hs a List.mem_cons_self
    have := ih (l' := l'.erase a) hn.2 fun b hb => by
      have hne : b ≠ a := fun e => hn.1 (e ▸ hb)
      exact (List.mem_erase_of_ne hne).mpr (hs b (List.mem_cons_of_mem _ hb))
    rw [List.length_erase_of_mem ha] at this
    have := List.length_pos_of_mem ha
    simp only [List.length_cons]
    omega

private def aheadIds (j : Row) (rows : List Row) : List Int := rowIds (rows.filter fun a => decide (RowAhead j a))

private theorem aheadIds_length (j : Row) (rows : List Row) :
    (aheadIds j rows).length = rows.countP (fun a => decide (RowAhead j a)) := by
  simp [aheadIds, rowIds, List.countP_eq_length_filter]

private theorem mem_aheadIds {j : Row} {rows : List Row} {i : Int} :
    i ∈ aheadIds j rows ↔ ∃ r ∈ rows, RowAhead j r ∧ r.id = i := by
  simp only [aheadIds, mem_rowIds, List.mem_filter, decide_eq_true_eq]
  constructor
  · rintro ⟨r, ⟨h1, h2⟩, h3⟩; exact ⟨r, h1, h2, h3⟩
  · rintro ⟨r, h1, h2, h3⟩; exact ⟨r, ⟨h1, h2⟩, h3⟩

private theorem aheadIds_nodup {j : Row} {rows : List Row} (h : (rowIds rows).Nodup) : (aheadIds j rows).Nodup :=
  (List.filter_sublist.map _).nodup h

private theorem countP_pointwise {α : Type _} {p : α → Bool} {l l' : List α} (hl : l'.length = l.length)
    (h : ∀ (i : Nat) (s s' : α), l[i]? = some s → l'[i]? = some s' → p s' = true → p s = true) :
    l'.countP p ≤ l.countP p ∧
      ∀ (i : Nat) (s s' : α), l[i]? = some s → l'[i]? = some s' → p s = true → p s' = false → l'.countP p < l.countP p := by
  induction l generalizing l' with
  | nil =>
    simp only [List.length_nil, List.length_eq_zero_iff] at hl
    subst hl
    simp
  | cons a l ih =>
    cases l' with
    | nil => simp at hl
    | cons a' l' =>
      simp only [List.length_cons, Nat.add_right_cancel_iff] at hl
      obtain ⟨h1, h2⟩ := ih hl fun i s s' hs hs' => h (i + 1) s s' (by simpa using hs) (by simpa using hs')
      have h0 := h 0 a a' rfl rfl
      have hab : (if p a' = true then 1 else 0) ≤ (if p a = true then 1 else 0) := by
        split
        · rename_i hp; rw [if_pos (h0 hp)]; exact Nat.le_refl _
        · exact Nat.zero_le _
      simp only [List.countP_cons]
      refine ⟨by omega, ?_⟩
      intro i s s' hs hs' hp hp'
      cases i with
      | zero =>
        simp only [List.getElem?_cons_zero, Option.some.injEq] at hs hs'
        subst hs hs'
        rw [if_pos hp, hp']
        simp; omega
      | succ i =>
        have := h2 i s s' (by simpa using hs) (by simpa using hs') hp hp'
        omega

/-! ## Rows -/

private theorem doomed_status {spec : PruneSpec} {now : Time} {tie : Int → Nat} {rows : List Row} {id : Int}
    (h : id ∈ spec.doomed now tie rows) : ∃ r ∈ rows, r.id = id ∧ r.status = spec.status := by
  unfold PruneSpec.doomed at h
  split at h
  · simp only [List.mem_map, List.mem_filter, Bool.and_eq_true] at h
    obtain ⟨r, ⟨hr, hp, -⟩, rfl⟩ := h
    refine ⟨r, hr, rfl, ?_⟩
    simp only [PruneSpec.picks, Bool.and_eq_true, beq_iff_eq] at hp
    exact hp.1
  · rw [List.mem_map] at h
    obtain ⟨r, hr, rfl⟩ := h
    have := List.mem_of_mem_drop hr
    rw [(sortBy_perm _ _).mem_iff, List.mem_filter] at this
    refine ⟨r, this.1, rfl, ?_⟩
    have hp := this.2
    simp only [PruneSpec.picks, Bool.and_eq_true, beq_iff_eq] at hp
    exact hp.1

/-- a waiting row stays while nothing touches it and no waiting rows are pruned -/
theorem waiting_row_stays {c : PgConc} (H : PgInv c) {hash : HashFn} {tie : Int → Nat} {now : Time} {a : PgAct} {j : Row}
    (hj : j ∈ c.pg.rows) (hw : j.status = .scheduled ∨ j.status = .retryable)
    (ht : (c.step hash tie now a).1.touches j.id = false)
    (hp : ∀ spec res, (c.step hash tie now a).1 = .stmt (.prune spec) res → spec.status ≠ .scheduled ∧ spec.status ≠ .retryable) :
    j ∈ (c.step hash tie now a).2.pg.rows := by
  by_cases hpr : ∃ spec, a = .stmt (.prune spec)
  · obtain ⟨spec, rfl⟩ := hpr
    simp only [PgConc.step] at hp ⊢
    split
    · exact hj
    · rename_i hb
      rw [if_neg hb] at hp
      have hs := hp spec _ rfl
      refine prune_mem.mpr ⟨hj, fun hd => ?_⟩
      obtain ⟨r, hr, hid, hst⟩ := doomed_status hd
      have := row_unique H.nodup hr hj hid
      subst this
      rcases hw with h | h <;> simp_all
  · have hts := table_step H hash tie now a
    rcases hts.forth hj with ⟨spec, he⟩ | ⟨r', hr', hid, hm⟩
    · exfalso
      refine hpr ⟨spec, ?_⟩
      cases a with
      | stmt o =>
        cases o <;> simp only [PgConc.step] at he <;> first | (split at he <;> cases he) | cases he
        rfl
      | handout x => simp [PgConc.step] at he
      | unique e uc => simp [PgConc.step] at he
      | abort i => simp only [PgConc.step] at he; split at he <;> simp at he
      | plain e => simp only [PgConc.step] at he; split at he <;> simp at he
      | advance i =>
        exfalso
        simp only [PgConc.step] at he
        split at he
        · simp at he
        · rename_i s _
          cases s with
          | locked x t id => simp only [PgConc.advance] at he; split at he <;> simp at he
          | replacing e uc rep id' => simp [PgConc.advance] at he
          | inserted e uc' row' => simp [PgConc.advance] at he
          | handout x => simp [PgConc.advance] at he
          | done r => simp [PgConc.advance] at he
          | looking x t snap => simp only [PgConc.advance] at he; split at he <;> simp at he
          | unique e uc t => simp only [PgConc.advance] at he; split at he <;> simp at he
          | holding e uc t => simp only [PgConc.advance] at he; split at he <;> simp at he
          | missing e uc t => simp only [PgConc.advance] at he; split at he <;> simp at he
          | found e uc id st =>
            simp only [PgConc.advance] at he
            split at he
            · split at he
              · split at he
                · simp at he
                · split at he <;> simp at he
              · simp at he
            · simp at he
    · rw [hm.quiet ht] at hr'; exact hr'

/-- where a row that is waiting for the executor of `j`, and ahead of it or ready, comes from -/
private theorem row_from {now : Time} {rows rows' : List Row} {ev : PgEv} {j : Row} (h : TableStep now rows ev rows')
    (hb : ev.QueuesBehind j now rows) (hdue : j.scheduledAt < pgTime now + 100000000) {r' : Row} (hr : r' ∈ rows')
    (hx : r'.executor = j.executor) (hw : r'.status = .scheduled ∨ r'.status = .retryable) :
    (∃ uc, ev = .inserted r' uc) ∨ r' ∈ rows ∨
      (¬ RowAhead j r' ∧ pgTime now + 100000000 ≤ r'.scheduledAt ∧ ∃ r ∈ rows, r.id = r'.id) := by
  rcases h.back hr with ⟨uc, he, -⟩ | ⟨r, hr₀, hid, hm, -⟩
  · exact .inl ⟨uc, he⟩
  · refine .inr ?_
    cases hm with
    | keep _ e => subst e; exact .inl hr₀
    | handout x t res h hr e => subst e; simp [Row.markExecuting] at hw
    | replaced rep enq h e => subst h; exact absurd hx (by rw [e]; exact hb r hr₀ rfl)
    | complete h e => subst e; simp [Row.markComplete] at hw
    | discarded err h e => subst e; simp [Row.markDiscarded] at hw
    | cancelled err h e => subst e; simp [Row.markCancelled] at hw
    | rerun h e => subst h; exact absurd hx (by rw [e]; exact hb r hr₀ rfl)
    | update job hjid h e => subst h; exact absurd hx (by rw [e]; exact hb r hr₀ hjid.symm)
    | retryable next err h e =>
      subst h
      have := hb r hr₀ rfl (by rw [e] at hx; exact hx)
      subst e
      refine .inr ⟨?_, this.2, r, hr₀, rfl⟩
      rintro ⟨-, -, -, h⟩
      simp only [Row.markRetryable, Time] at *
      omega
    | snoozed next h e =>
      subst h
      have := hb r hr₀ rfl (by rw [e] at hx; exact hx)
      subst e
      refine .inr ⟨?_, this.2, r, hr₀, rfl⟩
      rintro ⟨-, -, -, h⟩
      simp only [Row.markSnoozed, Time] at *
      omega

/-- a row locked by one session is not changed by the steps of others -/
private theorem locked_row_stays {c : PgConc} (H : PgInv c) {hash : HashFn} {tie : Int → Nat} {now : Time} {a : PgAct}
    {i : Nat} {s : Session} {r : Row} (hs : c.sessions[i]? = some s) (hl : s.rowLock = some r.id) (hr : r ∈ c.pg.rows)
    (ha : a ≠ .advance i) : r ∈ (c.step hash tie now a).2.pg.rows := by
  have hlk : c.rowLocked r.id = true := rowLocked_iff.mpr ⟨i, s, hs, hl⟩
  have honRow : ∀ (id : Int) (f : Row → Row), id ≠ r.id → r ∈ (c.pg.onRow id f).2.rows := by
    intro id f hne
    rcases onRow_cases id f c.pg H.nodup with ⟨-, h2⟩ | ⟨-, h2⟩
    · rw [h2]; exact hr
    · rw [h2]; exact updateRows_keep hr (fun e => hne e.symm)
  cases a with
  | handout x => exact hr
  | unique e uc => exact hr
  | abort k => simp only [PgConc.step]; split <;> exact hr
  | plain e =>
    simp only [PgConc.step]
    split
    · exact hr
    · exact List.mem_append_left _ hr
  | stmt o =>
    have one : ∀ id : Int, ¬ ([id].any c.rowLocked) = true → id ≠ r.id := by
      intro id h e
      subst e
      simp [hlk] at h
    cases o with
    | load x => exact hr
    | complete id => simp only [PgConc.step]; split; exact hr; rename_i h; exact honRow _ _ (one id h)
    | retryable id next e => simp only [PgConc.step]; split; exact hr; rename_i h; exact honRow _ _ (one id h)
    | discarded id e => simp only [PgConc.step]; split; exact hr; rename_i h; exact honRow _ _ (one id h)
    | cancelled id e => simp only [PgConc.step]; split; exact hr; rename_i h; exact honRow _ _ (one id h)
    | snoozed id next => simp only [PgConc.step]; split; exact hr; rename_i h; exact honRow _ _ (one id h)
    | rerun id => simp only [PgConc.step]; split; exact hr; rename_i h; exact honRow _ _ (one id h)
    | update job => simp only [PgConc.step]; split; exact hr; rename_i h; exact honRow _ _ (one job.id h)
    | prune spec =>
      simp only [PgConc.step]
      split
      · exact hr
      · rename_i h
        refine prune_mem.mpr ⟨hr, fun hd => h ?_⟩
        exact List.any_eq_true.mpr ⟨r.id, hd, hlk⟩
    | query q => simp only [PgConc.step]; split <;> exact hr
    | subscribe x => simp only [PgConc.step]; split <;> exact hr
    | notifyAll => simp only [PgConc.step]; split <;> exact hr
  | advance k =>
    have hk : k ≠ i := fun e => ha (by rw [e])
    simp only [PgConc.step]
    split
    · exact hr
    · rename_i s' hs'
      have hne : ∀ id, s'.rowLock = some id → r.id ≠ id := by
        intro id h e
        exact hk (H.lockOne k i s' s id hs' hs h (by rw [hl, e]))
      cases s' with
      | handout x => exact hr
      | done r => exact hr
      | looking x t snap => simp only [PgConc.advance]; split <;> exact hr
      | unique e uc t => simp only [PgConc.advance]; split <;> exact hr
      | holding e uc t => simp only [PgConc.advance]; split <;> exact hr
      | missing e uc t => simp only [PgConc.advance]; split <;> exact hr
      | inserted e uc row => exact List.mem_append_left _ hr
      | found e uc id st =>
        simp only [PgConc.advance]
        split
        · split
          · split
            · exact hr
            · split <;> exact hr
          · exact hr
        · exact hr
      | replacing e uc rep id => exact updateRows_keep hr (hne id rfl)
      | locked x t id =>
        simp only [PgConc.advance]
        split
        · exact hr
        · exact updateRows_keep hr (hne id rfl)

/-! ## Sessions -/

/-- sessions that have begun were there before the step -/
private theorem begun_before {c : PgConc} {hash : HashFn} {tie : Int → Nat} {now : Time} {a : PgAct} {i : Nat} {s' : Session}
    (hs' : (c.step hash tie now a).2.sessions[i]? = some s') (hb : (∃ x t snap, s' = .looking x t snap) ∨ ∃ x t id, s' = .locked x t id) :
    ∃ s, c.sessions[i]? = some s := by
  by_cases hlt : i < c.sessions.length
  · exact ⟨_, List.getElem?_eq_getElem hlt⟩
  · exfalso
    have hge : c.sessions.length ≤ i := Nat.le_of_not_lt hlt
    cases a with
    | handout x =>
      simp only [PgConc.step, List.getElem?_append_right hge] at hs'
      have := List.mem_of_getElem? hs'
      simp only [List.mem_singleton] at this
      subst this
      rcases hb with ⟨_, _, _, h⟩ | ⟨_, _, _, h⟩ <;> cases h
    | unique e uc =>
      simp only [PgConc.step, List.getElem?_append_right hge] at hs'
      have := List.mem_of_getElem? hs'
      simp only [List.mem_singleton] at this
      subst this
      rcases hb with ⟨_, _, _, h⟩ | ⟨_, _, _, h⟩ <;> cases h
    | plain e =>
      simp only [PgConc.step] at hs'
      split at hs' <;> exact hlt (List.getElem?_eq_some_iff.mp hs').1
    | stmt o =>
      have : (c.step hash tie now (.stmt o)).2.sessions = c.sessions := by
        cases o <;> simp only [PgConc.step] <;> first | rfl | (split <;> rfl)
      rw [this] at hs'
      exact hlt (List.getElem?_eq_some_iff.mp hs').1
    | abort k =>
      have : (c.step hash tie now (.abort k)).2.sessions.length = c.sessions.length := by
        simp only [PgConc.step]; split <;> simp
      exact hlt (this ▸ (List.getElem?_eq_some_iff.mp hs').1)
    | advance k =>
      have : (c.step hash tie now (.advance k)).2.sessions.length = c.sessions.length := by
        simp only [PgConc.step]; split <;> simp
      exact hlt (this ▸ (List.getElem?_eq_some_iff.mp hs').1)

/-- a session after its own step -/
theorem conc_session_self {c : PgConc} {hash : HashFn} {tie : Int → Nat} {now : Time} {i : Nat} {s : Session}
    (hs : c.sessions[i]? = some s) :
    (c.step hash tie now (.advance i)).2.sessions[i]? = some (c.advance hash tie now s).2.1 := by
  have hlt : i < c.sessions.length := (List.getElem?_eq_some_iff.mp hs).1
  simp only [PgConc.step, hs]
  rw [List.getElem?_set, if_pos rfl, if_pos hlt]

private theorem advance_takes {c : PgConc} {hash : HashFn} {tie : Int → Nat} {now : Time} {s : Session} {x : String}
    (h : (c.advance hash tie now s).2.1.takesFor x = true) : s.takesFor x = true := by
  cases s with
  | handout y => simpa [PgConc.advance, Session.takesFor] using h
  | looking y t snap =>
    simp only [PgConc.advance] at h
    split at h
    · simp [Session.takesFor] at h
    · simpa [Session.takesFor] using h
  | locked y t id => simp only [PgConc.advance] at h; split at h <;> simp [Session.takesFor] at h
  | unique e uc t => simp only [PgConc.advance] at h; split at h <;> simp [Session.takesFor] at h
  | holding e uc t => simp only [PgConc.advance] at h; split at h <;> simp [Session.takesFor] at h
  | missing e uc t => simp only [PgConc.advance] at h; split at h <;> simp [Session.takesFor] at h
  | inserted e uc row => simp [PgConc.advance, Session.takesFor] at h
  | replacing e uc rep id => simp [PgConc.advance, Session.takesFor] at h
  | done r => simp [PgConc.advance, Session.takesFor] at h
  | found e uc id st =>
    simp only [PgConc.advance] at h
    split at h
    · split at h
      · split at h
        · simp [Session.takesFor] at h
        · split at h <;> simp [Session.takesFor] at h
      · simp [Session.takesFor] at h
    · simp [Session.takesFor] at h

/-- the session that commits a hand-out -/
theorem handedOut_at {c : PgConc} (H : PgInv c) {hash : HashFn} {tie : Int → Nat} {now : Time} {k : Nat}
    {row : Row} {res : Res} (h : (c.step hash tie now (.advance k)).1 = .handedOut row res) :
    ∃ t, c.sessions[k]? = some (.locked row.executor t row.id) ∧
      (∃ r, (c.advance hash tie now (.locked row.executor t row.id)).2.1 = .done r) ∧
      row.status = .executing ∧ row ∈ (c.step hash tie now (.advance k)).2.pg.rows := by
  simp only [PgConc.step] at h ⊢
  split at h
  · simp at h
  · rename_i s hi
    cases s with
    | locked x t id =>
      obtain ⟨r₀, hr₀, hid₀, hrd⟩ := H.lockedReady k x t id hi
      simp only [hi]
      simp only [PgConc.advance] at h ⊢
      split at h
      · simp at h
      · rename_i r hr
        have hrid : r.id = id := by simpa using List.find?_some hr
        have hrr : r₀ = r := row_unique H.nodup hr₀ (List.mem_of_find?_eq_some hr) (by rw [hid₀, hrid])
        subst hrr
        simp only [PgEv.handedOut.injEq] at h
        obtain ⟨rfl, -⟩ := h
        have hx := (ready_iff'.mp hrd).executor
        subst hid₀
        refine ⟨t, ?_, ?_, rfl, ?_⟩
        · rw [← hx]; rfl
        · simp only [Row.markExecuting]
          split
          · exact ⟨_, rfl⟩
          · exact ⟨_, rfl⟩
        · exact updateRows_mem.mpr ⟨r₀, hr₀, by rw [if_pos rfl]⟩
    | replacing e uc rep id' => simp [PgConc.advance] at h
    | inserted e uc' row' => simp [PgConc.advance] at h
    | handout x => simp [PgConc.advance] at h
    | done r => simp [PgConc.advance] at h
    | looking x t snap => simp only [PgConc.advance] at h; split at h <;> simp at h
    | unique e uc t => simp only [PgConc.advance] at h; split at h <;> simp at h
    | holding e uc t => simp only [PgConc.advance] at h; split at h <;> simp at h
    | missing e uc t => simp only [PgConc.advance] at h; split at h <;> simp at h
    | found e uc id st =>
      simp only [PgConc.advance] at h
      split at h
      · split at h
        · split at h
          · simp at h
          · split at h <;> simp at h
        · simp at h
      · simp at h

private theorem handedOut_advance' {c : PgConc} {hash : HashFn} {tie : Int → Nat} {now : Time} {b : PgAct} {row : Row} {res : Res}
    (h : (c.step hash tie now b).1 = .handedOut row res) : ∃ k, b = .advance k := by
  cases b with
  | handout x => simp [PgConc.step] at h
  | unique e uc => simp [PgConc.step] at h
  | abort i => simp only [PgConc.step] at h; split at h <;> simp at h
  | plain e => simp only [PgConc.step] at h; split at h <;> simp at h
  | stmt o => cases o <;> simp only [PgConc.step] at h <;> first | (split at h <;> cases h) | cases h
  | advance i => exact ⟨i, rfl⟩

/-! ## The invariant -/

/-- what is known of the hand-outs for the executor of `j` from number `n` on -/
structure HandoutsGood (n : Nat) (j : Row) (last : Time) (h : List TPgEv) (c : PgConc) : Prop where
  present : j ∈ c.pg.rows
  long : n ≤ c.sessions.length
  looking : ∀ (i : Nat) (t : Time) (snap : List Row), n ≤ i → c.sessions[i]? = some (.looking j.executor t snap) →
    t ≤ last ∧ j ∈ snap ∧ j.scheduledAt < pgTime t + 100000000 ∧ (∀ r ∈ snap, r.id ∈ pgInserted h) ∧
    ∀ r ∈ snap, ∀ r' ∈ c.pg.rows, r'.id = r.id → r'.ready t j.executor = true → r' = r
  locked : ∀ (i : Nat) (t : Time) (id : Int), n ≤ i → c.sessions[i]? = some (.locked j.executor t id) →
    ∃ r ∈ c.pg.rows, r.id = id ∧ RowAhead j r

theorem conc_inserted_new {h : List TPgEv} {c : PgConc} (H : PgInv c) (I : PgHist h c) {hash : HashFn} {a : TPgAct}
    {row : Row} {uc : Option Criteria} (he : (c.step hash a.tie a.now a.act).1 = .inserted row uc) :
    row.id ∉ pgInserted h := by
  have := (I.step H hash a.tie a.now a.act).nodup
  rw [pgInserted_append, he] at this
  intro hm
  exact (List.nodup_append.mp this).2.2 _ hm _ (List.mem_singleton.mpr rfl) rfl

theorem handoutsGood_step {n : Nat} {j : Row} {last : Time} {h : List TPgEv} {c : PgConc} (H : PgInv c) (I : PgHist h c)
    (G : HandoutsGood n j last h c) (hash : HashFn) (a : TPgAct) (hlast : last ≤ a.now)
    (hw : j.status = .scheduled ∨ j.status = .retryable) (hdue : j.scheduledAt < pgTime a.now + 100000000)
    (ht : (c.step hash a.tie a.now a.act).1.touches j.id = false)
    (hb : (c.step hash a.tie a.now a.act).1.QueuesBehind j a.now c.pg.rows)
    (hfree : c.rowLocked j.id = false) (hfree' : (c.step hash a.tie a.now a.act).2.rowLocked j.id = false) :
    HandoutsGood n j a.now (h ++ [⟨a.now, (c.step hash a.tie a.now a.act).1⟩]) (c.step hash a.tie a.now a.act).2 := by
  have hts := table_step H hash a.tie a.now a.act
  refine ⟨?_, Nat.le_trans G.long sessions_length_mono, ?_, ?_⟩
  · refine waiting_row_stays H G.present hw ht fun spec res he => ?_
    rw [he] at hb
    exact hb
  · intro i t snap hi hs'
    obtain ⟨s, hs⟩ := begun_before hs' (.inl ⟨_, _, _, rfl⟩)
    rcases session_at hs hs' with rfl | ⟨ha, he⟩ | he
    · obtain ⟨h1, h2, h3, h4, h5⟩ := G.looking i t snap hi hs
      refine ⟨by simp only [Time] at *; omega, h2, h3, fun r hr => mem_pgInserted_append.mpr (.inl (h4 r hr)), ?_⟩
      intro r hr r' hr' hid hrd
      have el := ready_iff'.mp hrd
      rcases row_from hts hb hdue hr' el.executor el.waiting with ⟨uc, he⟩ | hm | ⟨-, hlate, -⟩
      · exact absurd (h4 r hr) (by rw [← hid]; exact conc_inserted_new H I he)
      · exact h5 r hr r' hm hid hrd
      · exfalso
        have hd := el.due
        have : pgTime t ≤ pgTime a.now := pgTime_mono (by simp only [Time] at *; omega)
        simp only [Time] at *
        omega
    · cases s with
      | handout y =>
        simp only [PgConc.advance, Session.looking.injEq] at he
        obtain ⟨rfl, rfl, rfl⟩ := he
        have hrows : (c.step hash a.tie a.now a.act).2.pg.rows = c.pg.rows := by
          rw [ha]; simp [PgConc.step, hs, PgConc.advance]
        refine ⟨by simp, G.present, hdue, fun r hr => mem_pgInserted_append.mpr (.inl (I.ids r hr)), ?_⟩
        intro r hr r' hr' hid _
        rw [hrows] at hr'
        exact row_unique H.nodup hr' hr hid
      | looking y t' snap' => simp only [PgConc.advance] at he; split at he <;> cases he
      | locked y t' id => simp only [PgConc.advance] at he; split at he <;> cases he
      | unique e uc t => simp only [PgConc.advance] at he; split at he <;> cases he
      | holding e uc t => simp only [PgConc.advance] at he; split at he <;> cases he
      | missing e uc t => simp only [PgConc.advance] at he; split at he <;> cases he
      | inserted e uc row => cases he
      | replacing e uc rep id => cases he
      | done r => cases he
      | found e uc id st =>
        simp only [PgConc.advance] at he
        split at he
        · split at he
          · split at he
            · cases he
            · split at he <;> cases he
          · cases he
        · cases he
    · cases he
  · intro i t id hi hs'
    obtain ⟨s, hs⟩ := begun_before hs' (.inr ⟨_, _, _, rfl⟩)
    by_cases ha : a.act = .advance i
    · have hself := conc_session_self (hash := hash) (tie := a.tie) (now := a.now) hs
      rw [← ha, hs', Option.some.injEq] at hself
      cases s with
      | looking y t' snap =>
        have hch := C45_choice hash a.tie a.now c i y t' snap hs
        rw [← ha, hs'] at hch
        rcases hch with ⟨id', h1, h2, ⟨r₀, hr₀, hid₀, el₀⟩, r, hr, hid, el, hmin⟩ | ⟨-, h1, -⟩
        · simp only [Option.some.injEq, Session.locked.injEq] at h1
          obtain ⟨rfl, rfl, rfl⟩ := h1
          obtain ⟨g1, g2, g3, g4, g5⟩ := G.looking i t snap hi hs
          have heq : r₀ = r := g5 r hr r₀ hr₀ (by rw [hid₀, hid]) (ready_iff'.mpr el₀)
          subst heq
          have elj : RowEligible t j.executor j := ⟨rfl, hw, g3⟩
          have hm := hmin j g2 elj hfree ⟨j, G.present, rfl, elj⟩
          have hrows : (c.step hash a.tie a.now a.act).2.pg.rows = c.pg.rows := by
            rw [ha]; simp only [PgConc.step, hs, PgConc.advance]; split <;> rfl
          refine ⟨r₀, by rw [hrows]; exact hr₀, hid, ?_, el₀.executor, el₀.waiting, hm⟩
          intro e
          have : (c.step hash a.tie a.now a.act).2.rowLocked j.id = true :=
            rowLocked_iff.mpr ⟨i, _, hs', by rw [← e, hid]; rfl⟩
          rw [hfree'] at this; cases this
        · cases h1
      | handout y => cases hself
      | locked y t' id => simp only [PgConc.advance] at hself; split at hself <;> cases hself
      | unique e uc t => simp only [PgConc.advance] at hself; split at hself <;> cases hself
      | holding e uc t => simp only [PgConc.advance] at hself; split at hself <;> cases hself
      | missing e uc t => simp only [PgConc.advance] at hself; split at hself <;> cases hself
      | inserted e uc row => cases hself
      | replacing e uc rep id => cases hself
      | done r => cases hself
      | found e uc id st =>
        simp only [PgConc.advance] at hself
        split at hself
        · split at hself
          · split at hself
            · cases hself
            · split at hself <;> cases hself
          · cases hself
        · cases hself
    · rcases session_at hs hs' with rfl | ⟨ha', -⟩ | he
      · obtain ⟨r, hr, hid, hah⟩ := G.locked i t id hi hs
        exact ⟨r, locked_row_stays H hs (by rw [hid]; rfl) hr ha, hid, hah⟩
      · exact absurd ha' ha
      · cases he

/-- the jobs ahead of `j`, and the hand-outs that were under way when counting began -/
def aheadBudget (n : Nat) (j : Row) (c : PgConc) : Nat :=
  c.pg.rows.countP (fun a => decide (RowAhead j a)) + (c.sessions.take n).countP (fun s => s.takesFor j.executor)

theorem aheadBudget_step {n : Nat} {j : Row} {last : Time} {h : List TPgEv} {c : PgConc} (H : PgInv c)
    (G : HandoutsGood n j last h c) (hash : HashFn) (a : TPgAct)
    (hdue : j.scheduledAt < pgTime a.now + 100000000)
    (hb : (c.step hash a.tie a.now a.act).1.QueuesBehind j a.now c.pg.rows) :
    aheadBudget n j (c.step hash a.tie a.now a.act).2
      + (if (c.step hash a.tie a.now a.act).1.handsOutFor j.executor = true then 1 else 0) ≤ aheadBudget n j c := by
  have H' := H.step hash a.tie a.now a.act
  have hts := table_step H hash a.tie a.now a.act
  have hsub : ∀ r' ∈ (c.step hash a.tie a.now a.act).2.pg.rows, RowAhead j r' → r' ∈ c.pg.rows := by
    intro r' hr' hah
    rcases row_from hts hb hdue hr' hah.2.1 hah.2.2.1 with ⟨uc, he⟩ | hm | ⟨hn, -⟩
    · rw [he] at hb; exact absurd hah hb
    · exact hm
    · exact absurd hah hn
  have hA : (aheadIds j (c.step hash a.tie a.now a.act).2.pg.rows).length ≤ (aheadIds j c.pg.rows).length := by
    refine length_le_of_subset (aheadIds_nodup H'.nodup) fun i hi => ?_
    obtain ⟨r', hr', hah, hid⟩ := mem_aheadIds.mp hi
    exact mem_aheadIds.mpr ⟨r', hsub r' hr' hah, hah, hid⟩
  have hlen : ((c.step hash a.tie a.now a.act).2.sessions.take n).length = (c.sessions.take n).length := by
    have := Nat.le_trans G.long (sessions_length_mono (hash := hash) (tie := a.tie) (now := a.now) (a := a.act))
    rw [List.length_take, List.length_take]
    have := G.long
    omega
  obtain ⟨hO, hO'⟩ := countP_pointwise (p := fun s => Session.takesFor j.executor s) hlen (by
    intro i s s' hs hs' hp
    rw [List.getElem?_take] at hs hs'
    split at hs
    · rename_i hlt
      rw [if_pos hlt] at hs'
      rcases session_at hs hs' with rfl | ⟨-, he⟩ | he
      · exact hp
      · rw [he] at hp; exact advance_takes hp
      · rw [he] at hp; cases hp
    · cases hs)
  rw [aheadBudget, aheadBudget, ← aheadIds_length, ← aheadIds_length]
  split
  · rename_i hho
    unfold PgEv.handsOutFor at hho
    split at hho
    · rename_i row res hev
      rw [beq_iff_eq] at hho
      obtain ⟨k, hk⟩ := handedOut_advance' hev
      rw [hk] at hev
      obtain ⟨t, hs, ⟨r, hdone⟩, hst, hrow⟩ := handedOut_at H hev
      rw [hho] at hs hdone
      by_cases hkn : k < n
      · have := hO' k _ (.done r) (by rw [List.getElem?_take, if_pos hkn]; exact hs)
          (by
            rw [List.getElem?_take, if_pos hkn, hk, conc_session_self hs]
            rw [hdone]) (by simp [Session.takesFor]) rfl
        omega
      · obtain ⟨r₀, hr₀, hid₀, hah⟩ := G.locked k t row.id (Nat.le_of_not_lt hkn) hs
        have hmem : row.id ∈ aheadIds j c.pg.rows := mem_aheadIds.mpr ⟨r₀, hr₀, hah, hid₀⟩
        have : (aheadIds j (c.step hash a.tie a.now a.act).2.pg.rows).length ≤ ((aheadIds j c.pg.rows).erase row.id).length := by
          refine length_le_of_subset (aheadIds_nodup H'.nodup) fun i hi => ?_
          obtain ⟨r', hr', hah', hid⟩ := mem_aheadIds.mp hi
          have hne : i ≠ row.id := by
            rintro rfl
            rw [← hk] at hrow
            have := row_unique H'.nodup hr' hrow hid
            rw [this] at hah'
            have := hah'.2.2.1
            rw [hst] at this
            simp at this
          exact (List.mem_erase_of_ne hne).mpr (mem_aheadIds.mpr ⟨r', hsub r' hr' hah', hah', hid⟩)
        rw [List.length_erase_of_mem hmem] at this
        have := List.length_pos_of_mem hmem
        omega
    · cases hho
  · omega

private theorem budget_run {n : Nat} {j : Row} (hash : HashFn) (hw : j.status = .scheduled ∨ j.status = .retryable)
    (as : List TPgAct) {last : Time} {h : List TPgEv} {c : PgConc} (H : PgInv c) (I : PgHist h c) (G : HandoutsGood n j last h c)
    (hlast : ∀ a ∈ as, last ≤ a.now) (hmono : as.Pairwise fun a b => a.now ≤ b.now)
    (hdue : ∀ a ∈ as, j.scheduledAt < pgTime a.now + 100000000)
    (hleft : ∀ e ∈ c.history hash as, e.ev.touches j.id = true → e.ev.handsOut j.id = true)
    (hbehind : ∀ n a, as[n]? = some a →
      ((c.run hash (as.take n)).step hash a.tie a.now a.act).1.QueuesBehind j a.now (c.run hash (as.take n)).pg.rows)
    (hfree : ∀ n, (c.run hash (as.take n)).rowLocked j.id = false) :
    (c.history hash as).countP (fun e => e.ev.handsOutFor j.executor) ≤ aheadBudget n j c := by
  induction as generalizing last h c with
  | nil => simp [PgConc.history]
  | cons a as ih =>
    have hb := hbehind 0 a rfl
    simp only [List.take_zero, PgConc.run] at hb
    have hf : c.rowLocked j.id = false := hfree 0
    have ht : (c.step hash a.tie a.now a.act).1.touches j.id = false := by
      cases ht : (c.step hash a.tie a.now a.act).1.touches j.id with
      | false => rfl
      | true =>
        have := hleft _ List.mem_cons_self ht
        cases he : (c.step hash a.tie a.now a.act).1 with
        | handedOut row res =>
          simp only [he, PgEv.handsOut, beq_iff_eq] at this
          obtain ⟨-, -, -, -, x, t, hs, -, -⟩ := handedOut_mem H he
          obtain ⟨i, hi⟩ := List.mem_iff_getElem?.mp hs
          have := rowLocked_iff.mpr ⟨i, _, hi, by rw [Session.rowLock, this]⟩
          rw [hf] at this; cases this
        | _ => simp [he, PgEv.handsOut] at this
    have hd := hdue a List.mem_cons_self
    have G' := handoutsGood_step H I G hash a (hlast a List.mem_cons_self) hw hd ht hb hf (hfree 1)
    have hs := aheadBudget_step H G hash a hd hb
    rw [List.pairwise_cons] at hmono
    have := ih (H.step hash a.tie a.now a.act) (I.step H hash a.tie a.now a.act) G' hmono.1 hmono.2
      (fun b hb => hdue b (List.mem_cons_of_mem _ hb)) (fun e he => hleft e (List.mem_cons_of_mem _ he))
      (fun n b he => by have := hbehind (n + 1) b (by simpa using he); simpa [PgConc.run] using this)
      (fun n => by have := hfree (n + 1); simpa [PgConc.run] using this)
    simp only [PgConc.history, List.countP_cons]
    omega

/-- **C85.** Start from any reachable state of the database in which row `j` is waiting.
Let the clock go forward, let `j` be due (up to 100 ms early) all the time, let nobody
change `j` except by handing it out, and let nothing be queued in front of it. When more
hand-outs for its executor have been committed than there were waiting rows ahead of `j`
and hand-outs under way at the start, then some transaction has locked `j`. -/
theorem C85_overtaking (hash : HashFn) (as₁ as₂ : List TPgAct) (j : Row)
    (hj : j ∈ (PgConc.run hash {} as₁).pg.rows) (hw : j.status = .scheduled ∨ j.status = .retryable)
    (hmono : as₂.Pairwise fun a b => a.now ≤ b.now)
    (hdue : ∀ a ∈ as₂, j.scheduledAt < pgTime a.now + 100000000)
    (hleft : ∀ e ∈ (PgConc.run hash {} as₁).history hash as₂, e.ev.touches j.id = true → e.ev.handsOut j.id = true)
    (hbehind : ∀ (n : Nat) (h : n < as₂.length),
      ((PgConc.run hash {} (as₁ ++ as₂.take n)).step hash as₂[n].tie as₂[n].now as₂[n].act).1.QueuesBehind j as₂[n].now
        (PgConc.run hash {} (as₁ ++ as₂.take n)).pg.rows)
    (hmany : (PgConc.run hash {} as₁).pg.rows.countP (fun a => decide (RowAhead j a))
        + (PgConc.run hash {} as₁).sessions.countP (fun s => s.takesFor j.executor)
      < ((PgConc.run hash {} as₁).history hash as₂).countP (fun e => e.ev.handsOutFor j.executor)) :
    ∃ n, (PgConc.run hash {} (as₁ ++ as₂.take n)).rowLocked j.id = true := by
  apply Classical.byContradiction
  intro hno
  have hfree : ∀ n, ((PgConc.run hash {} as₁).run hash (as₂.take n)).rowLocked j.id = false := by
    intro n
    rw [← PgConc.run_append]
    cases hl : (PgConc.run hash {} (as₁ ++ as₂.take n)).rowLocked j.id with
    | false => rfl
    | true => exact absurd ⟨n, hl⟩ hno
  cases as₂ with
  | nil => simp [PgConc.history] at hmany
  | cons a as =>
    have G : HandoutsGood (PgConc.run hash {} as₁).sessions.length j a.now (PgConc.history hash {} as₁) (PgConc.run hash {} as₁) := by
      refine ⟨hj, Nat.le_refl _, ?_, ?_⟩
      · intro i t snap hi hs
        exact absurd (List.getElem?_eq_some_iff.mp hs).1 (by omega)
      · intro i t id hi hs
        exact absurd (List.getElem?_eq_some_iff.mp hs).1 (by omega)
    have := budget_run hash hw (a :: as) (pgInv hash as₁) (pgHist hash as₁) G (by
        intro b hb
        rcases List.mem_cons.mp hb with rfl | hb
        · simp
        · exact (List.pairwise_cons.mp hmono).1 b hb) hmono hdue hleft
      (fun n b he => by
        rw [← PgConc.run_append]
        obtain ⟨hlt, hb⟩ := List.getElem?_eq_some_iff.mp he
        have := hbehind n hlt
        rw [hb] at this
        exact this) hfree
    rw [aheadBudget, List.take_of_length_le (Nat.le_refl _)] at this
    omega

theorem session_unmoved {c : PgConc} {hash : HashFn} {tie : Int → Nat} {now : Time} {a : PgAct} {i : Nat} {s : Session}
    (hs : c.sessions[i]? = some s) (ha : a ≠ .advance i) (hb : a ≠ .abort i) :
    (c.step hash tie now a).2.sessions[i]? = some s := by
  have hlt : i < c.sessions.length := (List.getElem?_eq_some_iff.mp hs).1
  cases a with
  | handout x => simp only [PgConc.step, List.getElem?_append_left hlt, hs]
  | unique e uc => simp only [PgConc.step, List.getElem?_append_left hlt, hs]
  | plain e => simp only [PgConc.step]; split <;> exact hs
  | stmt o => cases o <;> simp only [PgConc.step] <;> first | exact hs | (split <;> exact hs)
  | abort k =>
    have hk : k ≠ i := fun e => hb (by rw [e])
    simp only [PgConc.step]
    split
    · exact hs
    · exact hs
    · rw [List.getElem?_set_ne hk]; exact hs
  | advance k =>
    have hk : k ≠ i := fun e => ha (by rw [e])
    simp only [PgConc.step]
    split
    · exact hs
    · rw [List.getElem?_set_ne hk]; exact hs

/-- a locked row that is only touched by a hand-out, and is unlocked in the end without
transactions being given up, is handed out -/
theorem row_lock_resolves (hash : HashFn) (j : Int) (as : List TPgAct) {c : PgConc} (H : PgInv c) {i : Nat} {s : Session}
    (hs : c.sessions[i]? = some s) (hl : s.rowLock = some j)
    (hno : ∀ a ∈ as, ∀ i, a.act ≠ .abort i)
    (hleft : ∀ e ∈ c.history hash as, e.ev.touches j = true → e.ev.handsOut j = true)
    (hend : (c.run hash as).rowLocked j = false) :
    ∃ e ∈ c.history hash as, e.ev.handsOut j = true := by
  induction as generalizing c with
  | nil =>
    have : c.rowLocked j = true := rowLocked_iff.mpr ⟨i, s, hs, hl⟩
    rw [PgConc.run, this] at hend
    cases hend
  | cons a as ih =>
    simp only [PgConc.history] at hleft ⊢
    by_cases ha : a.act = .advance i
    · have hev : (c.step hash a.tie a.now a.act).1 = (c.advance hash a.tie a.now s).1 := by
        rw [ha]; simp only [PgConc.step, hs]
      refine ⟨_, List.mem_cons_self, ?_⟩
      have h0 := hleft _ List.mem_cons_self
      simp only [hev] at h0 ⊢
      cases s with
      | locked x t id =>
        cases hl
        obtain ⟨r, hr, hid, -⟩ := H.lockedReady i x t j hs
        simp only [PgConc.advance]
        split
        · rename_i hnone
          have := List.find?_eq_none.mp hnone r hr
          simp [hid] at this
        · rename_i q hq
          have : q.id = j := by simpa using List.find?_some hq
          simp [PgEv.handsOut, Row.markExecuting, this]
      | replacing e uc rep id =>
        cases hl
        exact h0 (by simp [PgConc.advance, PgEv.touches, PgEv.edits])
      | _ => cases hl
    · have hstay := session_unmoved (hash := hash) (tie := a.tie) (now := a.now) hs ha (hno a List.mem_cons_self i)
      obtain ⟨e, he, h⟩ := ih (H.step hash a.tie a.now a.act) hstay (fun b hb => hno b (List.mem_cons_of_mem _ hb))
        (fun e he => hleft e (List.mem_cons_of_mem _ he)) hend
      exact ⟨e, List.mem_cons_of_mem _ he, h⟩

/-- **C85, to the end.** Under the same conditions, if moreover no transaction is given up
meanwhile, and in the end no transaction under way has locked `j`, then `j` has been
handed out. -/
theorem C85_handed_out (hash : HashFn) (as₁ as₂ : List TPgAct) (j : Row)
    (hj : j ∈ (PgConc.run hash {} as₁).pg.rows) (hw : j.status = .scheduled ∨ j.status = .retryable)
    (hmono : as₂.Pairwise fun a b => a.now ≤ b.now)
    (hdue : ∀ a ∈ as₂, j.scheduledAt < pgTime a.now + 100000000)
    (hleft : ∀ e ∈ (PgConc.run hash {} as₁).history hash as₂, e.ev.touches j.id = true → e.ev.handsOut j.id = true)
    (hbehind : ∀ (n : Nat) (h : n < as₂.length),
      ((PgConc.run hash {} (as₁ ++ as₂.take n)).step hash as₂[n].tie as₂[n].now as₂[n].act).1.QueuesBehind j as₂[n].now
        (PgConc.run hash {} (as₁ ++ as₂.take n)).pg.rows)
    (hmany : (PgConc.run hash {} as₁).pg.rows.countP (fun a => decide (RowAhead j a))
        + (PgConc.run hash {} as₁).sessions.countP (fun s => s.takesFor j.executor)
      < ((PgConc.run hash {} as₁).history hash as₂).countP (fun e => e.ev.handsOutFor j.executor))
    (hno : ∀ a ∈ as₂, ∀ i, a.act ≠ .abort i)
    (hend : (PgConc.run hash {} (as₁ ++ as₂)).rowLocked j.id = false) :
    ∃ e ∈ (PgConc.run hash {} as₁).history hash as₂, e.ev.handsOut j.id = true := by
  obtain ⟨n, hn⟩ := C85_overtaking hash as₁ as₂ j hj hw hmono hdue hleft hbehind hmany
  obtain ⟨i, s, hs, hl⟩ := rowLocked_iff.mp hn
  have hsplit : (PgConc.run hash {} as₁).history hash as₂ =
      (PgConc.run hash {} as₁).history hash (as₂.take n) ++
        (PgConc.run hash {} (as₁ ++ as₂.take n)).history hash (as₂.drop n) := by
    rw [PgConc.run_append, ← PgConc.history_append, List.take_append_drop]
  rw [hsplit] at hleft ⊢
  obtain ⟨e, he, h⟩ := row_lock_resolves hash j.id (as₂.drop n) (pgInv hash (as₁ ++ as₂.take n)) hs hl
    (fun a ha => hno a (List.mem_of_mem_drop ha)) (fun e he => hleft e (List.mem_append_right _ he))
    (by rw [← PgConc.run_append, List.append_assoc, List.take_append_drop]; exact hend)
  exact ⟨e, List.mem_append_right _ he, h⟩

/-- Three jobs wait and one hand-out is under way. -/
def overtakingStart : List TPgAct :=
  [pgAct 1000 (.plain { sampleEnq with scheduledAt := 1000 }), pgAct 2000 (.plain { sampleEnq with scheduledAt := 2000 }),
    pgAct 3000 (.plain { sampleEnq with scheduledAt := 3000 }), pgAct 4000 (.handout "mail"), pgAct 4000 (.advance 0)]

/-- A fourth job, behind the third, is added; three more hand-outs are made and all four
are finished, the one of the third job last. -/
def overtakingHistory : List TPgAct :=
  [pgAct 5000 (.handout "mail"), pgAct 5000 (.handout "mail"), pgAct 5000 (.handout "mail"),
    pgAct 5000 (.plain { sampleEnq with scheduledAt := 4000 }),
    pgAct 5000 (.advance 0), pgAct 5000 (.advance 1), pgAct 5000 (.advance 2), pgAct 5000 (.advance 3),
    pgAct 5000 (.advance 1), pgAct 5000 (.advance 1), pgAct 6000 (.advance 2), pgAct 6000 (.advance 0), pgAct 6000 (.advance 3),
    pgAct 6000 (.advance 3), pgAct 7000 (.advance 2)]

example : ∃ j ∈ (PgConc.run sampleHash {} overtakingStart).pg.rows, j.id = 3 ∧ j.status = .scheduled ∧
    (overtakingHistory.Pairwise fun a b => a.now ≤ b.now) ∧
    (∀ a ∈ overtakingHistory, j.scheduledAt < pgTime a.now + 100000000) ∧
    (∀ e ∈ (PgConc.run sampleHash {} overtakingStart).history sampleHash overtakingHistory,
      e.ev.touches j.id = true → e.ev.handsOut j.id = true) ∧
    (∀ (n : Nat) (h : n < overtakingHistory.length),
      ((PgConc.run sampleHash {} (overtakingStart ++ overtakingHistory.take n)).step sampleHash overtakingHistory[n].tie
        overtakingHistory[n].now overtakingHistory[n].act).1.QueuesBehind j overtakingHistory[n].now
        (PgConc.run sampleHash {} (overtakingStart ++ overtakingHistory.take n)).pg.rows) ∧
    (PgConc.run sampleHash {} overtakingStart).pg.rows.countP (fun a => decide (RowAhead j a)) = 2 ∧
    (PgConc.run sampleHash {} overtakingStart).sessions.countP (fun s => s.takesFor j.executor) = 1 ∧
    ((PgConc.run sampleHash {} overtakingStart).history sampleHash overtakingHistory).countP
      (fun e => e.ev.handsOutFor j.executor) = 4 := by
  refine ⟨_, List.getElem_mem (n := 2) (by decide), by decide, by decide, by decide, by decide, by decide, by decide,
    by decide, by decide, by decide⟩

example : (∀ a ∈ overtakingHistory, match a.act with | .abort _ => False | _ => True) ∧
    (PgConc.run sampleHash {} (overtakingStart ++ overtakingHistory)).rowLocked 3 = false := by
  refine ⟨?_, by decide⟩
  intro a ha
  simp only [overtakingHistory, List.mem_cons, List.not_mem_nil, or_false] at ha
  rcases ha with rfl | rfl | rfl | rfl | rfl | rfl | rfl | rfl | rfl | rfl | rfl | rfl | rfl | rfl | rfl <;> trivial

end Rexecutor
