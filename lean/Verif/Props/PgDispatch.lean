import Verif.Spec.Pg
import Verif.Spec.PgQuery
import Verif.Spec.Samples
import Verif.Lemmas.Pg

/-! # C45, C46: handing out jobs on Postgres -/

namespace Rexecutor

private theorem ready_iff {t : Time} {x : String} {r : Row} : r.ready t x = true ↔ RowEligible t x r := by
  simp only [Row.ready, Bool.and_eq_true, Bool.or_eq_true, decide_eq_true_eq, beq_iff_eq]
  constructor
  · rintro ⟨⟨h1, h2⟩, h3⟩
    exact ⟨h3, h2, by simp only [ms, Time] at *; omega⟩
  · rintro ⟨h1, h2, h3⟩
    exact ⟨⟨by simp only [ms, Time] at *; omega, h2⟩, h1⟩

private theorem before_total (tie : Int → Nat) (a b : Row) :
    Row.before tie a b = true ∨ Row.before tie b a = true := by
  simp only [Row.before, Bool.or_eq_true, Bool.and_eq_true, decide_eq_true_eq, beq_iff_eq]
  simp only [Time]
  omega

private theorem before_trans (tie : Int → Nat) (a b c : Row) (h1 : Row.before tie a b = true)
    (h2 : Row.before tie b c = true) : Row.before tie a c = true := by
  simp only [Row.before, Bool.or_eq_true, Bool.and_eq_true, decide_eq_true_eq, beq_iff_eq] at *
  simp only [Time] at *
  omega

/-- A row that a hand-out, which began when the table was `snap`, could take now. -/
private theorem find_sorted {le : α → α → Bool} {l : List α} (hs : l.Pairwise fun x y => le x y = true)
    (hrefl : ∀ a, le a a = true) {p : α → Bool} {a : α} (h : l.find? p = some a) :
    ∀ b ∈ l, p b = true → le a b = true := by
  induction l with
  | nil => simp at h
  | cons x xs ih =>
    rw [List.pairwise_cons] at hs
    intro b hb hp
    rw [List.find?_cons] at h
    split at h
    · have := Option.some.inj h
      subst this
      rcases List.mem_cons.mp hb with rfl | hb
      · exact hrefl _
      · exact hs.1 b hb
    · rename_i hx
      rcases List.mem_cons.mp hb with rfl | hb
      · rw [hp] at hx; simp at hx
      · exact ih hs.2 h b hb hp

/-! ## C45 -/

/-- **C45, choice.** For every table, clock, set of locked rows and choice of the
database: the row a hand-out locks is not locked by anyone, is eligible now and was so
when the statement began; and no other such row has a lower priority number, or the
same and an earlier schedule. If the hand-out takes nothing there is no such row. -/
theorem C45_choice (hash : HashFn) (tie : Int → Nat) (now : Time) (c : PgConc) (i : Nat) (x : String) (t : Time)
    (snap : List Row) (h : c.sessions[i]? = some (.looking x t snap)) :
    (∃ id, (c.step hash tie now (.advance i)).2.sessions[i]? = some (.locked x t id) ∧
      c.rowLocked id = false ∧ (∃ r ∈ c.pg.rows, r.id = id ∧ RowEligible t x r) ∧
      ∃ r ∈ snap, r.id = id ∧ RowEligible t x r ∧
        ∀ q ∈ snap, RowEligible t x q → c.rowLocked q.id = false →
          (∃ q' ∈ c.pg.rows, q'.id = q.id ∧ RowEligible t x q') →
          r.priority < q.priority ∨ (r.priority = q.priority ∧ r.scheduledAt ≤ q.scheduledAt)) ∨
    ((c.step hash tie now (.advance i)).1 = .noJob ∧
      (c.step hash tie now (.advance i)).2.sessions[i]? = some (.done (.job none)) ∧
      ¬ ∃ q ∈ snap, RowEligible t x q ∧ c.rowLocked q.id = false ∧
          ∃ q' ∈ c.pg.rows, q'.id = q.id ∧ RowEligible t x q') := by
  have hi : i < c.sessions.length := (List.getElem?_eq_some_iff.mp h).1
  have hperm := sortBy_perm (Row.before tie) (snap.filter (Row.ready t x))
  have hsort := sortBy_sorted (before_total tie) (before_trans tie) (snap.filter (Row.ready t x))
  have hmem : ∀ q, q ∈ sortBy (Row.before tie) (snap.filter (Row.ready t x)) ↔ q ∈ snap ∧ RowEligible t x q := by
    intro q; rw [hperm.mem_iff, List.mem_filter, ready_iff]
  have hpred : ∀ q : Row, (!c.rowLocked q.id && c.pg.rows.any fun r' => r'.id == q.id && r'.ready t x) = true ↔
      c.rowLocked q.id = false ∧ ∃ q' ∈ c.pg.rows, q'.id = q.id ∧ RowEligible t x q' := by
    intro q
    simp [← ready_iff, List.any_eq_true]
  simp only [PgConc.step, h, PgConc.advance]
  split
  · rename_i hf
    right
    refine ⟨rfl, by simp [hi], ?_⟩
    rintro ⟨q, hq, he, hu, hc⟩
    have := List.find?_eq_none.mp hf q ((hmem q).mpr ⟨hq, he⟩)
    exact this ((hpred q).mpr ⟨hu, hc⟩)
  · rename_i r hf
    left
    have hr := (hmem r).mp (List.mem_of_find?_eq_some hf)
    have hfs := List.find?_some hf
    obtain ⟨h1, h2⟩ := (hpred r).mp hfs
    refine ⟨r.id, by simp [hi], h1, h2, r, hr.1, rfl, hr.2, ?_⟩
    intro q hq he hu hc
    have := find_sorted hsort (fun a => (before_total tie a a).elim id id) hf q ((hmem q).mpr ⟨hq, he⟩)
      ((hpred q).mpr ⟨hu, hc⟩)
    simp only [Row.before, Bool.or_eq_true, Bool.and_eq_true, decide_eq_true_eq, beq_iff_eq] at this
    simp only [Time] at *
    omega

/-- Two hand-outs for `mail`, the second while the first has locked row 2. -/
example : ((PgConc.run sampleHash { pg := { rows := [sampleRow 1, { sampleRow 2 with priority := -1 }], seq := 2 } }
    [pgAct 5 (.handout "mail"), pgAct 5 (.handout "mail"), pgAct 5 (.advance 0), pgAct 5 (.advance 0),
      pgAct 5 (.advance 1), pgAct 5 (.advance 1)]).sessions) = [.locked "mail" 5 2, .locked "mail" 5 1] := by
  decide

/-- What sessions come from. -/
private def FromOpening (as : List TPgAct) (i : Nat) : Session → Opening → Prop
  | .handout x, o => o = .handout x
  | .looking x t _, o => o = .handout x ∧ ∃ a ∈ as, a.act = .advance i ∧ a.now = t
  | .locked x t _, o => o = .handout x ∧ ∃ a ∈ as, a.act = .advance i ∧ a.now = t
  | .unique e uc _, o => o = .unique e uc
  | .holding e uc _, o => o = .unique e uc
  | .missing e uc _, o => o = .unique e uc
  | .found e uc _ _, o => o = .unique e uc
  | .inserted e uc _, o => o = .unique e uc
  | .replacing e uc _ _, o => o = .unique e uc
  | .done _, _ => True

private def Opened (as : List TPgAct) (c : PgConc) : Prop :=
  c.sessions.length = (openings as).length ∧
  ∀ (i : Nat) (s : Session) (o : Opening), c.sessions[i]? = some s → (openings as)[i]? = some o → FromOpening as i s o

private theorem fromOpening_mono {as : List TPgAct} {a : TPgAct} {i : Nat} {s : Session} {o : Opening}
    (h : FromOpening as i s o) : FromOpening (as ++ [a]) i s o := by
  cases s <;> simp only [FromOpening] at *
  all_goals first
    | exact h
    | (obtain ⟨h1, b, hb, h2⟩ := h; exact ⟨h1, b, List.mem_append_left _ hb, h2⟩)

private theorem openings_snoc_none {as : List TPgAct} {a : TPgAct} (h : openings [a] = []) :
    openings (as ++ [a]) = openings as := by
  rw [openings, List.filterMap_append]
  change openings as ++ openings [a] = _
  rw [h, List.append_nil]

private theorem opened_same {as : List TPgAct} {c c' : PgConc} {a : TPgAct} (H : Opened as c)
    (ho : openings (as ++ [a]) = openings as)
    (hs : ∀ (i : Nat) (s' : Session), c'.sessions[i]? = some s' → c.sessions[i]? = some s' ∨ ∃ s, c.sessions[i]? = some s ∧
      ∀ o, FromOpening as i s o → FromOpening (as ++ [a]) i s' o)
    (hl : c'.sessions.length = c.sessions.length) : Opened (as ++ [a]) c' := by
  refine ⟨by rw [ho, hl, H.1], ?_⟩
  intro i s' o h1 h2
  rw [ho] at h2
  rcases hs i s' h1 with h | ⟨s, h, h3⟩
  · exact fromOpening_mono (H.2 i s' o h h2)
  · exact h3 o (H.2 i s o h h2)

private theorem opened_step {as : List TPgAct} {c : PgConc} (hash : HashFn) (H : Opened as c) (a : TPgAct) :
    Opened (as ++ [a]) (c.step hash a.tie a.now a.act).2 := by
  obtain ⟨now, tie, act⟩ := a
  cases act with
  | handout x =>
    have ho : openings (as ++ [⟨now, tie, .handout x⟩]) = openings as ++ [.handout x] := by
      simp [openings, List.filterMap_append]
    refine ⟨by simp [PgConc.step, ho, H.1], ?_⟩
    intro i s o h1 h2
    simp only [PgConc.step] at h1
    rw [ho] at h2
    by_cases hi : i < c.sessions.length
    · rw [List.getElem?_append_left hi] at h1
      rw [List.getElem?_append_left (by rw [← H.1]; exact hi)] at h2
      exact fromOpening_mono (H.2 i s o h1 h2)
    · rw [List.getElem?_append_right (by omega)] at h1
      rw [List.getElem?_append_right (by rw [← H.1]; omega), ← H.1] at h2
      have : i - c.sessions.length = 0 := by
        have := (List.getElem?_eq_some_iff.mp h1).1
        simp at this; omega
      rw [this] at h1 h2
      simp at h1 h2
      subst h1 h2
      rfl
  | unique e uc =>
    have ho : openings (as ++ [⟨now, tie, .unique e uc⟩]) = openings as ++ [.unique e uc] := by
      simp [openings, List.filterMap_append]
    refine ⟨by simp [PgConc.step, ho, H.1], ?_⟩
    intro i s o h1 h2
    simp only [PgConc.step] at h1
    rw [ho] at h2
    by_cases hi : i < c.sessions.length
    · rw [List.getElem?_append_left hi] at h1
      rw [List.getElem?_append_left (by rw [← H.1]; exact hi)] at h2
      exact fromOpening_mono (H.2 i s o h1 h2)
    · rw [List.getElem?_append_right (by omega)] at h1
      rw [List.getElem?_append_right (by rw [← H.1]; omega), ← H.1] at h2
      have : i - c.sessions.length = 0 := by
        have := (List.getElem?_eq_some_iff.mp h1).1
        simp at this; omega
      rw [this] at h1 h2
      simp at h1 h2
      subst h1 h2
      rfl
  | advance i =>
    simp only [PgConc.step]
    split
    · exact opened_same H (openings_snoc_none rfl) (fun _ _ h => .inl h) rfl
    · rename_i s hs
      refine opened_same H (openings_snoc_none rfl) ?_ (by simp)
      intro k s' hk
      simp only [List.getElem?_set] at hk
      split at hk
      · rename_i hik
        subst hik
        split at hk
        · right
          refine ⟨s, hs, ?_⟩
          have hk := Option.some.inj hk
          intro o ho
          subst hk
          cases s with
          | handout x =>
            simp only [FromOpening, PgConc.advance] at *
            exact ⟨ho, _, List.mem_append_right _ (List.mem_singleton.mpr rfl), rfl, rfl⟩
          | looking x t snap =>
            simp only [PgConc.advance]
            split
            · trivial
            · exact fromOpening_mono (s := .locked x t _) ho
          | locked x t id =>
            simp only [PgConc.advance]
            split <;> trivial
          | unique e uc t => simp only [PgConc.advance]; split <;> exact ho
          | holding e uc t => simp only [PgConc.advance]; split <;> exact ho
          | missing e uc t =>
            simp only [PgConc.advance]
            split
            · trivial
            · exact ho
          | inserted e uc row => trivial
          | found e uc id st =>
            simp only [PgConc.advance]
            split
            · split
              · split
                · trivial
                · split <;> exact ho
              · trivial
            · trivial
          | replacing e uc rep id => trivial
          | done r => trivial
        · simp at hk
      · exact .inl hk
  | abort i =>
    simp only [PgConc.step]
    split
    · exact opened_same H (openings_snoc_none rfl) (fun _ _ h => .inl h) rfl
    · exact opened_same H (openings_snoc_none rfl) (fun _ _ h => .inl h) rfl
    · rename_i s _ hs
      refine opened_same H (openings_snoc_none rfl) ?_ (by simp)
      intro k s' hk
      simp only [List.getElem?_set] at hk
      split at hk
      · rename_i hik
        subst hik
        split at hk
        · exact .inr ⟨_, hs, by intro o _; rw [← Option.some.inj hk]; trivial⟩
        · simp at hk
      · exact .inl hk
  | plain e =>
    simp only [PgConc.step]
    split <;> exact opened_same H (openings_snoc_none rfl) (fun _ _ h => .inl h) rfl
  | stmt o =>
    have : (c.step hash tie now (.stmt o)).2.sessions = c.sessions := by
      cases o <;> simp only [PgConc.step] <;> (try split) <;> rfl
    exact opened_same H (openings_snoc_none rfl) (fun i s' h => .inl (by rw [this] at h; exact h)) (by rw [this])

private theorem run_append (hash : HashFn) (c : PgConc) (as bs : List TPgAct) :
    c.run hash (as ++ bs) = (c.run hash as).run hash bs := by
  induction as generalizing c with
  | nil => rfl
  | cons a as ih => exact ih _

private theorem opened_run (hash : HashFn) (as : List TPgAct) : Opened as (PgConc.run hash {} as) := by
  suffices H : ∀ (bs as : List TPgAct) (c : PgConc), Opened as c → Opened (as ++ bs) (c.run hash bs) by
    simpa using H as [] {} ⟨rfl, by simp⟩
  intro bs
  induction bs with
  | nil => intro as c h; simpa [PgConc.run] using h
  | cons b bs ih =>
    intro as c h
    have := ih (as ++ [b]) _ (opened_step hash h b)
    simpa [PgConc.run] using this

/-- **C45, effect.** In every history, when a hand-out is committed: it was opened for
some executor `x` and took one of its steps at a time `t` such that the row was
eligible for `x` at `t`, until this very moment; in the table exactly this row's
status, attempt (one more) and attempt time change; and the stream yields the row as a
job, or a decoding error if it cannot be read. -/
theorem C45_effect (hash : HashFn) (as : List TPgAct) (a : TPgAct) (row : Row) (res : Res)
    (h : ((PgConc.run hash {} as).step hash a.tie a.now a.act).1 = .handedOut row res) :
    ∃ i x t r, a.act = .advance i ∧ (openings as)[i]? = some (.handout x) ∧
      (∃ b ∈ as, b.act = .advance i ∧ b.now = t) ∧
      r ∈ (PgConc.run hash {} as).pg.rows ∧ RowEligible t x r ∧
      row = { r with status := .executing, attempt := r.attempt + 1, attemptedAt := some (pgTime t) } ∧
      (∀ q, q ∈ ((PgConc.run hash {} as).step hash a.tie a.now a.act).2.pg.rows ↔
        q = row ∨ (q ∈ (PgConc.run hash {} as).pg.rows ∧ q ≠ r)) ∧
      res = match row.decode with
        | some j => .job (some j)
        | none => .err .encodeDecode := by
  have H := pgInv hash as
  have HO := opened_run hash as
  generalize PgConc.run hash {} as = c at *
  obtain ⟨now, tie, act⟩ := a
  simp only at h
  have hadv : ∃ i x t id r, act = .advance i ∧ c.sessions[i]? = some (.locked x t id) ∧
      c.pg.rows.find? (fun r => r.id == id) = some r := by
    cases act with
    | advance i =>
      simp only [PgConc.step] at h
      split at h
      · simp at h
      · rename_i s hs
        cases s with
        | locked x t id =>
          simp only [PgConc.advance] at h
          split at h
          · simp at h
          · rename_i r hr
            exact ⟨i, x, t, id, r, rfl, hs, hr⟩
        | looking x t snap => simp only [PgConc.advance] at h; split at h <;> simp at h
        | unique e uc t => simp only [PgConc.advance] at h; split at h <;> simp at h
        | holding e uc t => simp only [PgConc.advance] at h; split at h <;> simp at h
        | missing e uc t => simp only [PgConc.advance] at h; split at h <;> simp at h
        | found e uc id st =>
          simp only [PgConc.advance] at h
          split at h
          · split at h
            · split at h
              · simp at h
              · split at h <;> simp at h
            · simp at h
          · simp at h
        | _ => simp [PgConc.advance] at h
    | stmt o => cases o <;> simp only [PgConc.step] at h <;> (try split at h) <;> simp at h
    | abort i => simp only [PgConc.step] at h; split at h <;> simp at h
    | plain e => simp only [PgConc.step] at h; split at h <;> simp at h
    | _ => simp [PgConc.step] at h
  obtain ⟨i, x, t, id, r, rfl, hs, hr⟩ := hadv
  have hrm : r ∈ c.pg.rows := List.mem_of_find?_eq_some hr
  have hrid : r.id = id := by simpa using List.find?_some hr
  obtain ⟨r', hr', hid', hrd⟩ := H.lockedReady i x t id hs
  have hrr : r' = r := row_unique H.nodup hr' hrm (by rw [hid', hrid])
  subst hrr
  have hi : i < (openings as).length := by rw [← HO.1]; exact (List.getElem?_eq_some_iff.mp hs).1
  have hfrom := HO.2 i _ _ hs (List.getElem?_eq_getElem hi)
  simp only [FromOpening] at hfrom
  simp only [PgConc.step, hs, PgConc.advance, hr, PgEv.handedOut.injEq] at h ⊢
  refine ⟨i, x, t, r', rfl, ?_, hfrom.2, hrm, ready_iff.mp hrd, ?_, ?_, ?_⟩
  · rw [List.getElem?_eq_getElem hi, hfrom.1]
  · rw [← h.1]; rfl
  · intro q
    rw [updateRows_mem]
    constructor
    · rintro ⟨q', hq', rfl⟩
      by_cases hq : q'.id = id
      · have : q' = r' := row_unique H.nodup hq' hrm (by rw [hq, hrid])
        subst this
        left; rw [if_pos hq]; exact h.1
      · right
        rw [if_neg hq]
        exact ⟨hq', by rintro rfl; exact hq hrid⟩
    · rintro (rfl | ⟨hq, hne⟩)
      · exact ⟨r', hrm, by rw [if_pos hrid]; exact h.1.symm⟩
      · refine ⟨q, hq, ?_⟩
        rw [if_neg]
        intro he
        exact hne (row_unique H.nodup hq hrm (by rw [he, hrid]))
  · rw [← h.2, ← h.1]
    cases (Row.markExecuting t r').decode <;> rfl

/-- A hand-out, with a retry and a second hand-out. -/
def samplePgHistory : List TPgAct :=
  [pgAct 5000 (.plain sampleEnq), pgAct 5000 (.handout "mail"), pgAct 6000 (.advance 0), pgAct 6000 (.advance 0),
    pgAct 6000 (.advance 0), pgAct 7000 (.stmt (.retryable 1 8000 sampleErr)), pgAct 9000 (.handout "mail"),
    pgAct 9000 (.advance 1), pgAct 9000 (.advance 1), pgAct 9000 (.advance 1)]

example : ((PgConc.trace sampleHash {} samplePgHistory).map fun e => (e.handsOut 1, e.putsBack 1)) =
    [(false, false), (false, false), (false, false), (false, false), (true, false), (false, true),
      (false, false), (false, false), (false, false), (true, false)] := by decide

/-! ## C46 -/

/-- Row `id` exists or existed, nothing is about to create it, it is not waiting and no
hand-out has locked it. -/
private structure Idle (id : Int) (c : PgConc) : Prop where
  old : id ≤ (c.pg.seq : Int)
  notPending : ∀ (i : Nat) (e : EnqueuableJob) (uc : Criteria) (row : Row),
    c.sessions[i]? = some (.inserted e uc row) → row.id ≠ id
  notLocked : ∀ (i : Nat) (x : String) (t : Time), c.sessions[i]? ≠ some (.locked x t id)
  notWaiting : ∀ r ∈ c.pg.rows, r.id = id → r.status ≠ .scheduled ∧ r.status ≠ .retryable

private theorem not_ready {t : Time} {x : String} {r : Row}
    (h : r.status ≠ .scheduled ∧ r.status ≠ .retryable) : r.ready t x = false := by
  cases hr : r.ready t x
  · rfl
  · have := (ready_iff.mp hr).waiting
    rcases this with h' | h'
    · exact (h.1 h').elim
    · exact (h.2 h').elim

private theorem idle_update {id id' : Int} {f : Row → Row} {rows : List Row} (hf : ∀ r, (f r).id = r.id)
    (hw : ∀ r, r.status ≠ .scheduled ∧ r.status ≠ .retryable →
      r.id = id → id = id' → (f r).status ≠ .scheduled ∧ (f r).status ≠ .retryable)
    (h : ∀ r ∈ rows, r.id = id → r.status ≠ .scheduled ∧ r.status ≠ .retryable) :
    ∀ r ∈ (updateRows id' f rows).1, r.id = id → r.status ≠ .scheduled ∧ r.status ≠ .retryable := by
  intro r hr hid
  obtain ⟨q, hq, rfl⟩ := updateRows_mem.mp hr
  by_cases hqi : q.id = id'
  · rw [if_pos hqi] at hid ⊢
    rw [hf] at hid
    exact hw q (h q hq hid) hid (by rw [← hid, hqi])
  · rw [if_neg hqi] at hid ⊢
    exact h q hq hid

private theorem set_cases {l : List Session} {i k : Nat} {s s' : Session} (h : (l.set i s)[k]? = some s') :
    (k ≠ i ∧ l[k]? = some s') ∨ (k = i ∧ s' = s) := by
  rw [List.getElem?_set] at h
  split at h
  · rename_i hik
    split at h
    · exact .inr ⟨hik.symm, (Option.some.inj h).symm⟩
    · simp at h
  · rename_i hik
    exact .inl ⟨fun e => hik e.symm, h⟩

private theorem idle_session {id : Int} {c : PgConc} (I : Idle id c) {i : Nat} {s : Session} {pg : Pg}
    (hseq : c.pg.seq ≤ pg.seq)
    (hp : ∀ e uc row, s = .inserted e uc row → row.id ≠ id) (hl : ∀ x t, s ≠ .locked x t id)
    (hw : ∀ r ∈ pg.rows, r.id = id → r.status ≠ .scheduled ∧ r.status ≠ .retryable) :
    Idle id { pg := pg, sessions := c.sessions.set i s } where
  old := by have := I.old; simp only; omega
  notPending := by
    intro k e uc row hk
    rcases set_cases hk with ⟨-, h⟩ | ⟨-, h⟩
    · exact I.notPending k e uc row h
    · exact hp e uc row h.symm
  notLocked := by
    intro k x t hk
    rcases set_cases hk with ⟨-, h⟩ | ⟨-, h⟩
    · exact I.notLocked k x t h
    · exact hl x t h.symm
  notWaiting := hw

private theorem idle_step {id : Int} {c : PgConc} (H : PgInv c) (I : Idle id c) (hash : HashFn) (tie : Int → Nat)
    (now : Time) (a : PgAct) (hb : (c.step hash tie now a).1.putsBack id = false) :
    Idle id (c.step hash tie now a).2 ∧ (c.step hash tie now a).1.handsOut id = false := by
  cases a with
  | handout x =>
    simp only [PgConc.step, PgEv.handsOut, and_true]
    refine ⟨I.old, ?_, ?_, I.notWaiting⟩
    · intro i e uc row h
      simp only at h
      rcases Nat.lt_or_ge i c.sessions.length with hi | hi
      · rw [List.getElem?_append_left hi] at h; exact I.notPending i e uc row h
      · rw [List.getElem?_append_right hi, List.getElem?_singleton] at h
        split at h <;> simp at h
    · intro i y t h
      simp only at h
      rcases Nat.lt_or_ge i c.sessions.length with hi | hi
      · rw [List.getElem?_append_left hi] at h; exact I.notLocked i y t h
      · rw [List.getElem?_append_right hi, List.getElem?_singleton] at h
        split at h <;> simp at h
  | unique e uc =>
    simp only [PgConc.step, PgEv.handsOut, and_true]
    refine ⟨I.old, ?_, ?_, I.notWaiting⟩
    · intro i e uc row h
      simp only at h
      rcases Nat.lt_or_ge i c.sessions.length with hi | hi
      · rw [List.getElem?_append_left hi] at h; exact I.notPending i e uc row h
      · rw [List.getElem?_append_right hi, List.getElem?_singleton] at h
        split at h <;> simp at h
    · intro i y t h
      simp only at h
      rcases Nat.lt_or_ge i c.sessions.length with hi | hi
      · rw [List.getElem?_append_left hi] at h; exact I.notLocked i y t h
      · rw [List.getElem?_append_right hi, List.getElem?_singleton] at h
        split at h <;> simp at h
  | abort i =>
    simp only [PgConc.step]
    split
    · exact ⟨I, rfl⟩
    · exact ⟨I, rfl⟩
    · exact ⟨idle_session I (Nat.le_refl _) (by simp) (by simp) I.notWaiting, rfl⟩
  | plain e =>
    simp only [PgConc.step]
    split
    · exact ⟨I, rfl⟩
    · refine ⟨⟨?_, I.notPending, I.notLocked, ?_⟩, rfl⟩
      · have := I.old; simp only; omega
      · intro r hr hid
        rcases List.mem_append.mp hr with hr | hr
        · exact I.notWaiting r hr hid
        · rw [List.mem_singleton.mp hr] at hid
          have := I.old
          simp only [EnqueuableJob.toRow] at hid
          omega
  | stmt o =>
    by_cases hload : ∃ x, o = .load x
    · obtain ⟨x, rfl⟩ := hload; exact ⟨I, rfl⟩
    have hstep : c.step hash tie now (.stmt o) =
        if (o.needs tie now c.pg.rows).any c.rowLocked then (.blocked, c)
        else (.stmt o (c.pg.step tie now o).1, { c with pg := (c.pg.step tie now o).2 }) := by
      cases o <;> first | (exact (hload ⟨_, rfl⟩).elim) | (simp only [PgConc.step])
    rw [hstep] at hb ⊢
    split at hb
    · rw [if_pos (by assumption)]; exact ⟨I, rfl⟩
    · rw [if_neg (by assumption)]
      refine ⟨?_, rfl⟩
      have key : ∀ id' f, (∀ r : Row, (f r).id = r.id) →
          (c.pg.onRow id' f).1 = (c.pg.step tie now o).1 →
          c.pg.step tie now o = c.pg.onRow id' f →
          ((c.pg.onRow id' f).1 = .unit → ∀ r, r.status ≠ .scheduled ∧ r.status ≠ .retryable → r.id = id → id = id' →
            (f r).status ≠ .scheduled ∧ (f r).status ≠ .retryable) →
          Idle id { c with pg := (c.pg.step tie now o).2 } := by
        intro id' f hf _ he hw
        rw [he]
        rcases onRow_cases id' f c.pg H.nodup with ⟨-, h⟩ | ⟨-, h⟩
        · rw [h]; exact I
        · rw [h]
          rw [h] at hw
          exact ⟨I.old, I.notPending, I.notLocked, idle_update hf (hw rfl) I.notWaiting⟩
      simp only [PgEv.putsBack] at hb
      cases o with
      | complete i => exact key i (Row.markComplete now) (fun _ => rfl) rfl rfl (by intro _ r _ _ _; simp [Row.markComplete])
      | retryable i next e =>
        refine key i (Row.markRetryable now next e) (fun _ => rfl) rfl rfl ?_
        intro hu r _ _ hi
        simp only [Pg.step, hu] at hb
        simp [hi] at hb
      | discarded i e => exact key i (Row.markDiscarded now e) (fun _ => rfl) rfl rfl (by intro _ r _ _ _; simp [Row.markDiscarded])
      | cancelled i e => exact key i (Row.markCancelled now e) (fun _ => rfl) rfl rfl (by intro _ r _ _ _; simp [Row.markCancelled])
      | snoozed i next =>
        refine key i (Row.markSnoozed next) (fun _ => rfl) rfl rfl ?_
        intro hu r _ _ hi
        simp only [Pg.step, hu] at hb
        simp [hi] at hb
      | rerun i =>
        refine key i (Row.markRerunable now) (fun _ => rfl) rfl rfl ?_
        intro hu r _ _ hi
        simp only [Pg.step, hu] at hb
        simp [hi] at hb
      | update job => exact key job.id (Row.update job) (fun _ => rfl) rfl rfl (by intro _ r h _ _; exact h)
      | prune spec =>
        refine ⟨I.old, I.notPending, I.notLocked, ?_⟩
        intro r hr hid
        exact I.notWaiting r (prune_mem.mp hr).1 hid
      | query q => exact I
      | load x => exact (hload ⟨x, rfl⟩).elim
      | subscribe x => exact I
      | notifyAll => exact I
  | advance i =>
    simp only [PgConc.step]
    split
    · exact ⟨I, rfl⟩
    · rename_i s hs
      cases s with
      | handout x => exact ⟨idle_session I (Nat.le_refl _) (by simp [PgConc.advance]) (by simp [PgConc.advance]) I.notWaiting, rfl⟩
      | looking x t snap =>
        simp only [PgConc.advance]
        split
        · exact ⟨idle_session I (Nat.le_refl _) (by simp) (by simp) I.notWaiting, rfl⟩
        · rename_i r hr
          refine ⟨idle_session I (Nat.le_refl _) (by simp) ?_ I.notWaiting, rfl⟩
          intro x' t' he
          simp only [Session.locked.injEq] at he
          have hp := List.find?_some hr
          simp only [Bool.and_eq_true, List.any_eq_true, beq_iff_eq] at hp
          obtain ⟨-, r', hr', hid, hrd⟩ := hp
          rw [not_ready (I.notWaiting r' hr' (by rw [hid, he.2.2]))] at hrd
          simp at hrd
      | locked x t id' =>
        have hne : id' ≠ id := by rintro rfl; exact I.notLocked i x t hs
        simp only [PgConc.advance]
        split
        · exact ⟨idle_session I (Nat.le_refl _) (by simp) (by simp) I.notWaiting, rfl⟩
        · rename_i r hr
          refine ⟨idle_session I (Nat.le_refl _) (by simp) (by simp)
            (idle_update (f := Row.markExecuting t) (fun _ => rfl) (by intro r _ _ _; simp [Row.markExecuting]) I.notWaiting), ?_⟩
          have : r.id = id' := by simpa using List.find?_some hr
          simp [PgEv.handsOut, Row.markExecuting, this, hne]
      | unique e uc t =>
        simp only [PgConc.advance]
        split <;> exact ⟨idle_session I (Nat.le_refl _) (by simp) (by simp) I.notWaiting, rfl⟩
      | holding e uc t =>
        simp only [PgConc.advance]
        split <;> exact ⟨idle_session I (Nat.le_refl _) (by simp) (by simp) I.notWaiting, rfl⟩
      | missing e uc t =>
        simp only [PgConc.advance]
        split
        · exact ⟨idle_session I (Nat.le_refl _) (by simp) (by simp) I.notWaiting, rfl⟩
        · refine ⟨idle_session I (by simp) ?_ (by simp) I.notWaiting, rfl⟩
          intro e' uc' row h
          simp only [Session.inserted.injEq] at h
          obtain ⟨-, -, rfl⟩ := h
          have := I.old
          simp only [EnqueuableJob.toRow]
          omega
      | inserted e uc row =>
        refine ⟨idle_session I (Nat.le_refl _) (by simp [PgConc.advance]) (by simp [PgConc.advance]) ?_, rfl⟩
        intro r hr hid
        rcases List.mem_append.mp hr with hr | hr
        · exact I.notWaiting r hr hid
        · rw [List.mem_singleton.mp hr] at hid
          exact (I.notPending i e uc row hs hid).elim
      | found e uc id' st =>
        simp only [PgConc.advance]
        split
        · split
          · split
            · exact ⟨idle_session I (Nat.le_refl _) (by simp) (by simp) I.notWaiting, rfl⟩
            · split <;> exact ⟨idle_session I (Nat.le_refl _) (by simp) (by simp) I.notWaiting, rfl⟩
          · exact ⟨idle_session I (Nat.le_refl _) (by simp) (by simp) I.notWaiting, rfl⟩
        · exact ⟨idle_session I (Nat.le_refl _) (by simp) (by simp) I.notWaiting, rfl⟩
      | replacing e uc rep id' =>
        refine ⟨idle_session I (Nat.le_refl _) (by simp [PgConc.advance]) (by simp [PgConc.advance]) ?_, rfl⟩
        exact idle_update (f := Row.replace rep e) (fun _ => rfl) (by intro r h _ _; exact h) I.notWaiting
      | done r => exact ⟨idle_session I (Nat.le_refl _) (by simp [PgConc.advance]) (by simp [PgConc.advance]) I.notWaiting, rfl⟩

private theorem idle_trace {id : Int} {hash : HashFn} {as : List TPgAct} {c : PgConc} (H : PgInv c) (I : Idle id c)
    {mid post : List PgEv} {e : PgEv} (h : c.trace hash as = mid ++ e :: post) (he : e.handsOut id = true) :
    ∃ b ∈ mid, b.putsBack id = true := by
  induction mid generalizing c as with
  | nil =>
    cases as with
    | nil => simp [PgConc.trace] at h
    | cons a as =>
      simp only [PgConc.trace, List.nil_append, List.cons.injEq] at h
      have hb : (c.step hash a.tie a.now a.act).1.putsBack id = false := by
        rw [h.1]; cases e <;> simp_all [PgEv.handsOut, PgEv.putsBack]
      have := (idle_step H I hash a.tie a.now a.act hb).2
      rw [h.1, he] at this; simp at this
  | cons m mid ih =>
    cases as with
    | nil => simp [PgConc.trace] at h
    | cons a as =>
      simp only [PgConc.trace, List.cons_append, List.cons.injEq] at h
      cases hb : (c.step hash a.tie a.now a.act).1.putsBack id with
      | true => exact ⟨m, by simp, by rw [← h.1]; exact hb⟩
      | false =>
        obtain ⟨b, hm, hbb⟩ := ih (H.step hash a.tie a.now a.act) (idle_step H I hash a.tie a.now a.act hb).1 h.2
        exact ⟨b, List.mem_cons_of_mem _ hm, hbb⟩

/-- **C46.** In every interleaving of any number of nodes handing out, enqueueing and
calling, with any choices of the database: between two committed hand-outs of the same
row there is a successful retry, snooze or rerun of it. -/
theorem C46_no_double_handout (hash : HashFn) (as : List TPgAct) (id : Int)
    (pre mid post : List PgEv) (e₁ e₂ : PgEv)
    (h : PgConc.trace hash {} as = pre ++ e₁ :: (mid ++ e₂ :: post))
    (h₁ : e₁.handsOut id = true) (h₂ : e₂.handsOut id = true) :
    ∃ e ∈ mid, e.putsBack id = true := by
  obtain ⟨as₁, a, as₂, -, -, he, htr⟩ := PgConc.trace_split h
  have H := pgInv hash as₁
  cases e₁ with
  | handedOut row res =>
    simp only [PgEv.handsOut, beq_iff_eq] at h₁
    obtain ⟨i, x, t, r, ha, -, -, hr, -, hrow, hrows, -⟩ := C45_effect hash as₁ a row res he
    generalize hc : PgConc.run hash {} as₁ = c at *
    have H' := H.step hash a.tie a.now a.act
    refine idle_trace H' ?_ htr h₂
    have hrid : r.id = id := by rw [← h₁, hrow]
    rw [ha] at he ⊢
    have hlocked : ∃ x t, c.sessions[i]? = some (.locked x t id) := by
      simp only [PgConc.step] at he
      split at he
      · simp at he
      · rename_i s hs
        cases s with
        | locked x t id' =>
          simp only [PgConc.advance] at he
          split at he
          · simp at he
          · rename_i r' hr'
            have h1 : r'.id = id' := by simpa using List.find?_some hr'
            simp only [PgEv.handedOut.injEq] at he
            have : row.id = id' := by rw [← he.1, ← h1]; rfl
            exact ⟨x, t, by rw [hs, ← h₁, this]⟩
        | looking x t snap => simp only [PgConc.advance] at he; split at he <;> simp at he
        | unique e uc t => simp only [PgConc.advance] at he; split at he <;> simp at he
        | holding e uc t => simp only [PgConc.advance] at he; split at he <;> simp at he
        | missing e uc t => simp only [PgConc.advance] at he; split at he <;> simp at he
        | found e uc id st =>
          simp only [PgConc.advance] at he
          split at he
          · split at he
            · split at he
              · simp at he
              · split at he <;> simp at he
            · simp at he
          · simp at he
        | _ => simp [PgConc.advance] at he
    obtain ⟨x', t', hl⟩ := hlocked
    have hmem : id ∈ rowIds c.pg.rows := mem_rowIds.mpr ⟨r, hr, hrid⟩
    have hf : c.pg.rows.find? (fun r => r.id == id) = some r := by
      cases hff : c.pg.rows.find? (fun r => r.id == id) with
      | none => have := List.find?_eq_none.mp hff r hr; simp [hrid] at this
      | some r' =>
        have h1 : r'.id = id := by simpa using List.find?_some hff
        rw [row_unique H.nodup (List.mem_of_find?_eq_some hff) hr (by rw [h1, hrid])]
    have hst : (c.step hash a.tie a.now (.advance i)).2 =
        { pg := { c.pg with rows := (updateRows id (Row.markExecuting t') c.pg.rows).1 },
          sessions := c.sessions.set i (.done (match (r.markExecuting t').decode with
            | none => Res.err .encodeDecode
            | some j => .job (some j))) } := by
      simp only [PgConc.step, hl, PgConc.advance, hf]
      rfl
    rw [hst]
    refine ⟨H.bound id hmem, ?_, ?_, ?_⟩
    · intro k e uc row' hk
      rcases set_cases hk with ⟨-, h⟩ | ⟨-, h⟩
      · intro e'
        exact (H.pending k e uc row' h).2 (by rw [e']; exact hmem)
      · simp at h
    · intro k y s hk
      rcases set_cases hk with ⟨hki, h⟩ | ⟨-, h⟩
      · exact hki (H.lockOne k i _ _ id h hl rfl rfl)
      · simp at h
    · intro q hq hqid
      obtain ⟨q', -, rfl⟩ := updateRows_mem.mp hq
      by_cases hqq : q'.id = id
      · rw [if_pos hqq]; simp [Row.markExecuting]
      · rw [if_neg hqq] at hqid; exact (hqq hqid).elim
  | _ => simp [PgEv.handsOut] at h₁

example : ∃ pre mid post e₁ e₂, PgConc.trace sampleHash {} samplePgHistory = pre ++ e₁ :: (mid ++ e₂ :: post) ∧
    PgEv.handsOut 1 e₁ = true ∧ PgEv.handsOut 1 e₂ = true :=
  ⟨(PgConc.trace sampleHash {} samplePgHistory).take 4, ((PgConc.trace sampleHash {} samplePgHistory).drop 5).take 4, [],
    _, _, rfl, by decide, by decide⟩

end Rexecutor
