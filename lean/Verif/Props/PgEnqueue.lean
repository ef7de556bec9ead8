import Verif.Lemmas.PgRow
import Verif.Spec.Samples
import Verif.Props.PgUnique

/-! # C71, C72: unique enqueues on Postgres next to other calls -/

namespace Rexecutor

/-! ## One session, step by step -/

/-- What is known of the session of a unique enqueue of `e` that has not checked before:
`K` of the row it found, `D` of the number it returned. -/
private def Phase (e : EnqueuableJob) (uc : Criteria) (K : Int → JobStatus → Prop) (D : Int → Prop) : Session → Prop
  | .holding e' uc' _ => e' = e ∧ uc' = uc
  | .missing e' uc' _ => e' = e ∧ uc' = uc
  | .found e' uc' id st => e' = e ∧ uc' = uc ∧ K id st
  | .replacing e' uc' rep id => e' = e ∧ uc' = uc ∧ uc.onConflict = .replace rep ∧ ∃ st, st ∈ rep.forStatuses ∧ K id st
  | .inserted e' uc' _ => e' = e ∧ uc' = uc
  | .done (.id id) => D id
  | .done _ => True
  | _ => False

private theorem Phase.mono {e : EnqueuableJob} {uc : Criteria} {K K' : Int → JobStatus → Prop} {D D' : Int → Prop} {s : Session}
    (h : Phase e uc K D s) (hK : ∀ id st, K id st → K' id st) (hD : ∀ id, D id → D' id) : Phase e uc K' D' s := by
  cases s with
  | found => exact ⟨h.1, h.2.1, hK _ _ h.2.2⟩
  | replacing => obtain ⟨h1, h2, h3, st, h4, h5⟩ := h; exact ⟨h1, h2, h3, st, h4, hK _ _ h5⟩
  | done r => cases r with
    | id i => exact hD _ h
    | _ => trivial
  | _ => exact h

private theorem phase_advance {e : EnqueuableJob} {uc : Criteria} {K : Int → JobStatus → Prop} {D : Int → Prop}
    {hash : HashFn} {tie : Int → Nat} {now : Time} {c : PgConc} {s : Session} (h : Phase e uc K D s)
    (hK : ∀ r ∈ c.pg.rows, uc.finds e.executor e.scheduledAt r = true → K r.id r.status)
    (hD : ∀ id st, K id st → D id)
    (hI : ∀ row, s = .inserted e uc row → D row.id) :
    Phase e uc K D (c.advance hash tie now s).2.1 := by
  cases s with
  | handout => exact h.elim
  | looking => exact h.elim
  | locked => exact h.elim
  | unique => exact h.elim
  | holding e' uc' t =>
    obtain ⟨rfl, rfl⟩ := h
    simp only [PgConc.advance]
    split
    · exact ⟨rfl, rfl⟩
    · rename_i r l hl
      have hm : r ∈ sortBy (fun a b => decide (tie a.id ≤ tie b.id))
          (c.pg.rows.filter fun r => uc'.finds e'.executor e'.scheduledAt r) := by rw [hl]; simp
      have hf := List.mem_filter.mp ((sortBy_perm _ _).mem_iff.mp hm)
      exact ⟨rfl, rfl, hK r hf.1 hf.2⟩
  | missing e' uc' t =>
    obtain ⟨rfl, rfl⟩ := h
    simp only [PgConc.advance]
    split
    · trivial
    · exact ⟨rfl, rfl⟩
  | found e' uc' id st =>
    obtain ⟨rfl, rfl, hk⟩ := h
    simp only [PgConc.advance]
    split
    · rename_i rep hrep
      split
      · rename_i hst
        split
        · trivial
        · split
          · exact ⟨rfl, rfl, hk⟩
          · exact ⟨rfl, rfl, hrep, st, List.contains_iff_mem.mp hst, hk⟩
      · exact hD _ _ hk
    · exact hD _ _ hk
  | inserted e' uc' row => obtain ⟨rfl, rfl⟩ := h; exact hI row rfl
  | replacing e' uc' rep id => obtain ⟨-, -, -, st, -, hk⟩ := h; exact hD _ _ hk
  | done r => exact h

/-! ## C71 -/

/-- **C71, negation.** On Postgres a unique enqueue can succeed and leave nothing
behind: the job it found is pruned between its check and its return. Here the pruner
removes the scheduled job 1, and the enqueue reports job 1 while the table is empty,
so no job of the executor will ever run. -/
theorem C71_violated :
    ∃ as : List TPgAct, (∀ a ∈ as, a.now = 0) ∧
      (PgConc.run sampleHash {} as).sessions = [.done (.id 1)] ∧ (PgConc.run sampleHash {} as).pg.rows = [] := by
  refine ⟨[pgAct 0 (.plain sampleEnq),
    pgAct 0 (.unique sampleEnq { executor := true, statuses := [.scheduled] }),
    pgAct 0 (.advance 0), pgAct 0 (.advance 0),
    pgAct 0 (.stmt (.prune { status := .scheduled, pruneBy := .maxLength 0, executors := .except [] })),
    pgAct 0 (.advance 0)], ?_, ?_, ?_⟩ <;> decide

/-- **C71, what holds.** In every schedule: the number a unique enqueue returns is that
of a job that was inserted; and the job is in the table when the enqueue returns, if
no prune was committed since the enqueue held its lock (`as` is the schedule up to
some moment at which it holds the lock and has not checked yet, `bs` what follows). -/
theorem C71_names_stored_job_partial (hash : HashFn) (as bs : List TPgAct) (i : Nat) (e : EnqueuableJob) (uc : Criteria)
    (t : Time) (id : Int)
    (h0 : (PgConc.run hash {} as).sessions[i]? = some (.holding e uc t))
    (h1 : (PgConc.run hash {} (as ++ bs)).sessions[i]? = some (.done (.id id))) :
    id ∈ pgInserted (PgConc.history hash {} (as ++ bs)) ∧
    ((∀ x ∈ (PgConc.run hash {} as).history hash bs, ∀ spec, x.ev ≠ .stmt (.prune spec) .unit) →
      id ∈ (PgConc.run hash {} (as ++ bs)).pg.rows.map (·.id)) := by
  have I := pgHist hash as
  have H := PgInv.init.run hash as
  rw [PgConc.run_append] at h1 ⊢
  rw [PgConc.history_append]
  generalize PgConc.run hash {} as = c at *
  generalize PgConc.history hash {} as = h at *
  have key := pg_history_from (hash := hash) (c := c) (h := h)
    (fun h' c' => PgHist h' c' ∧ ∃ h₂ s, h' = h ++ h₂ ∧ c'.sessions[i]? = some s ∧
      Phase e uc (fun id _ => id ∈ pgInserted h' ∧ ((∀ x ∈ h₂, ∀ spec, x.ev ≠ .stmt (.prune spec) .unit) → id ∈ rowIds c'.pg.rows))
        (fun id => id ∈ pgInserted h' ∧ ((∀ x ∈ h₂, ∀ spec, x.ev ≠ .stmt (.prune spec) .unit) → id ∈ rowIds c'.pg.rows)) s)
    ?_ bs H ⟨I, [], _, by simp, h0, rfl, rfl⟩
  · obtain ⟨I', h₂, s, hh, hs, hp⟩ := key
    rw [h1] at hs
    cases hs
    have : h₂ = c.history hash bs := (List.append_cancel_left hh).symm
    subst this
    exact hp
  · rintro h' c' a H' ⟨I', h₂, s, rfl, hs, hp⟩
    have I'' := I'.step H' hash a.tie a.now a.act
    refine ⟨I'', h₂ ++ [⟨a.now, (c'.step hash a.tie a.now a.act).1⟩], ?_⟩
    have hlt : i < (c'.step hash a.tie a.now a.act).2.sessions.length :=
      Nat.lt_of_lt_of_le (List.getElem?_eq_some_iff.mp hs).1 sessions_length_mono
    obtain ⟨s', hs'⟩ : ∃ s', (c'.step hash a.tie a.now a.act).2.sessions[i]? = some s' := ⟨_, List.getElem?_eq_getElem hlt⟩
    have T := table_step H' hash a.tie a.now a.act
    have grow : ∀ id, id ∈ pgInserted (h ++ h₂) ∧
        ((∀ x ∈ h₂, ∀ spec, x.ev ≠ .stmt (.prune spec) .unit) → id ∈ rowIds c'.pg.rows) →
        id ∈ pgInserted ((h ++ h₂) ++ [⟨a.now, (c'.step hash a.tie a.now a.act).1⟩]) ∧
        ((∀ x ∈ h₂ ++ [⟨a.now, (c'.step hash a.tie a.now a.act).1⟩], ∀ spec, x.ev ≠ .stmt (.prune spec) .unit) →
          id ∈ rowIds (c'.step hash a.tie a.now a.act).2.pg.rows) := by
      rintro id ⟨hi, hr⟩
      refine ⟨mem_pgInserted_append.mpr (.inl hi), fun hq => ?_⟩
      obtain ⟨r, hmr, rfl⟩ := mem_rowIds.mp (hr fun x hx => hq x (List.mem_append_left _ hx))
      rcases T.forth hmr with ⟨spec, he⟩ | ⟨r', hr', hid, -⟩
      · exact (hq ⟨a.now, _⟩ (by simp) spec he).elim
      · exact mem_rowIds.mpr ⟨r', hr', hid⟩
    refine ⟨s', by rw [List.append_assoc], hs', ?_⟩
    rcases session_at hs hs' with rfl | ⟨ha, rfl⟩ | rfl
    · exact hp.mono (fun id _ => grow id) grow
    · refine phase_advance (hp.mono (fun id _ => grow id) grow) ?_ (fun _ _ hk => hk) ?_
      · intro r hr hf
        refine grow r.id ⟨I'.ids r hr, fun _ => mem_rowIds.mpr ⟨r, hr, rfl⟩⟩
      · rintro row rfl
        have he : (c'.step hash a.tie a.now a.act).1 = .inserted row (some uc) := by
          rw [ha]; simp only [PgConc.step, hs]; rfl
        refine ⟨mem_pgInserted_append.mpr (.inr (by simp [he, PgEv.inserts])), fun _ => ?_⟩
        rw [ha]; simp only [PgConc.step, hs, PgConc.advance]
        exact mem_rowIds.mpr ⟨row, by simp, rfl⟩
    · trivial

example : let as := [pgAct 0 (.plain sampleEnq), pgAct 0 (.unique sampleEnq { executor := true, statuses := [.scheduled] }), pgAct 0 (.advance 0)]
    let bs := [pgAct 0 (.advance 0), pgAct 0 (.plain sampleEnq), pgAct 0 (.advance 0)]
    (PgConc.run sampleHash {} as).sessions[0]? = some (.holding sampleEnq { executor := true, statuses := [.scheduled] } 0) ∧
    (PgConc.run sampleHash {} (as ++ bs)).sessions[0]? = some (.done (.id 1)) ∧
    (PgConc.run sampleHash {} (as ++ bs)).pg.rows.map (·.id) = [1, 2] := by decide

/-! ## C72 -/

/-- The session of a unique enqueue belongs to a call of the schedule. -/
private theorem session_call {hash : HashFn} (as : List TPgAct) : ∀ s ∈ (PgConc.run hash {} as).sessions,
    match s with
    | .unique e uc _ | .holding e uc _ | .missing e uc _ | .found e uc _ _ => ∃ a ∈ as, a.act = .unique e uc
    | .replacing e uc rep _ => uc.onConflict = .replace rep ∧ ∃ a ∈ as, a.act = .unique e uc
    | _ => True := by
  induction as using snoc_induction with
  | nil => intro s hs; exact absurd hs (by simp [PgConc.run])
  | snoc as a ih =>
    intro s hs
    rw [PgConc.run_append] at hs
    have old : ∀ e uc, (∃ b ∈ as, TPgAct.act b = .unique e uc) → ∃ b ∈ as ++ [a], TPgAct.act b = .unique e uc :=
      fun e uc ⟨b, hb, h⟩ => ⟨b, List.mem_append_left _ hb, h⟩
    rcases session_back hs with hs | hf
    · have := ih s hs
      cases s with
      | replacing => exact ⟨this.1, old _ _ this.2⟩
      | unique => exact old _ _ this
      | holding => exact old _ _ this
      | missing => exact old _ _ this
      | found => exact old _ _ this
      | _ => trivial
    · cases s with
      | replacing e uc rep id => obtain ⟨st, hm, h1, -⟩ := hf; exact ⟨h1, old _ _ (ih _ hm)⟩
      | unique e uc t => exact ⟨a, by simp, hf.1⟩
      | holding e uc t => exact old _ _ (ih _ hf)
      | missing e uc t => exact old _ _ (ih _ hf)
      | found e uc id st => obtain ⟨⟨t, hm⟩, -⟩ := hf; exact old _ _ (ih _ hm)
      | _ => trivial

/-- What an update by a replace resolution looks like. -/
private theorem replaced_by {c : PgConc} {hash : HashFn} {tie : Int → Nat} {now : Time} {a : PgAct} {id : Int}
    (h : (c.step hash tie now a).1 = .replaced id) :
    ∃ i e uc rep, a = .advance i ∧ c.sessions[i]? = some (.replacing e uc rep id) ∧
      (c.step hash tie now a).2.pg = { c.pg with rows := (updateRows id (Row.replace rep e) c.pg.rows).1 } := by
  cases a with
  | handout x => simp [PgConc.step] at h
  | unique e uc => simp [PgConc.step] at h
  | abort i => simp only [PgConc.step] at h; split at h <;> simp at h
  | plain e => simp only [PgConc.step] at h; split at h <;> simp at h
  | stmt o => cases o <;> simp only [PgConc.step] at h <;> first | (split at h <;> cases h) | cases h
  | advance i =>
    simp only [PgConc.step] at h ⊢
    split at h
    · simp at h
    · rename_i s hi
      cases s with
      | replacing e uc rep id' =>
        simp only [PgConc.advance, PgEv.replaced.injEq] at h
        subst h
        exact ⟨i, e, uc, rep, rfl, hi, by simp only [PgConc.advance]⟩
      | inserted e uc' row' => simp [PgConc.advance] at h
      | handout x => simp [PgConc.advance] at h
      | done r => simp [PgConc.advance] at h
      | looking x t snap => simp only [PgConc.advance] at h; split at h <;> simp at h
      | unique e uc t => simp only [PgConc.advance] at h; split at h <;> simp at h
      | holding e uc t => simp only [PgConc.advance] at h; split at h <;> simp at h
      | missing e uc t => simp only [PgConc.advance] at h; split at h <;> simp at h
      | found e uc id st =>
        simp only [PgConc.advance] at h
        split at h
        · split at h
          · split at h
            · simp at h
            · split at h <;> simp at h
          · simp at h
        · simp at h
      | locked x t id => simp only [PgConc.advance] at h; split at h <;> simp at h

/-- **C72, fields.** In every schedule, when a unique enqueue commits its update of job
`id`, the update is due to some call with a replace resolution; it sets exactly the
fields flagged there to the values of that call's job, in job `id` only. Status,
attempt number, errors and timestamps stay, so a job in progress is never made
available again. -/
theorem C72_fields (hash : HashFn) (as : List TPgAct) (a : TPgAct) (id : Int)
    (h : ((PgConc.run hash {} as).step hash a.tie a.now a.act).1 = .replaced id) :
    ∃ b ∈ as, ∃ e uc rep, b.act = .unique e uc ∧ uc.onConflict = .replace rep ∧
      ∀ k : Nat, ((PgConc.run hash {} as).step hash a.tie a.now a.act).2.pg.rows[k]? =
        (PgConc.run hash {} as).pg.rows[k]?.map fun q =>
          if q.id = id then
            { q with
              scheduledAt := if rep.scheduledAt then pgTime e.scheduledAt else q.scheduledAt
              data := if rep.data then e.data else q.data
              metadata := if rep.metadata then e.metadata else q.metadata
              priority := if rep.priority then e.priority else q.priority
              maxAttempts := if rep.maxAttempts then e.maxAttempts else q.maxAttempts }
          else q := by
  obtain ⟨i, e, uc, rep, -, hs, hpg⟩ := replaced_by h
  obtain ⟨hc, b, hb, hact⟩ := session_call as _ (List.mem_of_getElem? hs)
  refine ⟨b, hb, e, uc, rep, hact, hc, fun k => ?_⟩
  rw [hpg]
  simp only [updateRows, List.getElem?_map]
  cases (PgConc.run hash {} as).pg.rows[k]? with
  | none => rfl
  | some q =>
    simp only [Option.map_some, Option.some.injEq]
    split <;> simp [Row.replace]

/-- **C72, otherwise.** Every other step of a unique enqueue leaves all existing rows as
they are; at most it adds a row at the end. -/
theorem C72_otherwise (hash : HashFn) (tie : Int → Nat) (now : Time) (c : PgConc) (i : Nat) (s : Session)
    (hs : c.sessions[i]? = some s) (hq : s.enqueuing = true)
    (h : ∀ id, (c.step hash tie now (.advance i)).1 ≠ .replaced id) :
    c.pg.rows <+: (c.step hash tie now (.advance i)).2.pg.rows ∧
    (c.step hash tie now (.advance i)).2.pg.rows.length ≤ c.pg.rows.length + 1 := by
  have key : (c.step hash tie now (.advance i)).2.pg.rows = c.pg.rows ∨
      ∃ row, (c.step hash tie now (.advance i)).2.pg.rows = c.pg.rows ++ [row] := by
    revert h
    simp only [PgConc.step, hs]
    cases s with
    | handout => cases hq
    | looking => cases hq
    | locked => cases hq
    | done => cases hq
    | unique e uc t => intro _; simp only [PgConc.advance]; split <;> exact .inl rfl
    | holding e uc t => intro _; simp only [PgConc.advance]; split <;> exact .inl rfl
    | missing e uc t => intro _; simp only [PgConc.advance]; split <;> exact .inl rfl
    | inserted e uc row => intro _; exact .inr ⟨row, rfl⟩
    | replacing e uc rep id => intro h; exact (h id rfl).elim
    | found e uc id st =>
      intro _
      simp only [PgConc.advance]
      split
      · split
        · split
          · exact .inl rfl
          · split <;> exact .inl rfl
        · exact .inl rfl
      · exact .inl rfl
  rcases key with h | ⟨row, h⟩ <;> rw [h] <;> simp

private theorem finds_concerns {uc : Criteria} {x : String} {t : Time} {r : Row} (h : uc.finds x t r = true) : Concerns uc x r := by
  simp only [Criteria.finds, Bool.and_eq_true, Bool.or_eq_true, Bool.not_eq_true', beq_iff_eq, List.contains_iff_mem] at h
  exact ⟨h.1.1.1, fun he => by simpa [he] using h.1.2⟩

/-- A unique enqueue that replaces the data of a scheduled job. -/
def replaceCriteria : Criteria :=
  { executor := true, statuses := [.scheduled], onConflict := .replace { data := true, forStatuses := [.scheduled] } }

/-- Job 1, a unique enqueue which has found it, and the hand-out of job 1. -/
def overtakenHistory : List TPgAct :=
  [pgAct 0 (.plain sampleEnq), pgAct 0 (.unique { sampleEnq with data := .str "new" } replaceCriteria),
    pgAct 0 (.advance 0), pgAct 0 (.advance 0),
    pgAct 1 (.handout "mail"), pgAct 1 (.advance 1), pgAct 1 (.advance 1), pgAct 1 (.advance 1),
    pgAct 2 (.advance 0)]

/-- **C72, negation.** The status is that of the check, not that of the update: a
replacement for scheduled jobs only is applied to a job which is being executed (its
executor works on the old data, which is then no longer stored). -/
theorem C72_violated :
    ∃ as : List TPgAct, ∃ a : TPgAct,
      (∀ b ∈ as, ∀ e uc, b.act = .unique e uc → uc.onConflict = .replace { data := true, forStatuses := [.scheduled] }) ∧
      (∃ id, ((PgConc.run sampleHash {} as).step sampleHash a.tie a.now a.act).1 = .replaced id) ∧
      ((PgConc.run sampleHash {} as).pg.rows.map fun r => (r.id, r.status, r.data)) = [(1, .executing, .str "hello")] ∧
      (((PgConc.run sampleHash {} as).step sampleHash a.tie a.now a.act).2.pg.rows.map fun r => (r.id, r.status, r.data)) =
        [(1, .executing, .str "new")] := by
  refine ⟨overtakenHistory, pgAct 2 (.advance 0), ?_, ⟨1, rfl⟩, by decide, by decide⟩
  intro b hb e uc he
  simp only [overtakenHistory, List.mem_cons, List.not_mem_nil, or_false] at hb
  rcases hb with rfl | rfl | rfl | rfl | rfl | rfl | rfl | rfl | rfl <;> simp only [pgAct, PgAct.unique.injEq, reduceCtorEq] at he
  obtain ⟨-, rfl⟩ := he
  rfl

/-- **C72, what holds.** If no event touched job `id` between the moment at which the
enqueue held its lock and its update, then the job updated is one the criteria are
about and its status is one of those the replacement is for. -/
theorem C72_status_partial (hash : HashFn) (as bs : List TPgAct) (i : Nat) (e : EnqueuableJob) (uc : Criteria)
    (t : Time) (a : TPgAct) (id : Int)
    (h0 : (PgConc.run hash {} as).sessions[i]? = some (.holding e uc t))
    (hb : ∀ x ∈ (PgConc.run hash {} as).history hash bs, x.ev.touches id = false)
    (ha : a.act = .advance i)
    (h : ((PgConc.run hash {} (as ++ bs)).step hash a.tie a.now a.act).1 = .replaced id) :
    ∃ rep, uc.onConflict = .replace rep ∧
      ∀ r ∈ (PgConc.run hash {} (as ++ bs)).pg.rows, r.id = id → r.status ∈ rep.forStatuses ∧
        Concerns uc e.executor r ∧ (WholeTimes e uc → PgDuplicate e uc r) := by
  have I := pgHist hash as
  have H := PgInv.init.run hash as
  rw [PgConc.run_append] at h ⊢
  generalize PgConc.run hash {} as = c at *
  generalize PgConc.history hash {} as = hh at *
  have key := pg_history_from (hash := hash) (c := c) (h := hh)
    (fun h' c' => PgHist h' c' ∧ ∃ h₂ s, h' = hh ++ h₂ ∧ c'.sessions[i]? = some s ∧
      ((∀ x ∈ h₂, x.ev.touches id = false) → 
        Phase e uc (fun id' st => id' = id → id ∈ pgInserted h' ∧
          ∀ r ∈ c'.pg.rows, r.id = id → r.status = st ∧ uc.finds e.executor e.scheduledAt r = true) (fun _ => True) s))
    ?_ bs H ⟨I, [], _, by simp, h0, fun _ => ⟨rfl, rfl⟩⟩
  · obtain ⟨I', h₂, s, he, hs, hp⟩ := key
    have : h₂ = c.history hash bs := (List.append_cancel_left he).symm
    subst this
    have hp := hp hb
    obtain ⟨j, e', uc', rep, hj, hs', -⟩ := replaced_by h
    rw [ha] at hj
    cases hj
    rw [hs'] at hs
    cases hs
    obtain ⟨-, -, hrep, st, hst, hk⟩ := hp
    refine ⟨rep, hrep, fun r hr hid => ?_⟩
    obtain ⟨h1, h2⟩ := (hk rfl).2 r hr hid
    refine ⟨by rw [h1]; exact hst, finds_concerns h2, fun hw => (pg_finds_iff hw).mp h2⟩
  · rintro h' c' a' H' ⟨I', h₂, s, rfl, hs, hp⟩
    have I'' := I'.step H' hash a'.tie a'.now a'.act
    refine ⟨I'', h₂ ++ [⟨a'.now, (c'.step hash a'.tie a'.now a'.act).1⟩], ?_⟩
    have hlt : i < (c'.step hash a'.tie a'.now a'.act).2.sessions.length :=
      Nat.lt_of_lt_of_le (List.getElem?_eq_some_iff.mp hs).1 sessions_length_mono
    obtain ⟨s', hs'⟩ : ∃ s', (c'.step hash a'.tie a'.now a'.act).2.sessions[i]? = some s' := ⟨_, List.getElem?_eq_getElem hlt⟩
    have T := table_step H' hash a'.tie a'.now a'.act
    refine ⟨s', by rw [List.append_assoc], hs', fun hq => ?_⟩
    have hp := hp fun x hx => hq x (List.mem_append_left _ hx)
    have hquiet : (c'.step hash a'.tie a'.now a'.act).1.touches id = false := hq ⟨a'.now, _⟩ (by simp)
    have grow : ∀ id' st, (id' = id → id ∈ pgInserted (hh ++ h₂) ∧
          ∀ r ∈ c'.pg.rows, r.id = id → r.status = st ∧ uc.finds e.executor e.scheduledAt r = true) →
        (id' = id → id ∈ pgInserted ((hh ++ h₂) ++ [⟨a'.now, (c'.step hash a'.tie a'.now a'.act).1⟩]) ∧
          ∀ r ∈ (c'.step hash a'.tie a'.now a'.act).2.pg.rows, r.id = id →
            r.status = st ∧ uc.finds e.executor e.scheduledAt r = true) := by
      intro id' st hk hid
      obtain ⟨h1, h2⟩ := hk hid
      refine ⟨mem_pgInserted_append.mpr (.inl h1), fun r hr hrid => ?_⟩
      rcases T.back hr with ⟨u, he, -⟩ | ⟨q, hq, hqid, hm, -⟩
      · have nd := I''.nodup
        rw [pgInserted_append, he] at nd
        have := (List.nodup_append.mp nd).2.2 id h1 r.id (by simp)
        exact (this hrid.symm).elim
      · have hqid' : q.id = id := hqid.trans hrid
        have : r = q := hm.quiet (by rw [hqid']; exact hquiet)
        subst this
        exact h2 r hq hrid
    rcases session_at hs hs' with rfl | ⟨hadv, rfl⟩ | rfl
    · exact hp.mono grow (fun _ h => h)
    · refine phase_advance (hp.mono grow fun _ h => h) ?_ (fun _ _ _ => trivial) (fun _ _ => trivial)
      intro r hr hf
      refine grow r.id r.status ?_
      rintro rfl
      refine ⟨I'.ids r hr, fun q hq hqid => ?_⟩
      rw [row_unique H'.nodup hq hr hqid]
      exact ⟨rfl, hf⟩
    · trivial

/-- Job 1 has its data replaced; meanwhile job 2 arrives and is handed out. -/
example :
    let e : EnqueuableJob := { sampleEnq with data := .str "new" }
    let as := [pgAct 0 (.plain { sampleEnq with priority := 9 }), pgAct 0 (.unique e replaceCriteria), pgAct 0 (.advance 0)]
    let bs := [pgAct 0 (.advance 0), pgAct 0 (.plain sampleEnq), pgAct 1 (.handout "mail"), pgAct 1 (.advance 1),
      pgAct 1 (.advance 1), pgAct 1 (.advance 1), pgAct 1 (.advance 0)]
    (PgConc.run sampleHash {} as).sessions[0]? = some (.holding e replaceCriteria 0) ∧
    (((PgConc.run sampleHash {} as).history sampleHash bs).all fun x => !x.ev.touches 1) ∧
    (((PgConc.run sampleHash {} (as ++ bs)).step sampleHash Int.toNat 2 (.advance 0)).1 matches .replaced 1) ∧
    (((PgConc.run sampleHash {} (as ++ bs)).step sampleHash Int.toNat 2 (.advance 0)).2.pg.rows.map fun r => (r.id, r.status, r.data)) =
      [(1, .scheduled, .str "new"), (2, .executing, .str "hello")] := by
  decide

end Rexecutor
