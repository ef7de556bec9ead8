import Verif.Model.Fx
import Verif.Spec.Pg
import Verif.Spec.PgQuery
import Verif.Spec.Samples
import Verif.Lemmas.Pg

/-! # C48: unique enqueues on Postgres, concurrently -/

namespace Rexecutor

private theorem clash_symm {uc : Criteria} {x : String} {a b : Row} (h : Clash uc x a b) : Clash uc x b a := by
  refine ⟨h.2.1, h.1, ?_⟩
  intro d hd
  have := h.2.2 d hd
  simp only [Time, Delta] at *
  omega

/-- The job and criteria of a unique enqueue in progress. -/
private def Session.call : Session → Option (EnqueuableJob × Criteria)
  | .unique e uc _ => some (e, uc)
  | .holding e uc _ => some (e, uc)
  | .missing e uc _ => some (e, uc)
  | .found e uc _ _ => some (e, uc)
  | .inserted e uc _ => some (e, uc)
  | .replacing e uc _ _ => some (e, uc)
  | _ => none

private def About (uc : Criteria) (x : String) (e : EnqueuableJob) : Prop := uc.executor = true → e.executor = x

private structure UInv (uc : Criteria) (x : String) (c : PgConc) : Prop where
  /-- everybody uses the same criteria -/
  same : ∀ (i : Nat) (s : Session) (e : EnqueuableJob) (uc' : Criteria), c.sessions[i]? = some s →
    Session.call s = some (e, uc') → About uc x e → SameCriteria uc uc' ∧ (uc.duration ≠ none → 1000 ∣ e.scheduledAt)
  /-- the advisory lock works -/
  one : ∀ (i k : Nat) (s s' : Session) (e e' : EnqueuableJob) (u u' : Criteria),
    c.sessions[i]? = some s → c.sessions[k]? = some s' →
    Session.call s = some (e, u) → Session.call s' = some (e', u') → About uc x e → About uc x e' →
    s.holder.isSome = true → s'.holder.isSome = true → i = k
  /-- what is about to be inserted does not clash -/
  missing : ∀ (i : Nat) (e : EnqueuableJob) (u : Criteria) (t : Time), c.sessions[i]? = some (.missing e u t) →
    About uc x e → ∀ r ∈ c.pg.rows, Concerns uc x r →
    ∃ d, uc.duration = some d ∧ ¬ (r.scheduledAt - d ≤ e.scheduledAt ∧ e.scheduledAt ≤ r.scheduledAt + d)
  pending : ∀ (i : Nat) (e : EnqueuableJob) (u : Criteria) (row : Row), c.sessions[i]? = some (.inserted e u row) →
    row.executor = e.executor ∧ row.scheduledAt = pgTime e.scheduledAt
  inserted : ∀ (i : Nat) (e : EnqueuableJob) (u : Criteria) (row : Row), c.sessions[i]? = some (.inserted e u row) →
    About uc x e → ∀ r ∈ c.pg.rows, Concerns uc x r →
    ∃ d, uc.duration = some d ∧ ¬ (r.scheduledAt - d ≤ e.scheduledAt ∧ e.scheduledAt ≤ r.scheduledAt + d)
  clear : ∀ a ∈ c.pg.rows, ∀ b ∈ c.pg.rows, a.id ≠ b.id → ¬ Clash uc x a b

private theorem set_cases {l : List Session} {i k : Nat} {s s' : Session} (h : (l.set i s)[k]? = some s') :
    (k ≠ i ∧ l[k]? = some s') ∨ (k = i ∧ s' = s) := by
  rw [List.getElem?_set] at h
  split at h
  · rename_i hik
    split at h
    · exact .inr ⟨hik.symm, (Option.some.inj h).symm⟩
    · simp at h
  · rename_i hik
    exact .inl ⟨fun e => hik e.symm, h⟩

/-- The table changes without arrivals; one session changes. -/
private theorem uinv_set {uc : Criteria} {x : String} {c : PgConc} (U : UInv uc x c) {rows : List Row} {seq : Nat} {i : Nat}
    {s s' : Session} (hs : c.sessions[i]? = some s)
    (hq : ∀ r' ∈ rows, Concerns uc x r' →
        ∃ r ∈ c.pg.rows, r.id = r'.id ∧ Concerns uc x r ∧ (uc.duration ≠ none → r.scheduledAt = r'.scheduledAt))
    (hcall : Session.call s' = none ∨ Session.call s' = Session.call s)
    (hone : s'.holder.isSome = true → s.holder.isSome = true ∨ ∀ e u, Session.call s = some (e, u) → About uc x e →
      ∀ (k : Nat) (s'' : Session) (e'' : EnqueuableJob) (u'' : Criteria), c.sessions[k]? = some s'' →
        Session.call s'' = some (e'', u'') → About uc x e'' → s''.holder.isSome = false)
    (hmiss : ∀ e u t, s' = .missing e u t → About uc x e → ∀ r ∈ c.pg.rows, Concerns uc x r →
      ∃ d, uc.duration = some d ∧ ¬ (r.scheduledAt - d ≤ e.scheduledAt ∧ e.scheduledAt ≤ r.scheduledAt + d))
    (hpend : ∀ e u row, s' = .inserted e u row → row.executor = e.executor ∧ row.scheduledAt = pgTime e.scheduledAt)
    (hins : ∀ e u row, s' = .inserted e u row → About uc x e → ∀ r ∈ c.pg.rows, Concerns uc x r →
      ∃ d, uc.duration = some d ∧ ¬ (r.scheduledAt - d ≤ e.scheduledAt ∧ e.scheduledAt ≤ r.scheduledAt + d)) :
    UInv uc x { pg := { rows := rows, seq := seq }, sessions := c.sessions.set i s' } := by
  have lift : ∀ e : EnqueuableJob, (∀ r ∈ c.pg.rows, Concerns uc x r →
      ∃ d, uc.duration = some d ∧ ¬ (r.scheduledAt - d ≤ e.scheduledAt ∧ e.scheduledAt ≤ r.scheduledAt + d)) →
      ∀ r ∈ rows, Concerns uc x r →
      ∃ d, uc.duration = some d ∧ ¬ (r.scheduledAt - d ≤ e.scheduledAt ∧ e.scheduledAt ≤ r.scheduledAt + d) := by
    intro e h r' hr' hc'
    obtain ⟨r, hr, -, hc, ht⟩ := hq r' hr' hc'
    obtain ⟨d, hd, hn⟩ := h r hr hc
    refine ⟨d, hd, ?_⟩
    rw [← ht (by rw [hd]; simp)]
    exact hn
  constructor
  · intro k s₀ e uc' hk hc ha
    rcases set_cases hk with ⟨-, h⟩ | ⟨-, h⟩
    · exact U.same k s₀ e uc' h hc ha
    · subst h
      rcases hcall with h' | h'
      · rw [hc] at h'; simp at h'
      · exact U.same i s e uc' hs (by rw [← h']; exact hc) ha
  · intro k k' s₁ s₂ e e' u u' hk hk' hc hc' ha ha' ho ho'
    rcases set_cases hk with ⟨hki, h⟩ | ⟨hki, h⟩ <;> rcases set_cases hk' with ⟨hki', h'⟩ | ⟨hki', h'⟩
    · exact U.one k k' s₁ s₂ e e' u u' h h' hc hc' ha ha' ho ho'
    · subst h'
      rcases hcall with g | g
      · rw [hc'] at g; simp at g
      · rcases hone ho' with g' | g'
        · rw [hki']
          exact U.one k i s₁ s e e' u u' h hs hc (by rw [← g]; exact hc') ha ha' ho g'
        · have := g' e' u' (by rw [← g]; exact hc') ha' k s₁ e u h hc ha
          rw [ho] at this; simp at this
    · subst h
      rcases hcall with g | g
      · rw [hc] at g; simp at g
      · rcases hone ho with g' | g'
        · rw [hki]
          exact U.one i k' s s₂ e e' u u' hs h' (by rw [← g]; exact hc) hc' ha ha' g' ho'
        · have := g' e u (by rw [← g]; exact hc) ha k' s₂ e' u' h' hc' ha'
          rw [ho'] at this; simp at this
    · rw [hki, hki']
  · intro k e u t hk ha
    rcases set_cases hk with ⟨-, h⟩ | ⟨-, h⟩
    · exact lift e (U.missing k e u t h ha)
    · exact lift e (hmiss e u t h.symm ha)
  · intro k e u row hk
    rcases set_cases hk with ⟨-, h⟩ | ⟨-, h⟩
    · exact U.pending k e u row h
    · exact hpend e u row h.symm
  · intro k e u row hk ha
    rcases set_cases hk with ⟨-, h⟩ | ⟨-, h⟩
    · exact lift e (U.inserted k e u row h ha)
    · exact lift e (hins e u row h.symm ha)
  · intro a ha b hb hab hcl
    obtain ⟨a', ha', hia, hca, hta⟩ := hq a ha hcl.1
    obtain ⟨b', hb', hib, hcb, htb⟩ := hq b hb hcl.2.1
    refine U.clear a' ha' b' hb' (by rw [hia, hib]; exact hab) ⟨hca, hcb, ?_⟩
    intro d hd
    have hne : uc.duration ≠ none := by rw [hd]; simp
    rw [hta hne, htb hne]
    exact hcl.2.2 d hd

private theorem append_cases {l : List Session} {s s' : Session} {k : Nat} (h : (l ++ [s])[k]? = some s') :
    l[k]? = some s' ∨ (k = l.length ∧ s' = s) := by
  rcases Nat.lt_or_ge k l.length with hk | hk
  · rw [List.getElem?_append_left hk] at h; exact .inl h
  · rw [List.getElem?_append_right hk, List.getElem?_singleton] at h
    split at h
    · exact .inr ⟨by omega, (Option.some.inj h).symm⟩
    · simp at h

/-- A new session that holds nothing. -/
private theorem uinv_append {uc : Criteria} {x : String} {c : PgConc} (U : UInv uc x c) (s : Session)
    (hh : s.holder = none)
    (hsame : ∀ e uc', Session.call s = some (e, uc') → About uc x e →
      SameCriteria uc uc' ∧ (uc.duration ≠ none → 1000 ∣ e.scheduledAt)) :
    UInv uc x { c with sessions := c.sessions ++ [s] } := by
  constructor
  · intro k s₀ e uc' hk hc ha
    rcases append_cases hk with h | ⟨-, h⟩
    · exact U.same k s₀ e uc' h hc ha
    · subst h; exact hsame e uc' hc ha
  · intro k k' s₁ s₂ e e' u u' hk hk' hc hc' ha ha' ho ho'
    rcases append_cases hk with h | ⟨-, h⟩
    · rcases append_cases hk' with h' | ⟨-, h'⟩
      · exact U.one k k' s₁ s₂ e e' u u' h h' hc hc' ha ha' ho ho'
      · subst h'; rw [hh] at ho'; simp at ho'
    · subst h; rw [hh] at ho; simp at ho
  · intro k e u t hk ha
    rcases append_cases hk with h | ⟨-, h⟩
    · exact U.missing k e u t h ha
    · subst h; simp [Session.holder] at hh
  · intro k e u row hk
    rcases append_cases hk with h | ⟨-, h⟩
    · exact U.pending k e u row h
    · subst h; simp [Session.holder] at hh
  · intro k e u row hk ha
    rcases append_cases hk with h | ⟨-, h⟩
    · exact U.inserted k e u row h ha
    · subst h; simp [Session.holder] at hh
  · exact U.clear

/-- Only the table changes. -/
private theorem uinv_rows {uc : Criteria} {x : String} {c : PgConc} (U : UInv uc x c) {pg : Pg}
    (hq : ∀ r' ∈ pg.rows, Concerns uc x r' →
        ∃ r ∈ c.pg.rows, r.id = r'.id ∧ Concerns uc x r ∧ (uc.duration ≠ none → r.scheduledAt = r'.scheduledAt)) :
    UInv uc x { c with pg := pg } := by
  have lift : ∀ e : EnqueuableJob, (∀ r ∈ c.pg.rows, Concerns uc x r →
      ∃ d, uc.duration = some d ∧ ¬ (r.scheduledAt - d ≤ e.scheduledAt ∧ e.scheduledAt ≤ r.scheduledAt + d)) →
      ∀ r ∈ pg.rows, Concerns uc x r →
      ∃ d, uc.duration = some d ∧ ¬ (r.scheduledAt - d ≤ e.scheduledAt ∧ e.scheduledAt ≤ r.scheduledAt + d) := by
    intro e h r' hr' hc'
    obtain ⟨r, hr, -, hc, ht⟩ := hq r' hr' hc'
    obtain ⟨d, hd, hn⟩ := h r hr hc
    refine ⟨d, hd, ?_⟩
    rw [← ht (by rw [hd]; simp)]
    exact hn
  refine ⟨U.same, U.one, fun k e u t h ha => lift e (U.missing k e u t h ha), U.pending,
    fun k e u row h ha => lift e (U.inserted k e u row h ha), ?_⟩
  intro a ha b hb hab hcl
  obtain ⟨a', ha', hia, hca, hta⟩ := hq a ha hcl.1
  obtain ⟨b', hb', hib, hcb, htb⟩ := hq b hb hcl.2.1
  refine U.clear a' ha' b' hb' (by rw [hia, hib]; exact hab) ⟨hca, hcb, ?_⟩
  intro d hd
  have hne : uc.duration ≠ none := by rw [hd]; simp
  rw [hta hne, htb hne]
  exact hcl.2.2 d hd

private theorem same_rows {uc : Criteria} {x : String} {rows : List Row} : ∀ r' ∈ rows, Concerns uc x r' →
    ∃ r ∈ rows, r.id = r'.id ∧ Concerns uc x r ∧ (uc.duration ≠ none → r.scheduledAt = r'.scheduledAt) :=
  fun r hr hc => ⟨r, hr, rfl, hc, fun _ => rfl⟩

private theorem identifier_eq {hash : HashFn} {uc u u' : Criteria} {x : String} {e e' : EnqueuableJob}
    (h : SameCriteria uc u) (h' : SameCriteria uc u') (ha : About uc x e) (ha' : About uc x e') :
    u.identifier hash e.executor = u'.identifier hash e'.executor := by
  simp only [Criteria.identifier, h.noKey, h'.noKey, h.executor, h'.executor, h.statuses, h'.statuses]
  cases hx : uc.executor
  · simp
  · simp [ha hx, ha' hx]

private theorem call_of_holder {s : Session} {u : Criteria} {y : String} (h : s.holder = some (u, y)) :
    ∃ e, Session.call s = some (e, u) ∧ e.executor = y := by
  cases s <;> simp only [Session.holder, Option.some.injEq, Prod.mk.injEq, reduceCtorEq] at h
  all_goals obtain ⟨rfl, rfl⟩ := h; exact ⟨_, rfl, rfl⟩

private theorem holder_of_call {s : Session} {e : EnqueuableJob} {u : Criteria} (h : Session.call s = some (e, u))
    (hh : s.holder.isSome = true) : s.holder = some (u, e.executor) := by
  cases s <;> simp only [Session.holder, Session.call, Option.some.injEq, Prod.mk.injEq, reduceCtorEq,
    Option.isSome_none, Bool.false_eq_true] at *
  all_goals obtain ⟨rfl, rfl⟩ := h; exact ⟨rfl, rfl⟩

private theorem uinv_step {uc : Criteria} {x : String} {c : PgConc} (H : PgInv c) (U : UInv uc x c) (hash : HashFn) (tie : Int → Nat)
    (hwd : ∀ d, uc.duration = some d → (1000 : Int) ∣ d)
    (now : Time) (a : PgAct)
    (hu : ∀ e uc', a = .unique e uc' → About uc x e → SameCriteria uc uc' ∧ (uc.duration ≠ none → 1000 ∣ e.scheduledAt))
    (hq : (∃ row uc', (c.step hash tie now a).1 = .inserted row (some uc')) ∨
      ∀ r' ∈ (c.step hash tie now a).2.pg.rows, Concerns uc x r' →
        ∃ r ∈ c.pg.rows, r.id = r'.id ∧ Concerns uc x r ∧ (uc.duration ≠ none → r.scheduledAt = r'.scheduledAt)) :
    UInv uc x (c.step hash tie now a).2 := by
  cases a with
  | handout y => exact uinv_append U _ rfl (by intro e uc' h; simp [Session.call] at h)
  | unique e uc' =>
    refine uinv_append U _ rfl ?_
    intro e' u' h ha
    simp only [Session.call, Option.some.injEq, Prod.mk.injEq] at h
    obtain ⟨rfl, rfl⟩ := h
    exact hu e uc' rfl ha
  | plain e =>
    simp only [PgConc.step] at hq ⊢
    split at hq
    · rw [if_pos (by assumption)]; exact U
    · rw [if_neg (by assumption)]
      rcases hq with ⟨row, uc', h⟩ | h
      · simp at h
      · exact uinv_rows U h
  | stmt o =>
    have hs : (c.step hash tie now (.stmt o)).2.sessions = c.sessions ∧
        ∀ row uc', (c.step hash tie now (.stmt o)).1 ≠ .inserted row uc' := by
      constructor
      · cases o <;> simp only [PgConc.step] <;> (try split) <;> rfl
      · intro row uc'
        cases o <;> simp only [PgConc.step] <;> (try split) <;> simp
    rcases hq with ⟨row, uc', h⟩ | h
    · exact (hs.2 _ _ h).elim
    · have := uinv_rows U h
      generalize hc : (c.step hash tie now (.stmt o)).2 = c' at *
      obtain ⟨pg, ss⟩ := c'
      simp only at hs
      rw [hs.1]
      exact this
  | abort i =>
    simp only [PgConc.step] at hq ⊢
    split
    · exact U
    · exact U
    · rename_i s _ hs
      exact uinv_set U hs same_rows (.inl rfl) (by simp [Session.holder]) (by simp) (by simp) (by simp)
  | advance i =>
    simp only [PgConc.step] at hq ⊢
    split
    · exact U
    · rename_i s hs
      rw [hs] at hq
      simp only at hq
      cases s with
      | handout y => exact uinv_set U hs same_rows (.inl rfl) (by simp [PgConc.advance, Session.holder]) (by simp [PgConc.advance]) (by simp [PgConc.advance]) (by simp [PgConc.advance])
      | looking y t snap =>
        simp only [PgConc.advance]
        split
        · exact uinv_set U hs same_rows (.inl rfl) (by simp [Session.holder]) (by simp) (by simp) (by simp)
        · exact uinv_set U hs same_rows (.inl rfl) (by simp [Session.holder]) (by simp) (by simp) (by simp)
      | locked y t id =>
        simp only [PgConc.advance] at hq ⊢
        split
        · exact uinv_set U hs same_rows (.inl rfl) (by simp [Session.holder]) (by simp) (by simp) (by simp)
        · rename_i r hr
          rw [hr] at hq
          rcases hq with ⟨_, _, h⟩ | h
          · simp at h
          · exact uinv_set U hs h (.inl rfl) (by simp [Session.holder]) (by simp) (by simp) (by simp)
      | unique e u t =>
        simp only [PgConc.advance]
        split
        · exact uinv_set U hs same_rows (.inr rfl) (by simp [Session.holder]) (by simp) (by simp) (by simp)
        · rename_i hfree
          refine uinv_set U hs same_rows (.inr rfl) ?_ (by simp) (by simp) (by simp)
          intro _
          right
          intro e₁ u₁ hc₁ ha₁ k s'' e'' u'' hk hc'' ha''
          simp only [Session.call, Option.some.injEq, Prod.mk.injEq] at hc₁
          obtain ⟨rfl, rfl⟩ := hc₁
          cases hh : s''.holder.isSome with
          | false => rfl
          | true =>
            exfalso
            apply hfree
            simp only [PgConc.advisoryLocked, List.any_eq_true]
            refine ⟨s'', List.mem_of_getElem? hk, ?_⟩
            rw [holder_of_call hc'' hh]
            simp only [beq_iff_eq]
            exact identifier_eq (U.same k s'' e'' u'' hk hc'' ha'').1 (U.same i _ e u hs rfl ha₁).1 ha'' ha₁
      | holding e u t =>
        simp only [PgConc.advance]
        split
        · rename_i hnil
          refine uinv_set U hs same_rows (.inr rfl) (fun _ => .inl rfl) ?_ (by simp) (by simp)
          intro e' u' t' he ha r hr hcr
          simp only [Session.missing.injEq] at he
          obtain ⟨rfl, rfl, rfl⟩ := he
          obtain ⟨hsame, hwhole⟩ := U.same i _ e u hs rfl ha
          have hnf : u.finds e.executor e.scheduledAt r = false := by
            cases hf : u.finds e.executor e.scheduledAt r
            · rfl
            · have : r ∈ c.pg.rows.filter fun r => u.finds e.executor e.scheduledAt r := List.mem_filter.mpr ⟨hr, hf⟩
              rw [sortBy_eq_nil.mp hnil] at this
              simp at this
          have h1 : u.statuses.contains r.status = true := by
            rw [hsame.statuses]; exact List.contains_iff_mem.mpr hcr.1
          have h3 : (!u.executor || r.executor == e.executor) = true := by
            rw [hsame.executor]
            cases hx : uc.executor
            · rfl
            · simp [hcr.2 hx, ha hx]
          simp only [Criteria.finds, hsame.noKey, h1, h3, Bool.true_and, Bool.and_true] at hnf
          rw [hsame.duration] at hnf
          cases hd : uc.duration with
          | none => rw [hd] at hnf; simp at hnf
          | some d =>
            refine ⟨d, rfl, ?_⟩
            rw [hd] at hnf
            have w1 := hwhole (by rw [hd]; simp)
            have w2 := hwd d hd
            simp only at hnf
            rw [pgTime_whole (Int.dvd_sub w1 w2), pgTime_whole (Int.dvd_add w1 w2)] at hnf
            simp only [Bool.and_eq_false_iff, decide_eq_false_iff_not] at hnf
            simp only [Time, Delta] at *
            omega
        · exact uinv_set U hs same_rows (.inr rfl) (fun _ => .inl rfl) (by simp) (by simp) (by simp)
      | missing e u t =>
        simp only [PgConc.advance]
        split
        · exact uinv_set U hs same_rows (.inl rfl) (by simp [Session.holder]) (by simp) (by simp) (by simp)
        · refine uinv_set U hs same_rows (.inr rfl) (fun _ => .inl rfl) (by simp) ?_ ?_
          · intro e' u' row h
            simp only [Session.inserted.injEq] at h
            obtain ⟨rfl, rfl, rfl⟩ := h
            exact ⟨rfl, rfl⟩
          · intro e' u' row h ha
            simp only [Session.inserted.injEq] at h
            obtain ⟨rfl, rfl, rfl⟩ := h
            exact U.missing i e u t hs ha
      | found e u id st =>
        simp only [PgConc.advance]
        split
        · split
          · split
            · exact uinv_set U hs same_rows (.inl rfl) (by simp [Session.holder]) (by simp) (by simp) (by simp)
            · split
              · exact uinv_set U hs same_rows (.inr rfl) (fun _ => .inl rfl) (by simp) (by simp) (by simp)
              · exact uinv_set U hs same_rows (.inr rfl) (fun _ => .inl rfl) (by simp) (by simp) (by simp)
          · exact uinv_set U hs same_rows (.inl rfl) (by simp [Session.holder]) (by simp) (by simp) (by simp)
        · exact uinv_set U hs same_rows (.inl rfl) (by simp [Session.holder]) (by simp) (by simp) (by simp)
      | replacing e u rep id =>
        simp only [PgConc.advance] at hq ⊢
        rcases hq with ⟨_, _, h⟩ | h
        · simp at h
        · exact uinv_set U hs h (.inl rfl) (by simp [Session.holder]) (by simp) (by simp) (by simp)
      | done r => exact uinv_set U hs same_rows (.inl rfl) (by simp [PgConc.advance, Session.holder]) (by simp [PgConc.advance]) (by simp [PgConc.advance]) (by simp [PgConc.advance])
      | inserted e u row =>
        simp only [PgConc.advance]
        obtain ⟨hex, hsch⟩ := U.pending i e u row hs
        -- first as if only the session had ended
        have U' : UInv uc x { pg := { rows := c.pg.rows, seq := c.pg.seq }, sessions := c.sessions.set i (.done (.id row.id)) } :=
          uinv_set U hs same_rows (.inl rfl) (by simp [Session.holder]) (by simp) (by simp) (by simp)
        by_cases ha : About uc x e
        · have alone : ∀ (k : Nat) (s : Session) (e' : EnqueuableJob) (u' : Criteria),
              (c.sessions.set i (.done (.id row.id)))[k]? = some s → Session.call s = some (e', u') → About uc x e' →
              s.holder.isSome = false := by
            intro k s e' u' hk hc ha'
            rcases set_cases hk with ⟨hki, h⟩ | ⟨-, h⟩
            · cases hh : s.holder.isSome with
              | false => rfl
              | true => exact (hki (U.one k i s _ e' e u' u h hs hc rfl ha' ha hh rfl)).elim
            · subst h; simp [Session.call] at hc
          have new : ∀ r ∈ c.pg.rows, r.id ≠ row.id → ¬ Clash uc x row r := by
            intro r hr _ hcl
            obtain ⟨d, hd, hn⟩ := U.inserted i e u row hs ha r hr hcl.2.1
            have w1 := (U.same i _ e u hs rfl ha).2 (by rw [hd]; simp)
            have := hcl.2.2 d hd
            rw [hsch, pgTime_whole w1] at this
            simp only [Time, Delta] at *
            omega
          refine ⟨U'.same, U'.one, ?_, U'.pending, ?_, ?_⟩
          · intro k e' u' t hk ha'
            have := alone k _ e' u' hk rfl ha'
            simp [Session.holder] at this
          · intro k e' u' row' hk ha'
            have := alone k _ e' u' hk rfl ha'
            simp [Session.holder] at this
          · intro a hma b hmb hab hcl
            rcases List.mem_append.mp hma with h1 | h1 <;> rcases List.mem_append.mp hmb with h2 | h2
            · exact U.clear a h1 b h2 hab hcl
            · rw [List.mem_singleton] at h2
              rw [h2] at hab hcl
              exact new a h1 hab (clash_symm hcl)
            · rw [List.mem_singleton] at h1
              rw [h1] at hab hcl
              exact new b h2 (fun h => hab h.symm) hcl
            · rw [List.mem_singleton] at h1 h2
              exact hab (by rw [h1, h2])
        · have hnc : ¬ Concerns uc x row := by
            intro h
            exact ha (fun hx => by rw [← hex]; exact h.2 hx)
          refine uinv_rows (c := { pg := { rows := c.pg.rows, seq := c.pg.seq }, sessions := c.sessions.set i (.done (.id row.id)) }) U'
            (pg := { c.pg with rows := c.pg.rows ++ [row] }) ?_
          intro r' hr' hcr
          rcases List.mem_append.mp hr' with hr' | hr'
          · exact ⟨r', hr', rfl, hcr, fun _ => rfl⟩
          · rw [List.mem_singleton] at hr'; subst hr'
            exact (hnc hcr).elim

private theorem uinv_run {uc : Criteria} {x : String} {hash : HashFn} (hwd : ∀ d, uc.duration = some d → (1000 : Int) ∣ d)
    {as : List TPgAct} {c : PgConc} (H : PgInv c) (U : UInv uc x c) (hu : AllUse uc x as) (hq : NoArrivals hash uc x c as) :
    UInv uc x (c.run hash as) := by
  induction as generalizing c with
  | nil => exact U
  | cons a as ih =>
    refine ih (H.step hash a.tie a.now a.act) ?_ (fun b hb => hu b (List.mem_cons_of_mem _ hb)) hq.2
    exact uinv_step H U hash a.tie hwd a.now a.act (fun e uc' he ha => hu a (by simp) e uc' he ha) hq.1

/-- **C48.** Start in any state reached by any history in which no unique enqueue is
under way and no two rows clash. However any number of unique enqueues without key,
with the same statuses, executor flag and window, are interleaved with each other and
with anything else, as long as nothing else makes a row one the criteria are about:
no two rows clash afterwards. -/
theorem C48_no_clash (hash : HashFn) (uc : Criteria) (x : String) (before as : List TPgAct)
    (hwd : ∀ d, uc.duration = some d → (1000 : Int) ∣ d)
    (hidle : ∀ s ∈ (PgConc.run hash {} before).sessions, s.enqueuing = false)
    (hclear : ∀ a ∈ (PgConc.run hash {} before).pg.rows, ∀ b ∈ (PgConc.run hash {} before).pg.rows,
      a ≠ b → ¬ Clash uc x a b)
    (huse : AllUse uc x as) (hq : NoArrivals hash uc x (PgConc.run hash {} before) as) :
    ∀ a ∈ ((PgConc.run hash {} before).run hash as).pg.rows, ∀ b ∈ ((PgConc.run hash {} before).run hash as).pg.rows,
      a ≠ b → ¬ Clash uc x a b := by
  have H := pgInv hash before
  generalize PgConc.run hash {} before = c at *
  have hnone : ∀ (i : Nat) (s : Session), c.sessions[i]? = some s → Session.call s = none := by
    intro i s h
    have := hidle s (List.mem_of_getElem? h)
    cases s <;> simp [Session.enqueuing] at this <;> rfl
  have U : UInv uc x c := by
    refine ⟨?_, ?_, ?_, ?_, ?_, ?_⟩
    · intro i s e uc' h hc; rw [hnone i s h] at hc; simp at hc
    · intro i k s s' e e' u u' h _ hc; rw [hnone i s h] at hc; simp at hc
    · intro i e u t h; have := hnone i _ h; simp [Session.call] at this
    · intro i e u t h; have := hnone i _ h; simp [Session.call] at this
    · intro i e u t h; have := hnone i _ h; simp [Session.call] at this
    · intro a ha b hb hab; exact hclear a ha b hb (fun h => hab (by rw [h]))
  have U' := uinv_run hwd H U huse hq
  have H' := H.run hash as
  intro a ha b hb hab
  exact U'.clear a ha b hb (fun h => hab (row_unique H'.nodup ha hb h))

/-- An enqueue that is unique within an hour, start to end. -/
example : NoArrivals sampleHash { duration := some (3600 * sec), statuses := [.scheduled] } "mail" {}
      [pgAct 0 (.unique sampleEnq { duration := some (3600 * sec), statuses := [.scheduled] }), pgAct 0 (.advance 0),
        pgAct 0 (.advance 0), pgAct 0 (.advance 0), pgAct 0 (.advance 0)] ∧
    AllUse { duration := some (3600 * sec), statuses := [.scheduled] } "mail"
      [pgAct 0 (.unique sampleEnq { duration := some (3600 * sec), statuses := [.scheduled] }), pgAct 0 (.advance 0),
        pgAct 0 (.advance 0), pgAct 0 (.advance 0), pgAct 0 (.advance 0)] := by
  constructor
  · refine ⟨.inr ?_, .inr ?_, .inr ?_, .inr ?_, .inl ⟨_, _, rfl⟩, trivial⟩
    all_goals
      intro r' hr'
      exact absurd hr' (List.not_mem_nil)
  · intro a ha e uc' he _
    simp only [List.mem_cons, List.not_mem_nil, or_false] at ha
    rcases ha with rfl | rfl | rfl | rfl | rfl <;> simp only [pgAct, PgAct.unique.injEq, reduceCtorEq] at he
    obtain ⟨rfl, rfl⟩ := he
    exact ⟨⟨rfl, rfl, rfl, rfl⟩, fun _ => by decide⟩

/-! ## The default criteria: by executor, status Scheduled -/

/-- The event is one that can make a row of executor `x` Scheduled, other than an
insert by a unique enqueue: a plain enqueue, a snooze or a rerun. -/
def PgAct.schedules (x : String) : PgAct → Bool
  | .plain e => e.executor == x
  | .stmt (.snoozed _ _) => true
  | .stmt (.rerun _) => true
  | _ => false

private theorem arrivals_update {uc : Criteria} {x : String} {id : Int} {f : Row → Row} {rows : List Row}
    (hd : uc.duration = none) (hid : ∀ r, (f r).id = r.id) (hf : ∀ r, Concerns uc x (f r) → Concerns uc x r) :
    ∀ r' ∈ (updateRows id f rows).1, Concerns uc x r' →
      ∃ r ∈ rows, r.id = r'.id ∧ Concerns uc x r ∧ (uc.duration ≠ none → r.scheduledAt = r'.scheduledAt) := by
  intro r' hr' hc
  obtain ⟨q, hq, rfl⟩ := updateRows_mem.mp hr'
  by_cases h : q.id = id
  · rw [if_pos h] at hc ⊢
    exact ⟨q, hq, (hid q).symm, hf q hc, fun h => (h hd).elim⟩
  · rw [if_neg h] at hc ⊢
    exact ⟨q, hq, rfl, hc, fun h => (h hd).elim⟩

private theorem arrivals_onRow {uc : Criteria} {x : String} {id : Int} {f : Row → Row} {p : Pg} (hn : (rowIds p.rows).Nodup)
    (hd : uc.duration = none) (hid : ∀ r, (f r).id = r.id) (hf : ∀ r, Concerns uc x (f r) → Concerns uc x r) :
    ∀ r' ∈ (p.onRow id f).2.rows, Concerns uc x r' →
      ∃ r ∈ p.rows, r.id = r'.id ∧ Concerns uc x r ∧ (uc.duration ≠ none → r.scheduledAt = r'.scheduledAt) := by
  rcases onRow_cases id f p hn with ⟨-, h⟩ | ⟨-, h⟩
  · rw [h]; exact same_rows
  · rw [h]; exact arrivals_update hd hid hf

private theorem no_arrivals_step {uc : Criteria} {x : String} (hd : uc.duration = none) (hx : uc.executor = true)
    (hss : uc.statuses = [.scheduled]) {c : PgConc} (H : PgInv c) (hash : HashFn) (tie : Int → Nat) (now : Time) (a : PgAct)
    (ha : a.schedules x = false) :
    (∃ row uc', (c.step hash tie now a).1 = .inserted row (some uc')) ∨
      ∀ r' ∈ (c.step hash tie now a).2.pg.rows, Concerns uc x r' →
        ∃ r ∈ c.pg.rows, r.id = r'.id ∧ Concerns uc x r ∧ (uc.duration ≠ none → r.scheduledAt = r'.scheduledAt) := by
  have away : ∀ r : Row, r.status ≠ .scheduled → ¬ Concerns uc x r := by
    intro r h hc
    have := hc.1
    rw [hss, List.mem_singleton] at this
    exact h this
  cases a with
  | handout y => exact .inr same_rows
  | unique e uc' => exact .inr same_rows
  | abort i =>
    right
    simp only [PgConc.step]
    split <;> exact same_rows
  | plain e =>
    right
    simp only [PgConc.step]
    split
    · exact same_rows
    · intro r' hr' hc
      rcases List.mem_append.mp hr' with hr' | hr'
      · exact ⟨r', hr', rfl, hc, fun _ => rfl⟩
      · rw [List.mem_singleton] at hr'; subst hr'
        have := hc.2 hx
        simp only [EnqueuableJob.toRow] at this
        simp [PgAct.schedules, this] at ha
  | stmt o =>
    right
    have key : ∀ o' : Op, (∀ r' ∈ (c.pg.step tie now o').2.rows, Concerns uc x r' →
        ∃ r ∈ c.pg.rows, r.id = r'.id ∧ Concerns uc x r ∧ (uc.duration ≠ none → r.scheduledAt = r'.scheduledAt)) →
        (∀ y, o' ≠ .load y) →
        ∀ r' ∈ (c.step hash tie now (.stmt o')).2.pg.rows, Concerns uc x r' →
        ∃ r ∈ c.pg.rows, r.id = r'.id ∧ Concerns uc x r ∧ (uc.duration ≠ none → r.scheduledAt = r'.scheduledAt) := by
      intro o' h hl
      have hstep : c.step hash tie now (.stmt o') =
          if (o'.needs tie now c.pg.rows).any c.rowLocked then (.blocked, c)
          else (.stmt o' (c.pg.step tie now o').1, { c with pg := (c.pg.step tie now o').2 }) := by
        cases o' <;> first | (exact (hl _ rfl).elim) | (simp only [PgConc.step])
      rw [hstep]
      split
      · exact same_rows
      · exact h
    cases o with
    | load y => exact same_rows
    | complete i => exact key _ (arrivals_onRow (f := Row.markComplete now) H.nodup hd (fun _ => rfl) (fun r h => (away _ (by simp [Row.markComplete]) h).elim)) (by simp)
    | retryable i next e => exact key _ (arrivals_onRow (f := Row.markRetryable now next e) H.nodup hd (fun _ => rfl) (fun r h => (away _ (by simp [Row.markRetryable]) h).elim)) (by simp)
    | discarded i e => exact key _ (arrivals_onRow (f := Row.markDiscarded now e) H.nodup hd (fun _ => rfl) (fun r h => (away _ (by simp [Row.markDiscarded]) h).elim)) (by simp)
    | cancelled i e => exact key _ (arrivals_onRow (f := Row.markCancelled now e) H.nodup hd (fun _ => rfl) (fun r h => (away _ (by simp [Row.markCancelled]) h).elim)) (by simp)
    | snoozed i next => simp [PgAct.schedules] at ha
    | rerun i => simp [PgAct.schedules] at ha
    | update job => exact key _ (arrivals_onRow (f := Row.update job) H.nodup hd (fun _ => rfl) (fun r h => h)) (by simp)
    | prune spec =>
      refine key _ ?_ (by simp)
      intro r' hr' hc
      exact ⟨r', (prune_mem.mp hr').1, rfl, hc, fun _ => rfl⟩
    | query q => exact key _ same_rows (by simp)
    | subscribe y => exact key _ same_rows (by simp)
    | notifyAll => exact key _ same_rows (by simp)
  | advance i =>
    simp only [PgConc.step]
    split
    · exact .inr same_rows
    · rename_i s hs
      cases s with
      | inserted e u row => exact .inl ⟨row, u, rfl⟩
      | handout y => exact .inr same_rows
      | looking y t snap => right; simp only [PgConc.advance]; split <;> exact same_rows
      | locked y t id =>
        right
        simp only [PgConc.advance]
        split
        · exact same_rows
        · exact arrivals_update (f := Row.markExecuting t) hd (fun _ => rfl) (fun r h => (away _ (by simp [Row.markExecuting]) h).elim)
      | unique e u t => right; simp only [PgConc.advance]; split <;> exact same_rows
      | holding e u t => right; simp only [PgConc.advance]; split <;> exact same_rows
      | missing e u t => right; simp only [PgConc.advance]; split <;> exact same_rows
      | found e u id st =>
        right
        simp only [PgConc.advance]
        split
        · split
          · split
            · exact same_rows
            · split <;> exact same_rows
          · exact same_rows
        · exact same_rows
      | replacing e u rep id => exact .inr (arrivals_update (f := Row.replace rep e) hd (fun _ => rfl) (fun r h => h))
      | done r => exact .inr same_rows

private theorem no_arrivals {uc : Criteria} {x : String} (hd : uc.duration = none) (hx : uc.executor = true)
    (hss : uc.statuses = [.scheduled]) (hash : HashFn) {as : List TPgAct} {c : PgConc} (H : PgInv c)
    (ha : ∀ a ∈ as, a.act.schedules x = false) : NoArrivals hash uc x c as := by
  induction as generalizing c with
  | nil => trivial
  | cons a as ih =>
    exact ⟨no_arrivals_step hd hx hss H hash a.tie a.now a.act (ha a (by simp)),
      ih (H.step hash a.tie a.now a.act) (fun b hb => ha b (List.mem_cons_of_mem _ hb))⟩

/-- **C48, by executor.** In every interleaving of any number of nodes, from the empty
database: if every enqueue for executor `x` uses by-executor criteria with status
Scheduled, in whatever way conflicts are resolved, and nobody snoozes or reruns, then
at most one row of `x` is Scheduled, at any time. -/
theorem C48_at_most_one (hash : HashFn) (x : String) (as : List TPgAct)
    (huse : ∀ a ∈ as, ∀ e uc', a.act = .unique e uc' → e.executor = x →
      SameCriteria { executor := true, statuses := [.scheduled] } uc')
    (ha : ∀ a ∈ as, a.act.schedules x = false) :
    ((PgConc.run hash {} as).pg.rows.filter fun r => r.executor = x ∧ r.status = .scheduled).length ≤ 1 := by
  have hno := C48_no_clash hash { executor := true, statuses := [.scheduled] } x [] as (by simp) (by simp [PgConc.run])
    (by simp [PgConc.run])
    (fun a ha e uc' he hx => ⟨huse a ha e uc' he (hx rfl), fun h => (h rfl).elim⟩)
    (no_arrivals rfl rfl rfl hash (pgInv hash []) ha)
  have hn : (PgConc.run hash {} as).pg.rows.Nodup :=
    (List.pairwise_map.mp (pgInv hash as).nodup).imp (fun h e => h (by rw [e]))
  have hn' := hn.filter fun r => decide (r.executor = x ∧ r.status = .scheduled)
  have hmem : ∀ r ∈ (PgConc.run hash {} as).pg.rows.filter (fun r => decide (r.executor = x ∧ r.status = .scheduled)),
      r ∈ (PgConc.run hash {} as).pg.rows ∧ Concerns { executor := true, statuses := [.scheduled] } x r := by
    intro r hr
    have := List.mem_filter.mp hr
    simp only [decide_eq_true_eq] at this
    exact ⟨this.1, by simp [this.2.2], fun _ => this.2.1⟩
  change ((PgConc.run hash {} as).pg.rows.filter fun r => decide (r.executor = x ∧ r.status = .scheduled)).length ≤ 1
  generalize (PgConc.run hash {} as).pg.rows.filter (fun r => decide (r.executor = x ∧ r.status = .scheduled)) = l at *
  match l with
  | [] => simp
  | [a] => simp
  | a :: b :: rest =>
    exfalso
    obtain ⟨ha1, ha2⟩ := hmem a (by simp)
    obtain ⟨hb1, hb2⟩ := hmem b (by simp)
    have hn' := List.nodup_cons.mp hn'
    exact hno a ha1 b hb1 (fun h => hn'.1 (by simp [h])) ⟨ha2, hb2, by simp⟩

/-- Three nodes enqueue the same at the same time; the second has to wait for the first. -/
def raceHistory : List TPgAct :=
  let e := sampleUnique
  let uc : Criteria := { executor := true, statuses := [.scheduled] }
  [pgAct 5000 (.unique e uc), pgAct 5000 (.unique e uc), pgAct 5000 (.unique e uc),
    pgAct 5000 (.advance 0), pgAct 5000 (.advance 0), pgAct 5000 (.advance 1), pgAct 5000 (.advance 0),
    pgAct 5000 (.advance 0), pgAct 6000 (.advance 1), pgAct 6000 (.advance 1), pgAct 6000 (.advance 2),
    pgAct 6000 (.advance 1), pgAct 6000 (.advance 2), pgAct 6000 (.advance 2), pgAct 6000 (.advance 2)]

example : (∀ a ∈ raceHistory, a.act.schedules "mail" = false) ∧
    (PgConc.run sampleHash {} raceHistory).sessions = [.done (.id 1), .done (.id 1), .done (.id 1)] := by decide

/-- The hypothesis that all use the same statuses cannot be dropped: criteria with
different statuses lock different numbers, and both nodes insert. -/
theorem C48_different_statuses :
    let uc : Criteria := { executor := true, statuses := [.scheduled] }
    let uc' : Criteria := { executor := true, statuses := [.scheduled, .executing] }
    ((PgConc.run fxHash {} ([pgAct 0 (.unique sampleEnq uc), pgAct 0 (.unique sampleEnq uc')] ++
      [0, 1, 0, 1, 0, 1, 0, 1].map fun i => pgAct 0 (.advance i))).pg.rows.map fun r => (r.id, r.status)) =
      [(1, .scheduled), (2, .scheduled)] := by
  decide +kernel

private theorem fxWord_inj_word {h w w' : BitVec 64} (e : fxWord h w = fxWord h w') : w = w' := by
  have e := congrArg (· * 0x2040003d780970bd#64) e
  simp only [fxWord, BitVec.mul_assoc, show (0x517cc1b727220a95#64 * 0x2040003d780970bd#64) = 1#64 by decide, BitVec.mul_one] at e
  have e := congrArg (h.rotateLeft 5 ^^^ ·) e
  simpa only [← BitVec.xor_assoc, BitVec.xor_self, BitVec.zero_xor] using e

private theorem fxWord_inj_state {h h' w : BitVec 64} (e : fxWord h w = fxWord h' w) : h = h' := by
  have e := congrArg (· * 0x2040003d780970bd#64) e
  simp only [fxWord, BitVec.mul_assoc, show (0x517cc1b727220a95#64 * 0x2040003d780970bd#64) = 1#64 by decide, BitVec.mul_one] at e
  have e := congrArg (· ^^^ w) e
  simp only [BitVec.xor_assoc, BitVec.xor_self, BitVec.xor_zero] at e
  apply BitVec.eq_of_getLsbD_eq
  intro i hi
  by_cases h5 : i < 59
  · have e := congrArg (fun v : BitVec 64 => v.getLsbD (i + 5)) e
    simp only [BitVec.getLsbD_rotateLeft, Nat.reduceMod, show ¬ i + 5 < 5 by omega, show i + 5 < 64 by omega, decide_false, decide_true,
      cond_false, Bool.true_and, Nat.add_sub_cancel] at e
    exact e
  · have e := congrArg (fun v : BitVec 64 => v.getLsbD (i - 59)) e
    simp only [BitVec.getLsbD_rotateLeft, Nat.reduceMod, Nat.reduceSub, show i - 59 < 5 by omega, show 59 + (i - 59) = i by omega,
      decide_true, cond_true] at e
    exact e

/-- With the hash function in use, criteria that differ in one status never lock the same number. -/
theorem C48_fx_one_status (key : Option Int) (executor : Option String) (l r : List JobStatus) (s s' : JobStatus) (h : s ≠ s') :
    fxHash key executor (l ++ s :: r) ≠ fxHash key executor (l ++ s' :: r) := by
  intro e
  simp only [fxHash, List.length_append, List.length_cons, List.map_append, List.map_cons, List.foldl_append, List.foldl_cons] at e
  have e := BitVec.toInt_inj.mp e
  have back : ∀ (r : List (BitVec 64)) (a b : BitVec 64), r.foldl fxWord a = r.foldl fxWord b → a = b := by
    intro r
    induction r with
    | nil => exact fun _ _ h => h
    | cons w r ih => exact fun a b h => fxWord_inj_state (ih _ _ h)
  have e := fxWord_inj_word (back _ _ _ e)
  cases s <;> cases s' <;> first | exact h rfl | exact absurd e (by decide)

/-- **C48, the model of the hash function against another implementation of `FxHasher64`:** values for
names of six, seventeen and sixteen bytes. A test of the model on three inputs, no more. -/
theorem C48_fx_values : fxHash (some 5) (some "mailer") [.scheduled] = 1853478566011450015 ∧
    fxHash (some (-3)) (some "weekly_newsletter") [.scheduled, .executing] = -3441246198885168073 ∧
    fxHash none (some "grüße an alle!") [.complete, .discarded, .retryable, .cancelled] = 4502106120633589321 := by
  decide +kernel

/-- What `FxHasher64` gives for criteria without a key, executor and statuses, and for the key 0. -/
example : fxHash none none [] = 0 ∧ fxHash (some 0) none [] ≠ 0 := by decide +kernel

end Rexecutor
