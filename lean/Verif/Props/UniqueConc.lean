import Verif.Props.Unique

/-! # C23, C24, C25: uniqueness under concurrency, and its window -/

namespace Rexecutor

/-! ## C23 -/

/-- `n` enqueue calls that all look for a duplicate before any of them inserts. -/
def allLook : Nat → List TAct
  | 0 => []
  | n + 1 => allLook n ++ [⟨0, .start sampleUnique⟩, ⟨0, .advance n⟩]

/-- The first `n` calls go on to insert, one after the other. -/
def allInsert : Nat → List TAct
  | 0 => []
  | n + 1 => allInsert n ++ [⟨0, .advance n⟩, ⟨0, .advance n⟩, ⟨0, .advance n⟩]

private theorem allLook_run (n : Nat) :
    fresh.run (allLook n) = { mem := Mem.init, calls := List.replicate n (.noMatch sampleUnique) } := by
  induction n with
  | zero => rfl
  | succ n ih =>
    rw [allLook, Conc.run_append, ih]
    simp [Conc.run, Conc.step, Mem.advance, sampleUnique, Mem.init, List.replicate_succ']

private theorem allInsert_run (c : Conc) (n N : Nat) (hn : n ≤ N)
    (hc : ∀ i, i < N → c.calls[i]? = some (.noMatch sampleUnique)) (hj : c.mem.jobs = []) :
    ((c.run (allInsert n)).mem.jobs.map fun k => (k.job.executor, k.job.status))
      = List.replicate n ("mail", .scheduled) ∧
    (∀ i, n ≤ i → i < N → (c.run (allInsert n)).calls[i]? = some (.noMatch sampleUnique)) ∧
    (∀ i, i < n → ∃ id, (c.run (allInsert n)).calls[i]? = some (.done (.id id))) := by
  induction n with
  | zero => exact ⟨by simp [allInsert, Conc.run, hj], fun i _ h => hc i h, fun i h => absurd h (by omega)⟩
  | succ n ih =>
    obtain ⟨h1, h2, h3⟩ := ih (by omega)
    rw [allInsert, Conc.run_append]
    generalize c.run (allInsert n) = c' at *
    have hp := h2 n (Nat.le_refl _) (by omega)
    have hlt : n < c'.calls.length := (List.getElem?_eq_some_iff.mp hp).1
    have hstep : c'.run [⟨0, .advance n⟩, ⟨0, .advance n⟩, ⟨0, .advance n⟩] =
        { mem := ({ c'.mem with allocated := c'.mem.allocated + 1,
                                jobs := c'.mem.jobs ++ [sampleUnique.intoJob 0 (wrapI32 c'.mem.allocated)] } : Mem).notify
                    sampleUnique.executor sampleUnique.scheduledAt,
          calls := c'.calls.set n (.done (.id (wrapI32 c'.mem.allocated))) } := by
      simp only [Conc.run, Conc.step, hp, Mem.advance]
      simp [hlt]
    rw [hstep]
    refine ⟨?_, ?_, ?_⟩
    · simp only [notify_jobs, List.map_append, h1, List.replicate_succ']
      simp [EnqueuableJob.intoJob, sampleUnique, sampleEnq]
    · intro i hi hiN
      rw [List.getElem?_set, if_neg (by omega)]
      exact h2 i (by omega) hiN
    · intro i hi
      rw [List.getElem?_set]
      by_cases hin : n = i
      · subst hin; exact ⟨wrapI32 c'.mem.allocated, by simp [hlt]⟩
      · rw [if_neg hin]; exact h3 i (by omega)

/-- **C23 fails.** For every `n` there is a schedule of `n` concurrent enqueues with
the same do-nothing by-executor criteria on an empty store after which all `n` calls
have returned and `n` Scheduled jobs of that executor are stored. -/
theorem C23_violated (n : Nat) :
    ∃ as : List TAct, (∀ a ∈ as, a.act = .start sampleUnique ∨ ∃ i, a.act = .advance i) ∧
      (fresh.run as).calls.length = n ∧ (∀ p ∈ (fresh.run as).calls, ∃ id, p = .done (.id id)) ∧
      ((fresh.run as).mem.jobs.map fun k => (k.job.executor, k.job.status))
        = List.replicate n ("mail", .scheduled) := by
  have hlen : ∀ (c : Conc) (m : Nat), (c.run (allInsert m)).calls.length = c.calls.length := by
    intro c m
    induction m with
    | zero => rfl
    | succ m ih =>
      rw [allInsert, Conc.run_append]
      have one : ∀ (c : Conc) (t : Time) (i : Nat), (c.step t (.advance i)).2.calls.length = c.calls.length := by
        intro c t i; simp only [Conc.step]; cases c.calls[i]? <;> simp
      simp only [Conc.run, one, ih]
  refine ⟨allLook n ++ allInsert n, ?_, ?_⟩
  · intro a ha
    rw [List.mem_append] at ha
    rcases ha with ha | ha
    · clear hlen
      induction n with
      | zero => simp [allLook] at ha
      | succ n ih =>
        simp only [allLook, List.mem_append, List.mem_cons, List.not_mem_nil, or_false] at ha
        rcases ha with ha | rfl | rfl
        · exact ih ha
        · exact .inl rfl
        · exact .inr ⟨_, rfl⟩
    · clear hlen
      induction n with
      | zero => simp [allInsert] at ha
      | succ n ih =>
        simp only [allInsert, List.mem_append, List.mem_cons, List.not_mem_nil, or_false] at ha
        rcases ha with ha | rfl | rfl | rfl
        · exact ih ha
        all_goals exact .inr ⟨_, rfl⟩
  · rw [Conc.run_append, allLook_run]
    obtain ⟨h1, -, h3⟩ := allInsert_run { mem := Mem.init, calls := List.replicate n (.noMatch sampleUnique) } n n
      (Nat.le_refl _) (by intro i hi; simp [hi]) rfl
    have hl := hlen { mem := Mem.init, calls := List.replicate n (.noMatch sampleUnique) } n
    simp only [List.length_replicate] at hl
    refine ⟨hl, ?_, h1⟩
    intro p hp
    obtain ⟨i, hi⟩ := List.mem_iff_getElem?.mp hp
    obtain ⟨id, hid⟩ := h3 i (by rw [← hl]; exact (List.getElem?_eq_some_iff.mp hi).1)
    rw [hid, Option.some.injEq] at hi
    exact ⟨id, hi.symm⟩

/-- The call has looked, found no duplicate, and not inserted its job yet. -/
def Pending.betweenLookAndInsert : Pending → Bool
  | .noMatch _ => true
  | .allocated _ _ => true
  | _ => false

/-- The invariant of `C23_one_at_a_time_partial`. -/
private inductive OneJob (x : String) (uc : Criteria) (c : Conc) : Prop where
  | none (hj : c.mem.jobs = [])
      (hc : ∀ p ∈ c.calls, ∃ e : EnqueuableJob, e.executor = x ∧ e.criteria = some uc ∧
        (p = .start e ∨ p = .noMatch e ∨ ∃ id, p = .allocated id e))
  | one (k : KeyedJob) (hj : c.mem.jobs = [k]) (hk : k.key = uc.key ∧ k.job.executor = x ∧ k.job.status = .scheduled)
      (hc : ∀ p ∈ c.calls, (∃ e : EnqueuableJob, e.executor = x ∧ e.criteria = some uc ∧
        (p = .start e ∨ p = .pushed k.job.id e)) ∨ p = .matched k.job ∨ p = .done (.id k.job.id))

private theorem oneJob_step {x : String} {uc : Criteria} (hd : uc.duration = none)
    (hst : .scheduled ∈ uc.statuses) (hr : uc.onConflict = .doNothing) {c : Conc} {now : Time} {a : Act}
    (ha : (∃ e : EnqueuableJob, e.executor = x ∧ e.criteria = some uc ∧ a = .start e) ∨ ∃ i, a = .advance i)
    (hw : c.calls.countP Pending.betweenLookAndInsert ≤ 1)
    (hw' : (c.step now a).2.calls.countP Pending.betweenLookAndInsert ≤ 1)
    (H : OneJob x uc c) : OneJob x uc (c.step now a).2 := by
  rcases ha with ⟨e, he, hce, rfl⟩ | ⟨i, rfl⟩
  · cases H with
    | none hj hc =>
      refine .none hj ?_
      intro p hp
      simp only [Conc.step, List.mem_append, List.mem_singleton] at hp
      rcases hp with hp | rfl
      · exact hc p hp
      · exact ⟨e, he, hce, .inl rfl⟩
    | one k hj hk hc =>
      refine .one k hj hk ?_
      intro p hp
      simp only [Conc.step, List.mem_append, List.mem_singleton] at hp
      rcases hp with hp | rfl
      · exact hc p hp
      · exact .inl ⟨e, he, hce, .inl rfl⟩
  · simp only [Conc.step] at hw' ⊢
    cases hp : c.calls[i]? with
    | none => exact H
    | some p =>
      obtain ⟨l, r, hcs, hset⟩ := set_split hp
      simp only [hp, hset] at hw' ⊢
      have hmem : ∀ q, q ∈ l ++ r → q ∈ c.calls := by
        intro q hq; rw [hcs]
        rcases List.mem_append.mp hq with h | h
        · exact List.mem_append_left _ h
        · exact List.mem_append_right _ (List.mem_cons_of_mem _ h)
      have hsplit : ∀ {P : Pending → Prop} {q : Pending}, P q → (∀ z ∈ l ++ r, P z) → ∀ z ∈ l ++ q :: r, P z := by
        intro P q hq hz z hz'
        rcases List.mem_append.mp hz' with h | h
        · exact hz z (List.mem_append_left _ h)
        · rcases List.mem_cons.mp h with rfl | h
          · exact hq
          · exact hz z (List.mem_append_right _ h)
      cases H with
      | none hj hc =>
        obtain ⟨e, he, hce, hp'⟩ := hc p (by rw [hcs]; simp)
        have hrest := fun z hz => hc z (hmem z hz)
        rcases hp' with rfl | rfl | ⟨id, rfl⟩
        · simp only [Mem.advance, hce, hj, List.filter_nil] at hw' ⊢
          exact .none hj (hsplit ⟨e, he, hce, .inr (.inl rfl)⟩ hrest)
        · simp only [Mem.advance]
          exact .none hj (hsplit ⟨e, he, hce, .inr (.inr ⟨_, rfl⟩)⟩ hrest)
        · simp only [Mem.advance]
          refine .one (e.intoJob now id) (by simp [hj]) ⟨?_, he, rfl⟩ ?_
          · simp [EnqueuableJob.intoJob, hce]
          · refine hsplit (.inl ⟨e, he, hce, .inr rfl⟩) ?_
            intro z hz
            obtain ⟨e', he', hce', hz'⟩ := hrest z hz
            rcases hz' with rfl | hz'
            · exact .inl ⟨e', he', hce', .inl rfl⟩
            · exfalso
              have hb : z.betweenLookAndInsert = true := by
                rcases hz' with rfl | ⟨_, rfl⟩ <;> rfl
              rw [hcs, List.countP_append, List.countP_cons_of_pos (by rfl)] at hw
              rcases List.mem_append.mp hz with h | h
              · have := List.countP_pos_iff.mpr ⟨z, h, hb⟩; omega
              · have := List.countP_pos_iff.mpr ⟨z, h, hb⟩; omega
      | one k hj hk hc =>
        have hrest := fun z hz => hc z (hmem z hz)
        rcases hc p (by rw [hcs]; simp) with ⟨e, he, hce, rfl | rfl⟩ | rfl | rfl
        · have hdup : e.matches now k = true := by
            rw [matches_iff]
            refine ⟨uc, hce, hk.1, fun _ => by rw [hk.2.1, he], by rw [hk.2.2]; exact hst, ?_⟩
            intro d h; rw [hd] at h; simp at h
          have hrep : k.job.replace e = k.job := by
            rcases replace_cases e k.job with ⟨uc', r', g1, g2, -⟩ | ⟨-, g⟩
            · rw [hce, Option.some.injEq] at g1; subst g1; rw [hr] at g2; simp at g2
            · exact g
          simp only [Mem.advance, hce, hj, List.filter_cons, hdup, if_true, List.filter_nil, hrep]
          exact .one k hj hk (hsplit (.inr (.inl rfl)) hrest)
        · simp only [Mem.advance]
          exact .one k (by simp [hj]) hk (hsplit (.inr (.inr rfl)) hrest)
        · have hu : (c.mem.update k.job).1 = .unit ∧ (c.mem.update k.job).2.jobs = [k] := by
            rcases onJob_cases k.job.id (fun _ => k.job) true c.mem with ⟨hne, -⟩ | ⟨l', k', r', h1, h2, h3, h4, h5, -⟩
            · exact absurd rfl (hne k (by rw [hj]; simp))
            · refine ⟨h4, ?_⟩
              simp only [Mem.update]
              rw [h5]
              rw [hj] at h1
              cases l' with
              | nil => simp only [List.nil_append, List.cons.injEq] at h1; rw [← h1.1, ← h1.2]; rfl
              | cons y l' => simp at h1
          have h2 : (c.mem.advance now (.matched k.job)).2 = (.done (.id k.job.id), (c.mem.update k.job).2) := by
            simp only [Mem.advance]
            rcases hup : c.mem.update k.job with ⟨res, m'⟩
            rw [hup] at hu
            simp only at hu
            rw [hu.1]
          show OneJob x uc { mem := (c.mem.advance now (.matched k.job)).2.2,
                             calls := l ++ (c.mem.advance now (.matched k.job)).2.1 :: r }
          rw [h2]
          exact .one k hu.2 hk (hsplit (.inr (.inr rfl)) hrest)
        · simp only [Mem.advance]
          exact .one k hj hk (hsplit (.inr (.inr rfl)) hrest)

/-- **C23, when the windows do not overlap.** If any number of enqueues of executor
`x` with the same do-nothing criteria (by executor or not, any key) run on an empty store, interleaved
in any way except that never two of them are between looking and inserting at the
same time, then at most one job is stored, and every call that has returned returned
that job's id (so exactly one is stored as soon as one call has returned). -/
theorem C23_one_at_a_time_partial (paused : Bool) (x : String) (uc : Criteria)
    (hd : uc.duration = none) (hst : .scheduled ∈ uc.statuses)
    (hr : uc.onConflict = .doNothing) (as : List TAct)
    (has : ∀ a ∈ as, (∃ e : EnqueuableJob, e.executor = x ∧ e.criteria = some uc ∧ a.act = .start e) ∨
      ∃ i, a.act = .advance i)
    (hw : ∀ as₁ as₂, as = as₁ ++ as₂ →
      ((fresh paused).run as₁).calls.countP Pending.betweenLookAndInsert ≤ 1) :
    ((fresh paused).run as).mem.jobs.length ≤ 1 ∧
    ∀ r, .done r ∈ ((fresh paused).run as).calls →
      ∃ k, ((fresh paused).run as).mem.jobs = [k] ∧ r = .id k.job.id := by
  have H : OneJob x uc ((fresh paused).run as) := by
    revert has hw
    refine snocInduction (P := fun as => (∀ a ∈ as, (∃ e : EnqueuableJob, e.executor = x ∧ e.criteria = some uc ∧
        a.act = .start e) ∨ ∃ i, a.act = .advance i) →
      (∀ as₁ as₂, as = as₁ ++ as₂ →
        ((fresh paused).run as₁).calls.countP Pending.betweenLookAndInsert ≤ 1) →
      OneJob x uc ((fresh paused).run as)) ?_ ?_ as
    · intro _ _
      exact .none rfl (by simp [Conc.run, fresh])
    · intro as a ih has hw
      have h1 := ih (fun a ha => has a (by simp [ha])) (fun as₁ as₂ h => hw as₁ (as₂ ++ [a]) (by rw [h]; simp))
      have h2 := hw as [a] rfl
      have h3 := hw (as ++ [a]) [] (by simp)
      rw [Conc.run_append] at h3 ⊢
      exact oneJob_step hd hst hr (has a (by simp)) h2 h3 h1
  cases H with
  | none hj hc =>
    refine ⟨by simp [hj], ?_⟩
    intro r hr
    obtain ⟨e, -, -, h⟩ := hc _ hr
    rcases h with h | h | ⟨id, h⟩ <;> simp at h
  | one k hj hk hc =>
    refine ⟨by simp [hj], ?_⟩
    intro r hr
    rcases hc _ hr with ⟨e, -, -, h⟩ | h | h
    · rcases h with h | h <;> simp at h
    · simp at h
    · simp only [Pending.done.injEq] at h; exact ⟨k, hj, h⟩

example : (fresh.run [⟨0, .start sampleUnique⟩, ⟨0, .start sampleUnique⟩, ⟨0, .advance 0⟩, ⟨0, .advance 0⟩,
      ⟨0, .advance 0⟩, ⟨0, .advance 1⟩, ⟨0, .advance 0⟩, ⟨0, .advance 1⟩]).calls
    = [.done (.id 0), .done (.id 0)] := by decide

/-! ## C24 -/

/-- A job is enqueued; a do-nothing enqueue finds it; a stream is handed the job; the
enqueue then writes its old copy back; the stream is handed the job again. -/
def resurrected : List TAct :=
  enqSteps 0 0 sampleUnique ++ [⟨0, .advance 0⟩] ++
  [⟨1, .start sampleUnique⟩, ⟨1, .advance 1⟩, call 2 (.load "mail"), ⟨3, .advance 1⟩, call 4 (.load "mail")]

/-- **C24 fails.** There is a schedule consisting only of two enqueues with do-nothing
criteria and hand-outs to the executor's stream, in which the same job is handed out
twice, both times as attempt 1. -/
theorem C24_violated :
    ∃ as : List TAct,
      (∀ a ∈ as, a.act = .start sampleUnique ∨ (∃ i, a.act = .advance i) ∨ a.act = .op (.load "mail")) ∧
      ((fresh.trace as).filterMap fun e => match e.ev with
        | .op (.load _) (.job (some j)) => some (j.id, j.attempt)
        | _ => none) = [(0, 1), (0, 1)] := by
  refine ⟨resurrected, ?_, by decide⟩
  intro a ha
  simp only [resurrected, enqSteps, call, List.mem_append, List.mem_cons, List.not_mem_nil, or_false] at ha
  rcases ha with ((rfl | rfl | rfl | rfl) | rfl) | rfl | rfl | rfl | rfl | rfl <;> simp

private theorem other_call {c : Conc} {i : Nat} {p : Pending} (hp : c.calls[i]? = some p) {now : Time} {a : Act}
    (ha : a ≠ .advance i) : (c.step now a).2.calls[i]? = some p := by
  have hlt : i < c.calls.length := (List.getElem?_eq_some_iff.mp hp).1
  cases a with
  | start e => simp only [Conc.step]; rw [List.getElem?_append_left hlt]; exact hp
  | op o => exact hp
  | advance n =>
    simp only [Conc.step]
    cases hn : c.calls[n]? with
    | none => exact hp
    | some q =>
      simp only
      rw [List.getElem?_set, if_neg (by intro h; exact ha (by rw [h]))]
      exact hp

private theorem other_calls {c : Conc} {i : Nat} {p : Pending} (hp : c.calls[i]? = some p) {as : List TAct}
    (ha : ∀ a ∈ as, a.act ≠ .advance i) : (c.run as).calls[i]? = some p := by
  induction as generalizing c with
  | nil => exact hp
  | cons a as ih =>
    exact ih (other_call hp (ha a (by simp))) (fun b hb => ha b (by simp [hb]))

/-- **C24, when the job is left alone meanwhile.** In every history: if an enqueue
call `i` (for job `e`) finds the stored job `id`, and until it writes back nothing
hands out, finishes or puts back that job, then afterwards the stored job is as it
was when found, except for the flagged fields of the replace resolution. -/
theorem C24_undisturbed_partial (paused : Bool) (as₁ as₂ : List TAct) (t t' : Time) (i : Nat)
    (e : EnqueuableJob) (id : Int)
    (hb : idsTaken ((fresh paused).trace (as₁ ++ ⟨t, .advance i⟩ :: as₂ ++ [⟨t', .advance i⟩])) ≤ 2 ^ 32)
    (hcall : ((fresh paused).run as₁).calls[i]? = some (.start e))
    (hlook : (((fresh paused).run as₁).step t (.advance i)).1 = .looked (some id))
    (hi : ∀ a ∈ as₂, a.act ≠ .advance i)
    (hev : ∀ ev ∈ ((fresh paused).run (as₁ ++ [⟨t, .advance i⟩])).trace as₂,
      ev.ev.handsOut id = false ∧ ev.ev.finishes id = false ∧ ev.ev.putsBack id = false) :
    ∃ k ∈ ((fresh paused).run as₁).mem.jobs, k.job.id = id ∧
      ∀ k' ∈ ((fresh paused).run (as₁ ++ ⟨t, .advance i⟩ :: as₂ ++ [⟨t', .advance i⟩])).mem.jobs,
        k'.job.id = id → k'.job = k.job ∨
          ∃ uc r, e.criteria = some uc ∧ uc.onConflict = .replace r ∧ k.job.status ∈ r.forStatuses ∧
            ReplacedBy r e k.job k'.job := by
  have hb1 : idsTaken ((fresh paused).trace as₁) ≤ 4294967296 := by
    rw [List.append_assoc, Conc.trace_append] at hb
    exact idsTaken_append_le hb
  have hball : ((fresh paused).run (as₁ ++ ⟨t, .advance i⟩ :: as₂ ++ [⟨t', .advance i⟩])).mem.allocated ≤ 4294967296 := by
    rw [← trace_taken]; simpa [fresh, Mem.init] using hb
  have H := histOk_run paused as₁ hb1
  rw [show as₁ ++ ⟨t, Act.advance i⟩ :: as₂ ++ [⟨t', .advance i⟩]
    = as₁ ++ ([⟨t, .advance i⟩] ++ (as₂ ++ [⟨t', .advance i⟩])) by simp] at hball ⊢
  simp only [Conc.run_append] at hball hev ⊢
  generalize (fresh paused).run as₁ = c at *
  -- the look
  have hlt : i < c.calls.length := (List.getElem?_eq_some_iff.mp hcall).1
  simp only [Conc.step, hcall, Mem.advance] at hlook
  cases hcr : e.criteria with
  | none => rw [hcr] at hlook; simp at hlook
  | some uc =>
  rw [hcr] at hlook
  simp only at hlook
  cases hf : c.mem.jobs.filter fun k => e.matches t k with
  | nil => rw [hf] at hlook; simp at hlook
  | cons k ks =>
  rw [hf] at hlook
  simp only [Ev.looked.injEq, Option.some.injEq] at hlook
  have hk : k ∈ c.mem.jobs := (List.mem_filter.mp (hf ▸ List.mem_cons_self)).1
  refine ⟨k, hk, hlook, ?_⟩
  have hc₁ : c.run [⟨t, .advance i⟩] = { mem := c.mem, calls := c.calls.set i (.matched (k.job.replace e)) } := by
    simp only [Conc.run, Conc.step, hcall, Mem.advance, hcr, hf]
  rw [hc₁] at hball hev ⊢
  have hrest := other_calls (c := { mem := c.mem, calls := c.calls.set i (.matched (k.job.replace e)) })
    (p := .matched (k.job.replace e)) (i := i) (by simp [hlt]) hi
  have H₁ : HistOk ((fresh paused).trace as₁ ++ c.trace [⟨t, .advance i⟩])
      { mem := c.mem, calls := c.calls.set i (.matched (k.job.replace e)) } := by
    have := H.step (now := t) (a := .advance i)
    rw [show (c.step t (.advance i)).2 = c.run [⟨t, .advance i⟩] from rfl, hc₁] at this
    refine this ?_
    exact Nat.le_trans (run_allocated_le _ (as₂ ++ [⟨t', .advance i⟩])) (by rw [Conc.run_append]; exact hball)
  have hins : id ∈ insertedIds ((fresh paused).trace as₁ ++ c.trace [⟨t, .advance i⟩]) :=
    hlook ▸ H₁.mem_inserted hk
  obtain ⟨H₂, hP⟩ := follow_job H₁ hins (fun j => j = k.job) (fun ev => ev.touches id = false)
    (fun now ev j h hj hp => by rw [applyEv_of_not_touches (by rw [hj]; exact h)]; exact hp)
    as₂ (Nat.le_trans (run_allocated_le _ [⟨t', .advance i⟩]) hball)
    (fun ev hev' => by simp [Ev.touches, hev ev hev'])
    (fun k' hk' hid => by rw [eq_of_id H.ids_nodup hk hk' (by rw [hid, hlook])])
  generalize Conc.run { mem := c.mem, calls := c.calls.set i (.matched (k.job.replace e)) } as₂ = c₂ at *
  intro k' hk' hid
  have hmem : (c₂.run [⟨t', .advance i⟩]).mem = (c₂.mem.update (k.job.replace e)).2 := by
    simp only [Conc.run, Conc.step, hrest, advance_matched_mem]
  rw [hmem] at hk'
  have hfinal : k'.job = k.job ∨ k'.job = k.job.replace e := by
    rcases onJob_cases (k.job.replace e).id (fun _ => k.job.replace e) true c₂.mem with ⟨hne, he⟩ | ⟨l, k₂, r, h1, h2, h3, h4, h5, h6⟩
    · unfold Mem.update at hk'
      rw [he] at hk'
      exact .inl (hP k' hk' hid)
    · unfold Mem.update at hk'
      rw [h5] at hk'
      have hn := H₂.ids_nodup
      unfold Mem.ids at hn
      rw [h1] at hn
      rcases mem_replaceAt hn hk' with ⟨h, -⟩ | h
      · exact .inl (hP k' (by rw [h1]; exact h) hid)
      · right; rw [h]
  rcases hfinal with h | h
  · exact .inl h
  · rcases replace_cases e k.job with ⟨uc', r, g1, g2, g3, g4⟩ | ⟨-, g⟩
    · exact .inr ⟨uc', r, by rw [← hcr, g1], g2, g3, by rw [h]; exact g4⟩
    · exact .inl (by rw [h, g])

example : (fresh.run (enqSteps 0 0 sampleUnique ++ [⟨0, .advance 0⟩] ++
      [⟨1, .start replacing⟩, ⟨1, .advance 1⟩, call 2 (.load "sms"), ⟨3, .advance 1⟩])).mem.jobs.map
      (fun k => (k.job.data, k.job.priority, k.job.status)) = [(.str "new", 9, .scheduled)] := by decide

/-! ## C25 -/

/-- **C25, exactly what is checked in memory.** The new job is inserted exactly when no stored
job is a duplicate with the window around the moment of the call, whenever the new job is to
run. -/
theorem C25_memory_exactly (now : Time) (e : EnqueuableJob) (m : Mem) (uc : Criteria)
    (hc : e.criteria = some uc) (hn : (m.jobs.map fun k => k.job.id).Nodup) :
    (m.enqueue now e).2.jobs.length = m.jobs.length + 1 ↔ ∀ k ∈ m.jobs, ¬ Duplicate now e uc k := by
  obtain ⟨h1, h2⟩ := C20_unique_enqueue now e m uc hc hn
  constructor
  · intro hl k hk hd
    obtain ⟨k', -, -, -, h, -⟩ := h2 ⟨k, hk, hd⟩
    have := congrArg List.length h
    simp only [List.length_map] at this
    omega
  · intro h
    obtain ⟨id, k', -, hj, -⟩ := h1 h
    rw [hj]; simp

/-- **C25, for jobs to be run immediately.** If the new job is scheduled for the
present moment, then it is inserted exactly when no stored job is a duplicate with
the window around the new job's scheduled time. -/
theorem C25_window_partial (now : Time) (e : EnqueuableJob) (m : Mem) (uc : Criteria)
    (hc : e.criteria = some uc) (hn : (m.jobs.map fun k => k.job.id).Nodup) (hs : e.scheduledAt = now) :
    (m.enqueue now e).2.jobs.length = m.jobs.length + 1 ↔
      ∀ k ∈ m.jobs, ¬ Duplicate e.scheduledAt e uc k := by
  rw [hs]
  exact C25_memory_exactly now e m uc hc hn

/-- A job for tomorrow, unique within an hour. -/
def tomorrow : EnqueuableJob :=
  { sampleEnq with
    scheduledAt := 86400 * sec
    criteria := some { executor := true, duration := some (3600 * sec), statuses := [.scheduled] } }

/-- **C25 fails in memory.** Two jobs scheduled for the same moment tomorrow, unique
within an hour, are both inserted; the window is around the present instead. -/
theorem C25_violated_memory :
    ¬ ∀ (now : Time) (e : EnqueuableJob) (m : Mem) (uc : Criteria), e.criteria = some uc →
      (m.jobs.map fun k => k.job.id).Nodup →
      ((m.enqueue now e).2.jobs.length = m.jobs.length + 1 ↔
        ∀ k ∈ m.jobs, ¬ Duplicate e.scheduledAt e uc k) := by
  intro h
  have := h 0 tomorrow (storeOf [{ sampleJob 0 with scheduledAt := 86400 * sec }])
    { executor := true, duration := some (3600 * sec), statuses := [.scheduled] } rfl (by decide)
  revert this
  decide

end Rexecutor
