import Verif.Props.Progress
import Verif.Props.PgInterference
import Verif.Props.PgProgress
import Verif.Lemmas.PgRow
import Verif.Spec.Samples

/-! # C143: a stream of more urgent jobs -/

namespace Rexecutor

/-! ## In memory -/

/-- The event, at time `now`, queues nothing for `t` or before. -/
def Ev.QueuesLater (t now : Time) : Ev → Prop
  | .inserted _ e => t < e.scheduledAt
  | .op (.retryable _ next _) .unit => t < next
  | .op (.snoozed _ next) .unit => t < next
  | .op (.rerun _) .unit => t < now
  | .op (.update u) .unit => t < u.scheduledAt
  | .wrote u .unit => t < u.scheduledAt
  | _ => True

instance (t now : Time) (e : Ev) : Decidable (e.QueuesLater t now) := by
  unfold Ev.QueuesLater; split <;> infer_instance

/-- **C143, in memory.** Start from any reachable state in which job `k` is waiting, and let
others leave it alone and waiting jobs not be pruned. Let jobs be enqueued, retried, snoozed,
rerun and edited in any number and with any priority, but for later than the time of `k`.
When streams of its executor, asking once it is due, have asked more often than there were
waiting jobs ahead of `k`, then `k` has been handed out. -/
theorem C143_in_memory (paused : Bool) (as₁ as₂ : List TAct)
    (hids : idsTaken ((fresh paused).trace (as₁ ++ as₂)) ≤ 4294967296)
    (k : KeyedJob) (hk : k ∈ ((fresh paused).run as₁).mem.jobs)
    (hw : k.job.status = .scheduled ∨ k.job.status = .retryable)
    (hdue : ∀ e ∈ ((fresh paused).run as₁).trace as₂, e.ev.asks k.job.executor = true →
      k.job.scheduledAt < e.now + 100000000)
    (hleft : ∀ e ∈ ((fresh paused).run as₁).trace as₂,
      e.ev.finishes k.job.id = false ∧ e.ev.putsBack k.job.id = false ∧ e.ev.KeepsWaiting)
    (hlater : ∀ e ∈ ((fresh paused).run as₁).trace as₂, e.ev.QueuesLater k.job.scheduledAt e.now)
    (hmany : ((fresh paused).run as₁).mem.jobs.countP (fun a => decide (Ahead k.job a.job))
      < (((fresh paused).run as₁).trace as₂).countP (fun e => e.ev.asks k.job.executor)) :
    ∃ e ∈ ((fresh paused).run as₁).trace as₂,
      e.ev = .op (.load k.job.executor) (.job (some (handedOut e.now k.job))) := by
  refine C84_no_starvation paused as₁ as₂ hids k hk hw hdue hleft (fun e he => ?_) hmany
  have h := hlater e he
  have no : ∀ u : Job, k.job.scheduledAt < u.scheduledAt → ¬ Ahead k.job u := by
    rintro u hu ⟨-, -, -, hf⟩
    simp only [InFront, Time] at *
    omega
  unfold Ev.QueuesBehind
  split <;> rename_i hev <;> first | trivial | (rw [hev] at h; first | exact h | exact no _ h)

/-- One job waits, and two more urgent ones are enqueued for later; the first to ask gets it. -/
example :
    let as₁ := enqSteps 0 0 { sampleEnq with priority := 9, scheduledAt := 0 }
    let as₂ := enqSteps 5 1 { sampleEnq with priority := 0, scheduledAt := 5 } ++ enqSteps 6 2 { sampleEnq with priority := 0, scheduledAt := 6 } ++
      [call 7 (.load "mail")]
    ∃ k ∈ (fresh.run as₁).mem.jobs, k.job.priority = 9 ∧
      (∀ e ∈ (fresh.run as₁).trace as₂, e.ev.QueuesLater k.job.scheduledAt e.now) ∧
      (fresh.run as₁).mem.jobs.countP (fun a => decide (Ahead k.job a.job)) = 0 := by decide

/-! ## On Postgres -/

/-- At each of these times the job is enqueued for the executor, to be executed at once, and
then a stream of that executor asks for a job. -/
def rush (x : String) (e : EnqueuableJob) (ts : List Time) : List TApi :=
  ts.flatMap fun t => [⟨t, .enqueue { e with executor := x, scheduledAt := t }⟩, ⟨t, .op (.load x)⟩]

private theorem before_priority {tie : Int → Nat} {a b : Row} (h : Row.before tie a b = true) : a.priority ≤ b.priority := by
  simp only [Row.before, Bool.or_eq_true, Bool.and_eq_true, decide_eq_true_eq, beq_iff_eq] at h
  omega

private theorem rush_total (tie : Int → Nat) (a b : Row) :
    Row.before tie a b = true ∨ Row.before tie b a = true := by
  simp only [Row.before, Bool.or_eq_true, Bool.and_eq_true, decide_eq_true_eq, beq_iff_eq]
  simp only [Time]
  omega

private theorem rush_trans (tie : Int → Nat) (a b c : Row) (h1 : Row.before tie a b = true)
    (h2 : Row.before tie b c = true) : Row.before tie a c = true := by
  simp only [Row.before, Bool.or_eq_true, Bool.and_eq_true, decide_eq_true_eq, beq_iff_eq] at *
  simp only [Time] at *
  omega

private theorem rush_round {hash : HashFn} {tie tie' : Int → Nat} {p : Pg} (H : PgOk p) {j : Row} (hj : j ∈ p.rows) {e : EnqueuableJob}
    (hc : e.criteria = none) (hp : (e.priority : Int) < j.priority) (t : Time) (hs : p.seq < 2147483647) :
    let p₁ := p.api hash tie t (.enqueue { e with executor := j.executor, scheduledAt := t })
    let p₂ := p₁.2.api hash tie' t (.op (.load j.executor))
    PgOk p₂.2 ∧ j ∈ p₂.2.rows ∧ p₂.2.seq = p.seq + 1 ∧ (∃ id, p₁.1 = .id id) ∧
      p₂.1 ≠ .job none ∧ ∀ j', p₂.1 = .job (some j') → j'.id ≠ j.id := by
  intro p₁ p₂
  have H₁ : PgOk p₁.2 := H.api ..
  have H₂ : PgOk p₂.2 := H₁.api ..
  have h₁ : p₁ = (.id ((p.seq + 1 : Nat) : Int), { rows := p.rows ++ [({ e with executor := j.executor, scheduledAt := t } : EnqueuableJob).toRow t ((p.seq + 1 : Nat) : Int) none], seq := p.seq + 1 }) := by
    simp only [p₁, Pg.api, Pg.enqueue, hc, Pg.insert]
    rw [if_neg (by omega)]
  have hj₁ : j ∈ p₁.2.rows := by rw [h₁]; simp [hj]
  have hnew : ∃ r ∈ p₁.2.rows, r.ready t j.executor = true ∧ r.priority < j.priority := by
    rw [h₁]
    refine ⟨_, List.mem_append_right _ (List.mem_singleton.mpr rfl), ?_, hp⟩
    rw [ready_iff']
    refine ⟨rfl, .inl rfl, ?_⟩
    simp only [EnqueuableJob.toRow, Time] at *
    omega
  have hseq : p₁.2.seq = p.seq + 1 := by rw [h₁]
  obtain ⟨id, hid⟩ : ∃ id, p₁.1 = .id id := ⟨_, by rw [h₁]⟩
  have hload : p₂ = p₁.2.load tie' t j.executor := rfl
  generalize p₁ = q at *
  obtain ⟨r, hr, hrdy, hpr⟩ := hnew
  have hr' : r ∈ q.2.rows.filter (Row.ready t j.executor) := List.mem_filter.mpr ⟨hr, hrdy⟩
  unfold Pg.load at hload
  cases hsort : sortBy (Row.before tie') (q.2.rows.filter (Row.ready t j.executor)) with
  | nil => rw [sortBy_eq_nil.mp hsort] at hr'; cases hr'
  | cons a as =>
    rw [hsort] at hload
    simp only at hload
    have ha := List.mem_filter.mp (sortBy_head_mem hsort)
    have hle : a.priority ≤ r.priority := by
      have hso := sortBy_sorted (rush_total tie') (rush_trans tie') (q.2.rows.filter (Row.ready t j.executor))
      rw [hsort] at hso
      have hm : r ∈ a :: as := by rw [← hsort]; exact (sortBy_perm _ _).mem_iff.mpr hr'
      rcases List.mem_cons.mp hm with rfl | hm
      · exact Int.le_refl _
      · exact before_priority (List.rel_of_pairwise_cons hso hm)
    have hne : a.id ≠ j.id := by
      intro heq
      have : a = j := row_unique H₁.nodup ha.1 hj₁ heq
      rw [this] at hle
      omega
    have hrows : p₂.2 = { q.2 with rows := (updateRows a.id (Row.markExecuting t) q.2.rows).1 } := by
      rw [hload]; split <;> rfl
    refine ⟨H₂, ?_, by rw [hrows]; exact hseq, ⟨id, hid⟩, ?_, ?_⟩
    · rw [hrows]
      simp only [updateRows, List.mem_map]
      exact ⟨j, hj₁, if_neg fun h => hne h.symm⟩
    · rw [hload]; split <;> simp
    · intro j' hj'
      rw [hload] at hj'
      split at hj'
      · cases hj'
      · rename_i k hk
        simp only [Res.job.injEq, Option.some.injEq] at hj'
        subst hj'
        have : k.id = a.id := by
          simp only [Row.decode] at hk
          split at hk
          · cases hk
          · simp only [Option.some.injEq] at hk
            rw [← hk]; rfl
        rw [this]; exact hne

/-- **C143 fails on Postgres**, for every job that is not of the highest priority: whatever is
stored, let a more urgent job be enqueued from time to time, to be executed at once, and a
stream of the executor ask for a job each time. However long this goes on, the answer is
never that there is no job, and never the job that was there before; that stays in the
table as it is. -/
theorem C143_violated_on_postgres (hash : HashFn) (ties ties' : Nat → Int → Nat) (cs : List TApi) (j : Row)
    (hj : j ∈ (Pg.runApi hash ties {} cs).rows) (e : EnqueuableJob) (hc : e.criteria = none)
    (hp : (e.priority : Int) < j.priority) (ts : List Time) (hs : (Pg.runApi hash ties {} cs).seq + ts.length ≤ 2147483647) :
    j ∈ (Pg.runApi hash ties' (Pg.runApi hash ties {} cs) (rush j.executor e ts)).rows ∧
    ∀ r ∈ Pg.results hash ties' (Pg.runApi hash ties {} cs) (rush j.executor e ts), r ≠ .job none ∧ ∀ j', r = .job (some j') → j'.id ≠ j.id := by
  have H : PgOk (Pg.runApi hash ties {} cs) := by
    have : ∀ (cs : List TApi) (p : Pg), PgOk p → PgOk (Pg.runApi hash ties p cs) := by
      intro cs
      induction cs with
      | nil => intro p h; exact h
      | cons c cs ih => intro p h; exact ih _ (h.api ..)
    exact this cs {} PgOk.init
  generalize Pg.runApi hash ties {} cs = p at *
  induction ts generalizing p with
  | nil => exact ⟨hj, fun r hr => nomatch hr⟩
  | cons t ts ih =>
    simp only [List.length_cons] at hs
    have hr : rush j.executor e (t :: ts) = ⟨t, .enqueue { e with executor := j.executor, scheduledAt := t }⟩ :: ⟨t, .op (.load j.executor)⟩ :: rush j.executor e ts := rfl
    rw [hr]
    simp only [Pg.runApi, Pg.results]
    obtain ⟨h1, h2, h3, ⟨id, h4⟩, h5, h6⟩ := rush_round (hash := hash) (tie := ties' (TApi.mk t (.op (.load j.executor)) :: rush j.executor e ts).length)
      (tie' := ties' (rush j.executor e ts).length) H hj hc hp t (by omega)
    obtain ⟨g1, g2⟩ := ih _ h2 (by omega) h1
    refine ⟨g1, fun r hr => ?_⟩
    rcases List.mem_cons.mp hr with rfl | hr
    · rw [h4]; exact ⟨by simp, fun _ h => by cases h⟩
    · rcases List.mem_cons.mp hr with rfl | hr
      · exact ⟨h5, h6⟩
      · exact g2 r hr

/-- A job of priority 9 waits while three jobs of priority 0 come and go. -/
example :
    let p := Pg.runApi sampleHash (fun _ i => i.toNat) {} [⟨0, .enqueue { sampleEnq with priority := 9 }⟩]
    p.rows.map (fun r => (r.id, r.priority, r.status)) = [(1, 9, .scheduled)] ∧
    (Pg.runApi sampleHash (fun _ i => i.toNat) p (rush "mail" { sampleEnq with priority := 0 } [1000, 2000, 3000])).rows.map
      (fun r => (r.id, r.status)) = [(1, .scheduled), (2, .executing), (3, .executing), (4, .executing)] := by decide

private theorem countP_map_lt {α : Type} {p : α → Bool} {f : α → α} (hf : ∀ r, p (f r) = true → p r = true) {a : α} :
    ∀ {l : List α}, a ∈ l → p a = true → p (f a) = false → (l.map f).countP p < l.countP p
  | b :: l, hm, ha, hfa => by
    have hle : ∀ l : List α, (l.map f).countP p ≤ l.countP p := by
      intro l
      induction l with
      | nil => simp
      | cons c l ih =>
        simp only [List.map_cons, List.countP_cons]
        have := hf c
        cases h1 : p (f c) <;> cases h2 : p c <;> simp_all <;> omega
    simp only [List.map_cons, List.countP_cons]
    rcases List.mem_cons.mp hm with rfl | hm
    · have := hle l
      simp only [ha, hfa, if_true, Bool.false_eq_true, if_false]
      omega
    · have := countP_map_lt hf hm ha hfa
      have hb := hf b
      cases h1 : p (f b) <;> cases h2 : p b <;> simp_all <;> omega

/-- The row with this id is being executed. -/
private def TakenRow (id : Int) (rows : List Row) : Prop := ∃ r ∈ rows, r.id = id ∧ r.status = .executing

private theorem taken_load {tie : Int → Nat} {t : Time} {x : String} {p : Pg} {id : Int} (h : TakenRow id p.rows) :
    TakenRow id (p.load tie t x).2.rows := by
  obtain ⟨r, hr, hid, hs⟩ := h
  unfold Pg.load
  split
  · exact ⟨r, hr, hid, hs⟩
  · rename_i a _ _
    have : TakenRow id (updateRows a.id (Row.markExecuting t) p.rows).1 := by
      refine ⟨_, List.mem_map.mpr ⟨r, hr, rfl⟩, ?_⟩
      split
      · exact ⟨hid, rfl⟩
      · exact ⟨hid, hs⟩
    simp only
    split <;> exact this

private theorem enqueue_rows {hash : HashFn} {tie : Int → Nat} {t : Time} {p : Pg} {e : EnqueuableJob} (hc : e.criteria = none) :
    (p.api hash tie t (.enqueue e)).2.rows = p.rows ∨ ∃ id, (p.api hash tie t (.enqueue e)).2.rows = p.rows ++ [e.toRow t id none] := by
  simp only [Pg.api, Pg.enqueue, hc, Pg.insert]
  split
  · exact .inl rfl
  · exact .inr ⟨_, rfl⟩

private theorem ahead_load {tie : Int → Nat} {t : Time} {p : Pg} {j : Row} (hj : j ∈ p.rows)
    (hw : j.status = .scheduled ∨ j.status = .retryable) (hdue : j.scheduledAt < pgTime t + 100000000) :
    TakenRow j.id (p.load tie t j.executor).2.rows ∨
    j ∈ (p.load tie t j.executor).2.rows ∧
      (p.load tie t j.executor).2.rows.countP (fun a => decide (RowAhead j a)) < p.rows.countP (fun a => decide (RowAhead j a)) := by
  have hj' : j ∈ p.rows.filter (Row.ready t j.executor) := List.mem_filter.mpr ⟨hj, ready_iff'.mpr ⟨rfl, hw, hdue⟩⟩
  have hrows : ∀ a as, sortBy (Row.before tie) (p.rows.filter (Row.ready t j.executor)) = a :: as →
      (p.load tie t j.executor).2.rows = (updateRows a.id (Row.markExecuting t) p.rows).1 := by
    intro a as h
    unfold Pg.load
    rw [h]
    simp only
    split <;> rfl
  cases hsort : sortBy (Row.before tie) (p.rows.filter (Row.ready t j.executor)) with
  | nil => rw [sortBy_eq_nil.mp hsort] at hj'; cases hj'
  | cons a as =>
    rw [hrows a as hsort]
    have ha := List.mem_filter.mp (sortBy_head_mem hsort)
    by_cases hid : a.id = j.id
    · left
      refine ⟨_, List.mem_map.mpr ⟨j, hj, rfl⟩, ?_⟩
      rw [if_pos hid.symm]
      exact ⟨rfl, rfl⟩
    · right
      refine ⟨List.mem_map.mpr ⟨j, hj, if_neg fun h => hid h.symm⟩, ?_⟩
      have hbef : Row.before tie a j = true := by
        have hso := sortBy_sorted (rush_total tie) (rush_trans tie) (p.rows.filter (Row.ready t j.executor))
        rw [hsort] at hso
        have hm : j ∈ a :: as := by rw [← hsort]; exact (sortBy_perm _ _).mem_iff.mpr hj'
        rcases List.mem_cons.mp hm with h | hm
        · exact absurd (congrArg Row.id h).symm hid
        · exact List.rel_of_pairwise_cons hso hm
      have hah : RowAhead j a := by
        obtain ⟨h1, h2, -⟩ := ready_iff'.mp ha.2
        refine ⟨hid, h1, h2, ?_⟩
        simp only [Row.before, Bool.or_eq_true, Bool.and_eq_true, decide_eq_true_eq, beq_iff_eq, Time] at *
        omega
      have hgone : ∀ r : Row, ¬ RowAhead j (r.markExecuting t) := by
        rintro r ⟨-, -, h | h, -⟩ <;> cases h
      refine countP_map_lt (a := a) (fun r hr => ?_) ha.1 (decide_eq_true hah) ?_
      · split at hr
        · exact absurd (of_decide_eq_true hr) (hgone r)
        · exact hr
      · rw [if_pos rfl]
        exact decide_eq_false (hgone a)

/-- **C143, on Postgres.** What holds there: whatever is stored, let a job that is not more
urgent than `j`, and due later if it is as urgent, be enqueued from time to time and a
stream of the executor of `j` ask for a job each time, `j` being due. When this has happened
more often than there were waiting rows ahead of `j`, then `j` has been handed out. Missing:
jobs that are more urgent, for which this is false (`C143_violated_on_postgres`). -/
theorem C143_on_postgres_partial (hash : HashFn) (ties : Nat → Int → Nat) (p : Pg) (j : Row)
    (hj : j ∈ p.rows) (hw : j.status = .scheduled ∨ j.status = .retryable) (e : EnqueuableJob) (hc : e.criteria = none)
    (ts : List Time) (hdue : ∀ t ∈ ts, j.scheduledAt < pgTime t + 100000000)
    (hp : j.priority < (e.priority : Int) ∨ j.priority = (e.priority : Int) ∧ ∀ t ∈ ts, j.scheduledAt < pgTime t)
    (hmany : p.rows.countP (fun a => decide (RowAhead j a)) < ts.length) :
    ∃ r ∈ (Pg.runApi hash ties p (rush j.executor e ts)).rows, r.id = j.id ∧ r.status = .executing := by
  have main : ∀ (ts : List Time) (p : Pg), (∀ t ∈ ts, j.scheduledAt < pgTime t + 100000000) →
      (j.priority < (e.priority : Int) ∨ j.priority = (e.priority : Int) ∧ ∀ t ∈ ts, j.scheduledAt < pgTime t) →
      (TakenRow j.id p.rows ∨ j ∈ p.rows ∧ p.rows.countP (fun a => decide (RowAhead j a)) < ts.length) →
      TakenRow j.id (Pg.runApi hash ties p (rush j.executor e ts)).rows := by
    intro ts
    induction ts with
    | nil =>
      rintro p - - (h | ⟨-, h⟩)
      · exact h
      · cases h
    | cons t ts ih =>
      intro p hdue hp h
      have hr : rush j.executor e (t :: ts) = ⟨t, .enqueue { e with executor := j.executor, scheduledAt := t }⟩ :: ⟨t, .op (.load j.executor)⟩ :: rush j.executor e ts := rfl
      rw [hr]
      simp only [Pg.runApi]
      refine ih _ (fun u hu => hdue u (List.mem_cons_of_mem _ hu)) (hp.imp id fun h => ⟨h.1, fun u hu => h.2 u (List.mem_cons_of_mem _ hu)⟩) ?_
      have hq := enqueue_rows (hash := hash) (tie := ties (TApi.mk t (.op (.load j.executor)) :: rush j.executor e ts).length) (t := t) (p := p)
        (e := { e with executor := j.executor, scheduledAt := t }) hc
      generalize (p.api hash (ties (TApi.mk t (.op (.load j.executor)) :: rush j.executor e ts).length) t
        (.enqueue { e with executor := j.executor, scheduledAt := t })).2 = q at *
      have hnot : ∀ id, ¬ RowAhead j (({ e with executor := j.executor, scheduledAt := t } : EnqueuableJob).toRow t id none) := by
        rintro id ⟨-, -, -, h⟩
        simp only [EnqueuableJob.toRow] at h
        rcases hp with hp | ⟨hp, hlate⟩
        · omega
        · have := hlate t (List.mem_cons_self ..)
          simp only [Time] at *
          omega
      show TakenRow j.id (q.load _ t j.executor).2.rows ∨ _
      have hq' : TakenRow j.id q.rows ∨ j ∈ q.rows ∧ q.rows.countP (fun a => decide (RowAhead j a)) < ts.length + 1 := by
        rcases hq with hq | ⟨id, hq⟩ <;> rw [hq]
        · exact h
        · refine h.imp (fun ⟨r, hr, h⟩ => ⟨r, List.mem_append_left _ hr, h⟩) fun ⟨h1, h2⟩ => ⟨List.mem_append_left _ h1, ?_⟩
          rw [List.countP_append]
          simpa [hnot id] using h2
      rcases hq' with hq' | ⟨h1, h2⟩
      · exact .inl (taken_load hq')
      · refine (ahead_load h1 hw (hdue t (List.mem_cons_self ..))).imp id fun ⟨g1, g2⟩ => ⟨g1, ?_⟩
        exact Nat.lt_of_lt_of_le g2 (Nat.le_of_lt_succ h2)
  exact main ts p hdue hp (.inr ⟨hj, hmany⟩)

/-- A job of priority 9 with one job ahead of it is the second to be handed out, though jobs
of priority 9 keep coming. -/
example :
    let p := Pg.runApi sampleHash (fun _ i => i.toNat) {} [⟨0, .enqueue { sampleEnq with priority := 9 }⟩, ⟨0, .enqueue { sampleEnq with priority := 1 }⟩]
    ∃ j ∈ p.rows, j.id = 1 ∧ j.status = .scheduled ∧ j.priority = 9 ∧ (∀ t ∈ [1000, 2000], j.scheduledAt < pgTime t) ∧
      p.rows.countP (fun a => decide (RowAhead j a)) = 1 ∧
      (Pg.runApi sampleHash (fun _ i => i.toNat) p (rush j.executor { sampleEnq with priority := 9 } [1000, 2000])).rows.map
        (fun r => (r.id, r.status)) = [(1, .executing), (2, .executing), (3, .scheduled), (4, .scheduled)] := by decide

end Rexecutor
