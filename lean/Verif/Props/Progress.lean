import Verif.Lemmas.Track
import Verif.Props.Limits
import Verif.Spec.Store
import Verif.Spec.Samples

/-!
# C84: a due job is not overtaken for ever (in-memory backend)
-/

namespace Rexecutor

/-- Job `a` may be handed out before job `b`: it is scheduled earlier, or at the same
time with a priority number not above that of `b`. -/
def InFront (a b : Job) : Prop :=
  a.scheduledAt < b.scheduledAt ∨ (a.scheduledAt = b.scheduledAt ∧ a.priority ≤ b.priority)

instance (a b : Job) : Decidable (InFront a b) := by unfold InFront; infer_instance

/-- `a` is another job waiting for the executor of `j`, and may be handed out before it. -/
def Ahead (j a : Job) : Prop :=
  a.id ≠ j.id ∧ a.executor = j.executor ∧ (a.status = .scheduled ∨ a.status = .retryable) ∧ InFront a j

instance (j a : Job) : Decidable (Ahead j a) := by unfold Ahead; infer_instance

/-- The event, at time `now`, puts no job in the queue in front of `j`: a new job, a
retried, snoozed or rerun job, and a job written back as a whole comes behind `j`. -/
def Ev.QueuesBehind (j : Job) (now : Time) : Ev → Prop
  | .inserted id e => ¬ Ahead j (e.intoJob now id).job
  | .op (.retryable _ next _) .unit => j.scheduledAt < next
  | .op (.snoozed _ next) .unit => j.scheduledAt < next
  | .op (.rerun _) .unit => j.scheduledAt < now
  | .op (.update u) .unit => ¬ Ahead j u
  | .wrote u .unit => ¬ Ahead j u
  | _ => True

instance (j : Job) (now : Time) (e : Ev) : Decidable (e.QueuesBehind j now) := by
  unfold Ev.QueuesBehind; split <;> infer_instance

/-- The event does not prune waiting jobs. -/
def Ev.KeepsWaiting : Ev → Prop
  | .op (.prune spec) _ => spec.status ≠ .scheduled ∧ spec.status ≠ .retryable
  | _ => True

instance (e : Ev) : Decidable e.KeepsWaiting := by
  unfold Ev.KeepsWaiting; split <;> infer_instance

/-- The event is a stream of executor `x` asking for a job. -/
def Ev.asks (x : String) : Ev → Bool
  | .op (.load y) _ => y == x
  | _ => false

/-- A runner of executor `x` polled its stream, and the stream looked for a job. -/
def SEv.polls (x : String) : SEv → Bool
  | .pulled _ ev _ => ev.asks x
  | _ => false

def aheadOf (j : Job) (k : KeyedJob) : Bool := decide (Ahead j k.job)

private theorem count_replace {p : KeyedJob → Bool} {l r : List KeyedJob} {k k' : KeyedJob}
    (h : p k' = false) : (l ++ k' :: r).countP p ≤ (l ++ k :: r).countP p := by
  simp only [List.countP_append, List.countP_cons, h]; simp

private theorem onJob_ahead {j : Job} {id : Int} {f : Job → Job} {w : Bool} {m : Mem}
    (h : ∀ u : Job, u.id = id → (m.onJob id f w).1 = .unit → ¬ Ahead j (f u)) :
    (m.onJob id f w).2.jobs.countP (aheadOf j) ≤ m.jobs.countP (aheadOf j) := by
  rcases onJob_cases id f w m with ⟨-, he⟩ | ⟨l, k, r, h1, h2, h3, h4, h5, -⟩
  · rw [he]; exact Nat.le_refl _
  · rw [h5, h1]
    exact count_replace (by simp only [aheadOf, decide_eq_false_iff_not]; exact h _ h3 h4)

private theorem not_ahead_later {j u : Job} (h : j.scheduledAt < u.scheduledAt) : ¬ Ahead j u := by
  intro ⟨_, _, _, hf⟩
  unfold InFront at hf
  simp only [Time] at *
  omega

private theorem not_ahead_status {j u : Job} (h : u.status ≠ .scheduled) (h' : u.status ≠ .retryable) :
    ¬ Ahead j u := fun ⟨_, _, hs, _⟩ => hs.elim h h'

private theorem load_ahead (j : Job) (now : Time) (x : String) (m : Mem) :
    (m.load now x).2.jobs.countP (aheadOf j) ≤ m.jobs.countP (aheadOf j) := by
  rcases load_cases now x m with ⟨-, he⟩ | ⟨l, k, r, h1, -, -, -, h5⟩
  · rw [he]; exact Nat.le_refl _
  · rw [h5, h1]
    refine count_replace ?_
    simp only [aheadOf, decide_eq_false_iff_not]
    exact not_ahead_status (by simp [Job.markExecuting]) (by simp [Job.markExecuting])

/-- no event that queues behind `j` adds to the jobs ahead of it -/
theorem ahead_step_le {j : Job} {c : Conc} {now : Time} {a : Act}
    (h : (c.step now a).1.QueuesBehind j now) :
    (c.step now a).2.mem.jobs.countP (aheadOf j) ≤ c.mem.jobs.countP (aheadOf j) := by
  cases a with
  | start e => exact Nat.le_refl _
  | advance i =>
    simp only [Conc.step] at h ⊢
    cases hp : c.calls[i]? with
    | none => exact Nat.le_refl _
    | some p =>
      simp only [hp] at h ⊢
      cases p with
      | start e =>
        simp only [Mem.advance]
        split
        · exact Nat.le_refl _
        · split <;> exact Nat.le_refl _
      | noMatch e => exact Nat.le_refl _
      | allocated id e =>
        simp only [Mem.advance, Ev.QueuesBehind] at h
        simp only [Mem.advance, List.countP_append, List.countP_cons, aheadOf, h]
        simp
      | pushed id e => simp [Mem.advance]
      | matched job =>
        rw [advance_matched_ev] at h
        rw [advance_matched_mem]
        refine onJob_ahead fun u hu hr => ?_
        unfold Mem.update at h
        rw [hr] at h
        exact h
      | done r => exact Nat.le_refl _
  | op o =>
    simp only [Conc.step] at h ⊢
    cases o with
    | complete id => exact onJob_ahead fun u _ _ => not_ahead_status (by simp [Job.markComplete]) (by simp [Job.markComplete])
    | retryable id next e =>
      refine onJob_ahead fun u _ hr => not_ahead_later ?_
      simp only [Mem.step, Mem.markRetryable, hr, Ev.QueuesBehind] at h
      exact h
    | discarded id e => exact onJob_ahead fun u _ _ => not_ahead_status (by simp [Job.markDiscarded]) (by simp [Job.markDiscarded])
    | cancelled id e => exact onJob_ahead fun u _ _ => not_ahead_status (by simp [Job.markCancelled]) (by simp [Job.markCancelled])
    | snoozed id next =>
      refine onJob_ahead fun u _ hr => not_ahead_later ?_
      simp only [Mem.step, Mem.markSnoozed, hr, Ev.QueuesBehind] at h
      exact h
    | rerun id =>
      refine onJob_ahead fun u _ hr => not_ahead_later ?_
      simp only [Mem.step, Mem.rerun, hr, Ev.QueuesBehind] at h
      exact h
    | update job =>
      refine onJob_ahead fun u _ hr => ?_
      simp only [Mem.step, Mem.update, hr, Ev.QueuesBehind] at h
      exact h
    | prune spec => exact (prune_sublist now spec c.mem).countP_le
    | query q => exact Nat.le_refl _
    | subscribe x => exact Nat.le_refl _
    | notifyAll => exact Nat.le_refl _
    | load x => exact load_ahead j now x c.mem

private theorem onJob_keeps {k : KeyedJob} {id : Int} {f : Job → Job} {w : Bool} {m : Mem}
    (hk : k ∈ m.jobs) (h : (m.onJob id f w).1 = .unit → id ≠ k.job.id) : k ∈ (m.onJob id f w).2.jobs := by
  rcases onJob_cases id f w m with ⟨-, he⟩ | ⟨l, k', r, h1, h2, h3, h4, h5, -⟩
  · rw [he]; exact hk
  · rw [h5]
    rw [h1] at hk
    rcases List.mem_append.mp hk with hk | hk
    · exact List.mem_append_left _ hk
    · rcases List.mem_cons.mp hk with rfl | hk
      · exact absurd h3.symm (h h4)
      · exact List.mem_append_right _ (List.mem_cons_of_mem _ hk)

private theorem retain_keeps {spec : PruneSpec} {n : Nat} {k : KeyedJob} (hs : spec.matches k.job = false) :
    ∀ (ks : List KeyedJob) (c : Nat), k ∈ ks → k ∈ Mem.retainLength spec n c ks := by
  intro ks
  induction ks with
  | nil => intro c h; simp at h
  | cons y ys ih =>
    intro c h
    simp only [Mem.retainLength]
    rcases List.mem_cons.mp h with rfl | h
    · simp [hs]
    · split
      · split
        · exact List.mem_cons_of_mem _ (ih _ h)
        · exact ih _ h
      · exact List.mem_cons_of_mem _ (ih _ h)

/-- a job nobody touches stays as it is, unless it is pruned -/
theorem untouched_stays {c : Conc} {now : Time} {a : Act} {k : KeyedJob} (hk : k ∈ c.mem.jobs)
    (ht : (c.step now a).1.touches k.job.id = false)
    (hp : ∀ spec, a = .op (.prune spec) → k ∈ (c.mem.prune now spec).jobs) :
    k ∈ (c.step now a).2.mem.jobs := by
  have un : ∀ {e : Ev}, e.touches k.job.id = false → e.finishes k.job.id = false ∧ e.handsOut k.job.id = false ∧
      e.retries k.job.id = false ∧ e.snoozes k.job.id = false ∧ e.reruns k.job.id = false ∧
      e.updates k.job.id = false ∧ e.conflicts k.job.id = false := by
    intro e he
    simp only [Ev.touches, Ev.putsBack, Bool.or_eq_false_iff] at he
    simp_all
  have ht' := un ht
  cases a with
  | start e => exact hk
  | advance i =>
    simp only [Conc.step] at ht' ⊢
    cases hc : c.calls[i]? with
    | none => exact hk
    | some p =>
      simp only [hc] at ht' ⊢
      cases p with
      | start e =>
        simp only [Mem.advance]
        split
        · exact hk
        · split <;> exact hk
      | noMatch e => exact hk
      | allocated id e => simp only [Mem.advance]; exact List.mem_append_left _ hk
      | pushed id e => simp only [Mem.advance, notify_jobs]; exact hk
      | matched job =>
        rw [advance_matched_ev] at ht'
        rw [advance_matched_mem]
        refine onJob_keeps hk fun hr => ?_
        unfold Mem.update at ht'
        rw [hr] at ht'
        simpa [Ev.conflicts] using ht'.2.2.2.2.2.2
      | done r => exact hk
  | op o =>
    simp only [Conc.step] at ht' ⊢
    cases o with
    | complete id =>
      refine onJob_keeps hk fun hr => ?_
      simp only [Mem.step, Mem.markComplete, hr] at ht'
      simpa [Ev.finishes] using ht'.1
    | retryable id next e =>
      refine onJob_keeps hk fun hr => ?_
      simp only [Mem.step, Mem.markRetryable, hr] at ht'
      simpa [Ev.retries] using ht'.2.2.1
    | discarded id e =>
      refine onJob_keeps hk fun hr => ?_
      simp only [Mem.step, Mem.markDiscarded, hr] at ht'
      simpa [Ev.finishes] using ht'.1
    | cancelled id e =>
      refine onJob_keeps hk fun hr => ?_
      simp only [Mem.step, Mem.markCancelled, hr] at ht'
      simpa [Ev.finishes] using ht'.1
    | snoozed id next =>
      refine onJob_keeps hk fun hr => ?_
      simp only [Mem.step, Mem.markSnoozed, hr] at ht'
      simpa [Ev.snoozes] using ht'.2.2.2.1
    | rerun id =>
      refine onJob_keeps hk fun hr => ?_
      simp only [Mem.step, Mem.rerun, hr] at ht'
      simpa [Ev.reruns] using ht'.2.2.2.2.1
    | update job =>
      refine onJob_keeps hk fun hr => ?_
      simp only [Mem.step, Mem.update, hr] at ht'
      simpa [Ev.updates] using ht'.2.2.2.2.2.1
    | prune spec => exact hp spec rfl
    | query q => exact hk
    | subscribe x => exact hk
    | notifyAll => exact hk
    | load x =>
      simp only [Mem.step] at ht' ⊢
      rcases load_cases now x c.mem with ⟨-, he⟩ | ⟨l, k', r, h1, -, -, -, h5⟩
      · rw [he]; exact hk
      · rw [h5] at ht' ⊢
        rw [h1] at hk
        simp only
        rcases List.mem_append.mp hk with hk | hk
        · exact List.mem_append_left _ hk
        · rcases List.mem_cons.mp hk with rfl | hk
          · simp [Ev.handsOut, Job.markExecuting] at ht'
          · exact List.mem_append_right _ (List.mem_cons_of_mem _ hk)

/-- a waiting job stays as it is while nothing touches it and no waiting job is pruned -/
theorem waiting_stays {c : Conc} {now : Time} {a : Act} {k : KeyedJob} (hk : k ∈ c.mem.jobs)
    (hw : k.job.status = .scheduled ∨ k.job.status = .retryable)
    (ht : (c.step now a).1.touches k.job.id = false) (hp : (c.step now a).1.KeepsWaiting) :
    k ∈ (c.step now a).2.mem.jobs := by
  refine untouched_stays hk ht ?_
  rintro spec rfl
  have hs : spec.matches k.job = false := by
    simp only [Conc.step, Ev.KeepsWaiting] at hp
    simp only [PruneSpec.matches]
    rcases hw with hw | hw <;> rw [hw] <;> simp_all <;> exact fun h => absurd h.symm (by simp_all)
  simp only [Mem.prune]
  split
  · exact List.mem_filter.mpr ⟨hk, by simp [hs]⟩
  · exact retain_keeps hs _ _ hk

/-- a stream that asks and does not get `j` takes a job that was ahead of it -/
theorem asking_takes {c : Conc} {now : Time} {a : Act} {k : KeyedJob} (hk : k ∈ c.mem.jobs)
    (hw : k.job.status = .scheduled ∨ k.job.status = .retryable)
    (hdue : k.job.scheduledAt < now + 100000000)
    (hask : (c.step now a).1.asks k.job.executor = true)
    (ht : (c.step now a).1.handsOut k.job.id = false) :
    (c.step now a).2.mem.jobs.countP (aheadOf k.job) < c.mem.jobs.countP (aheadOf k.job) := by
  have hready : readyFor now k.job.executor k.job = true := by
    rw [readyFor_iff]
    exact ⟨rfl, by simp only [Time, ms] at *; omega, by rcases hw with h | h <;> simp [h]⟩
  cases a with
  | start e => simp [Conc.step, Ev.asks] at hask
  | advance i =>
    exfalso
    simp only [Conc.step] at hask
    cases hc : c.calls[i]? with
    | none => rw [hc] at hask; simp [Ev.asks] at hask
    | some p =>
      simp only [hc] at hask
      cases p with
      | start e =>
        simp only [Mem.advance] at hask
        split at hask
        · simp [Ev.asks] at hask
        · split at hask <;> simp [Ev.asks] at hask
      | noMatch e => simp [Mem.advance, Ev.asks] at hask
      | allocated id e => simp [Mem.advance, Ev.asks] at hask
      | pushed id e => simp [Mem.advance, Ev.asks] at hask
      | matched job => rw [advance_matched_ev] at hask; simp [Ev.asks] at hask
      | done r => simp [Mem.advance, Ev.asks] at hask
  | op o =>
    cases o with
    | load x =>
      simp only [Conc.step, Ev.asks, beq_iff_eq] at hask
      subst hask
      simp only [Conc.step, Mem.step] at ht ⊢
      rcases load_cases now k.job.executor c.mem with ⟨hne, -⟩ | ⟨l, k', r, h1, h2, h3, h4, h5⟩
      · rw [hne k hk] at hready; cases hready
      · rw [h5] at ht ⊢
        simp only [Ev.handsOut, Job.markExecuting, beq_eq_false_iff_ne] at ht
        have hfront : InFront k'.job k.job := by
          rw [h1] at hk
          rcases List.mem_append.mp hk with hk | hk
          · have h := h3 k hk hready
            have h' := (dueBefore_total k.job k'.job).resolve_left (by simp [h])
            rw [dueBefore_iff] at h'
            exact h'
          · rcases List.mem_cons.mp hk with rfl | hk
            · exact absurd rfl ht
            · have h' := h4 k hk hready
              rw [dueBefore_iff] at h'
              exact h'
        have ha : aheadOf k.job k' = true := by
          rw [readyFor_iff] at h2
          simp only [aheadOf, decide_eq_true_eq]
          exact ⟨ht, h2.1, h2.2.2, hfront⟩
        have hn : aheadOf k.job { k' with job := k'.job.markExecuting now } = false := by
          simp only [aheadOf, decide_eq_false_iff_not]
          exact not_ahead_status (by simp [Job.markExecuting]) (by simp [Job.markExecuting])
        simp only
        rw [h1]
        simp only [List.countP_append, List.countP_cons, ha, hn]
        simp
    | _ => simp [Conc.step, Ev.asks] at hask

private theorem no_starvation {h : List TEv} {c : Conc} (H : HistOk h c) (as : List TAct) (k : KeyedJob)
    (hk : k ∈ c.mem.jobs) (hb : (c.run as).mem.allocated ≤ 4294967296)
    (hw : k.job.status = .scheduled ∨ k.job.status = .retryable)
    (hdue : ∀ e ∈ c.trace as, e.ev.asks k.job.executor = true → k.job.scheduledAt < e.now + 100000000)
    (hleft : ∀ e ∈ c.trace as, e.ev.finishes k.job.id = false ∧ e.ev.putsBack k.job.id = false ∧ e.ev.KeepsWaiting)
    (hbehind : ∀ e ∈ c.trace as, e.ev.QueuesBehind k.job e.now)
    (hmany : c.mem.jobs.countP (fun a => decide (Ahead k.job a.job))
      < (c.trace as).countP (fun e => e.ev.asks k.job.executor)) :
    ∃ e ∈ c.trace as, e.ev = .op (.load k.job.executor) (.job (some (handedOut e.now k.job))) := by
  induction as generalizing h c with
  | nil => simp [Conc.trace] at hmany
  | cons a as ih =>
    simp only [Conc.run] at hb
    simp only [Conc.trace] at hdue hleft hbehind hmany ⊢
    cases hh : (c.step a.now a.act).1.handsOut k.job.id with
    | true =>
      refine ⟨_, List.mem_cons_self, ?_⟩
      unfold Ev.handsOut at hh
      split at hh
      · rename_i x j hev
        obtain ⟨-, l, k', r, h1, h2, -, -, h5, -⟩ := handout_cases hev
        have hk' : k' ∈ c.mem.jobs := by rw [h1]; simp
        have : k' = k := by
          refine eq_of_id H.ids_nodup hk hk' ?_
          rw [h5] at hh
          simpa [Job.markExecuting] using hh
        subst this
        have hx := (readyFor_iff.mp h2).1
        simp only
        rw [hev, h5, hx]; rfl
      · cases hh
    | false =>
      have hl := hleft _ List.mem_cons_self
      have ht : (c.step a.now a.act).1.touches k.job.id = false := by
        simp only [Ev.touches, hh, hl.1, hl.2.1]; rfl
      have hk' := waiting_stays hk hw ht hl.2.2
      have hb' : (c.step a.now a.act).2.mem.jobs.countP (aheadOf k.job) ≤ c.mem.jobs.countP (aheadOf k.job) :=
        ahead_step_le (hbehind _ List.mem_cons_self)
      have : (c.step a.now a.act).2.mem.jobs.countP (aheadOf k.job)
          < ((c.step a.now a.act).2.trace as).countP (fun e => e.ev.asks k.job.executor) := by
        change c.mem.jobs.countP (aheadOf k.job) < _ at hmany
        simp only [List.countP_cons] at hmany
        cases hask : (c.step a.now a.act).1.asks k.job.executor with
        | false => simp only [hask] at hmany; simp at hmany; omega
        | true =>
          have : (c.step a.now a.act).2.mem.jobs.countP (aheadOf k.job) < c.mem.jobs.countP (aheadOf k.job) :=
            asking_takes hk hw (hdue _ List.mem_cons_self hask) hask hh
          simp only [hask] at hmany; simp at hmany; omega
      obtain ⟨e, he, h⟩ := ih (H.step (Nat.le_trans (run_allocated_le _ as) hb)) hk' hb
        (fun e he => hdue e (List.mem_cons_of_mem _ he))
        (fun e he => hleft e (List.mem_cons_of_mem _ he))
        (fun e he => hbehind e (List.mem_cons_of_mem _ he)) this
      exact ⟨e, List.mem_cons_of_mem _ he, h⟩

/-- **C84.** Start from any reachable state of the backend in which job `k` is waiting. As
long as nobody prunes waiting jobs, nobody else touches `k`, no job is put in the queue in
front of `k`, and streams of its executor ask only once it is due (up to 100 ms early):
when they have asked more often than there were waiting jobs ahead of `k`, then `k`
has been handed out. -/
theorem C84_no_starvation (paused : Bool) (as₁ as₂ : List TAct)
    (hids : idsTaken ((fresh paused).trace (as₁ ++ as₂)) ≤ 4294967296)
    (k : KeyedJob) (hk : k ∈ ((fresh paused).run as₁).mem.jobs)
    (hw : k.job.status = .scheduled ∨ k.job.status = .retryable)
    (hdue : ∀ e ∈ ((fresh paused).run as₁).trace as₂, e.ev.asks k.job.executor = true →
      k.job.scheduledAt < e.now + 100000000)
    (hleft : ∀ e ∈ ((fresh paused).run as₁).trace as₂,
      e.ev.finishes k.job.id = false ∧ e.ev.putsBack k.job.id = false ∧ e.ev.KeepsWaiting)
    (hbehind : ∀ e ∈ ((fresh paused).run as₁).trace as₂, e.ev.QueuesBehind k.job e.now)
    (hmany : ((fresh paused).run as₁).mem.jobs.countP (fun a => decide (Ahead k.job a.job))
      < (((fresh paused).run as₁).trace as₂).countP (fun e => e.ev.asks k.job.executor)) :
    ∃ e ∈ ((fresh paused).run as₁).trace as₂,
      e.ev = .op (.load k.job.executor) (.job (some (handedOut e.now k.job))) := by
  have hids' := hids
  rw [Conc.trace_append] at hids'
  refine no_starvation (histOk_run paused as₁ (idsTaken_append_le hids')) as₂ k hk ?_ hw hdue hleft hbehind hmany
  rw [← Conc.run_append, ← (histOk_run paused _ hids).taken]
  exact hids

/-- Two jobs are ahead of the third; a fourth, due later, arrives meanwhile; the third
request of the streams hands the third job out. -/
def starvationHistory : List TAct :=
  [call 10 (.load "mail")] ++ enqSteps 12 3 { sampleEnq with scheduledAt := 12 } ++
    [call 15 (.load "mail"), call 16 (.complete 0), call 20 (.load "mail")]

def starvationStart : Conc :=
  fresh.run (enqSteps 1 0 { sampleEnq with scheduledAt := 1 } ++ enqSteps 2 1 { sampleEnq with scheduledAt := 2 } ++
    enqSteps 3 2 { sampleEnq with scheduledAt := 3 })

example : ∃ k ∈ starvationStart.mem.jobs, k.job.id = 2 ∧ k.job.status = .scheduled ∧
    starvationStart.mem.jobs.countP (fun a => decide (Ahead k.job a.job)) = 2 ∧
    (starvationStart.trace starvationHistory).countP (fun e => e.ev.asks k.job.executor) = 3 ∧
    (∀ e ∈ starvationStart.trace starvationHistory, e.ev.asks k.job.executor = true → k.job.scheduledAt < e.now + 100000000) ∧
    (∀ e ∈ starvationStart.trace starvationHistory,
      e.ev.finishes k.job.id = false ∧ e.ev.putsBack k.job.id = false ∧ e.ev.KeepsWaiting) ∧
    (∀ e ∈ starvationStart.trace starvationHistory, e.ev.QueuesBehind k.job e.now) := by
  refine ⟨_, List.getElem_mem (n := 2) (by decide), by decide, by decide, by decide, by decide, by decide, by decide, by decide⟩

private theorem polls_le (x : String) (h : List TSEv) :
    countEv (SEv.polls x) h ≤ (backHistory h).countP (fun e => e.ev.asks x) := by
  induction h with
  | nil => simp [countEv, backHistory]
  | cons e h ih =>
    simp only [countEv, backHistory, List.countP_cons, List.filterMap_cons] at ih ⊢
    cases hb : e.ev.back with
    | none =>
      have : e.ev.polls x = false := by
        cases he : e.ev <;> simp_all [SEv.polls, SEv.back]
      simp [this]; exact ih
    | some ev =>
      have : e.ev.polls x = true → ev.asks x = true := by
        cases he : e.ev <;> simp_all [SEv.polls, SEv.back]
      simp only [Option.map_some, List.countP_cons]
      cases hp : e.ev.polls x with
      | false => simp; omega
      | true => simp [this hp]; omega

private theorem reportable_run (defs : List Runner) (p : Bool) (as : List TSAct) :
    AllReportable ((Sys.init defs p).run defs as) := by
  refine sys_induction (fun _ s => AllReportable s) ?_ ?_ as
  · intro r f o hf; rw [flightsOf_init] at hf; simp at hf
  · intro h s now a ev s' R hs
    exact allReportable_step R hs

/-- **C84, at the level of runners.** Start from any reachable state of a system in which
job `k` is waiting and every runner of its executor can start it. Under the conditions of
the previous theorem, and if only runners take jobs: when runners of its executor have
polled more often than there were waiting jobs ahead of `k`, one of them has started
executing it. -/
theorem C84_executed (defs : List Runner) (paused : Bool) (as₁ as₂ : List TSAct)
    (hids : idsTaken (backHistory ((Sys.init defs paused).trace defs (as₁ ++ as₂))) ≤ 4294967296)
    (k : KeyedJob) (hk : k ∈ ((Sys.init defs paused).run defs as₁).conc.mem.jobs)
    (hw : k.job.status = .scheduled ∨ k.job.status = .retryable)
    (hstart : ∀ d ∈ defs, d.name = k.job.executor → ∀ now, ∃ t, d.start (handedOut now k.job) = .running t)
    (hdue : ∀ e ∈ backHistory (((Sys.init defs paused).run defs as₁).trace defs as₂),
      e.ev.asks k.job.executor = true → k.job.scheduledAt < e.now + 100000000)
    (hleft : ∀ e ∈ backHistory (((Sys.init defs paused).run defs as₁).trace defs as₂),
      e.ev.finishes k.job.id = false ∧ e.ev.putsBack k.job.id = false ∧ e.ev.KeepsWaiting)
    (hbehind : ∀ e ∈ backHistory (((Sys.init defs paused).run defs as₁).trace defs as₂),
      e.ev.QueuesBehind k.job e.now)
    (honly : ∀ e ∈ ((Sys.init defs paused).run defs as₁).trace defs as₂, ∀ ev, e.ev = .client ev →
      ev.handsOut k.job.id = false)
    (hmany : ((Sys.init defs paused).run defs as₁).conc.mem.jobs.countP (fun a => decide (Ahead k.job a.job))
      < countEv (SEv.polls k.job.executor) (((Sys.init defs paused).run defs as₁).trace defs as₂)) :
    ∃ e ∈ ((Sys.init defs paused).run defs as₁).trace defs as₂, e.ev.executes k.job.id = true := by
  rw [Sys.trace_append, backHistory_append] at hids
  have H := histOk_sys defs paused as₁ (idsTaken_append_le hids)
  obtain ⟨bs, hbs, hrun⟩ := sys_back defs ((Sys.init defs paused).run defs as₁) as₂
  generalize hs : (Sys.init defs paused).run defs as₁ = s at *
  rw [hbs] at hdue hleft hbehind hids
  have hal : (s.conc.run bs).mem.allocated ≤ 4294967296 := by
    rw [← trace_taken, ← H.taken, ← idsTaken_append]; exact hids
  have hcount : countEv (SEv.polls k.job.executor) (s.trace defs as₂)
      ≤ (s.conc.trace bs).countP (fun e => e.ev.asks k.job.executor) := by
    rw [← hbs]; exact polls_le _ _
  obtain ⟨e, he, hev⟩ := no_starvation H bs k hk hal hw hdue hleft hbehind (Nat.lt_of_lt_of_le hmany hcount)
  rw [← hbs, backHistory, List.mem_filterMap] at he
  obtain ⟨se, hse, h1⟩ := he
  refine ⟨se, hse, ?_⟩
  rw [Option.map_eq_some_iff] at h1
  obtain ⟨ev, hback, rfl⟩ := h1
  simp only at hev
  subst hev
  obtain ⟨pre, post, hsp⟩ := List.append_of_mem hse
  obtain ⟨as₃, as₄, rfl, h3, h4⟩ := Sys.trace_split hsp
  obtain ⟨a, as₅, rfl, h5, -⟩ := Sys.trace_cons h4
  have R : AllReportable (s.run defs as₃) := by
    rw [← hs, ← Sys.run_append]
    exact reportable_run defs paused _
  have hstep := step_sstep defs a.now (s.run defs as₃) a.act
  have hev : se.ev = ((s.run defs as₃).step defs a.now a.act).1 := by rw [h5]
  rw [← hev] at hstep
  generalize ((s.run defs as₃).step defs a.now a.act).2 = s' at hstep
  generalize hse' : se.ev = sev at *
  generalize a.act = act at hstep
  cases hstep with
  | client b =>
    simp only [SEv.back, Option.some.injEq] at hback
    have := honly se hse _ hse'
    rw [hback] at this
    simp [Ev.handsOut, handedOut] at this
  | idle => simp [SEv.back] at hback
  | empty r d rs hd hr hp hl he => simp [SEv.back] at hback
  | started r d rs j t hd hr hp hl he hst =>
    simp only [SEv.back, Option.some.injEq, Ev.op.injEq, Res.job.injEq] at hback
    obtain ⟨-, rfl⟩ := hback
    have := (start_running hst).1
    simp [SEv.executes, this, handedOut]
  | undecodable r d rs j hd hr hp hl he hst =>
    simp only [SEv.back, Option.some.injEq, Ev.op.injEq, Res.job.injEq, Op.load.injEq] at hback
    obtain ⟨hn, rfl⟩ := hback
    obtain ⟨t, ht⟩ := hstart d (List.mem_of_getElem? hd) hn se.now
    rw [ht] at hst; cases hst
  | panicked r d rs j hd hr hp hl he hst =>
    simp only [SEv.back, Option.some.injEq, Ev.op.injEq, Res.job.injEq, Op.load.injEq] at hback
    obtain ⟨hn, rfl⟩ := hback
    obtain ⟨t, ht⟩ := hstart d (List.mem_of_getElem? hd) hn se.now
    rw [ht] at hst; cases hst
  | ended => simp [SEv.back] at hback
  | overflowed => simp [SEv.back] at hback
  | reported r i rs t o hr hf =>
    simp only [SEv.back, Option.some.injEq, Conc.step, Ev.op.injEq] at hback
    have : Reportable t o := R r _ o (by rw [flightsOf_some hr]; exact List.mem_of_getElem? hf) rfl
    rcases reportable_cases this with rfl | ⟨e, rfl⟩ | ⟨x, rfl⟩ | ⟨-, e, rfl⟩ | ⟨-, x, e, rfl⟩ <;>
      simp at hback
  | shutdown => simp [SEv.back] at hback

/-- Two runners share the work: three jobs are waiting, and the third poll starts the third. -/
def starvationSystem : List TSAct :=
  (enqSteps 1 0 { sampleEnq with scheduledAt := 1 } ++ enqSteps 2 1 { sampleEnq with scheduledAt := 2 } ++
    enqSteps 3 2 { sampleEnq with scheduledAt := 3 }).map fun a => ⟨a.now, .client a.act⟩

def starvationPolls : List TSAct := [⟨10, .pull 0⟩, ⟨11, .pull 1⟩, ⟨12, .shutdown⟩, ⟨13, .pull 0⟩]

example :
    let defs := [eagerRunner none, eagerRunner none]
    let s := (Sys.init defs).run defs starvationSystem
    ∃ k ∈ s.conc.mem.jobs, k.job.id = 1 ∧
      s.conc.mem.jobs.countP (fun a => decide (Ahead k.job a.job)) = 1 ∧
      countEv (SEv.polls "mail") (s.trace defs starvationPolls) = 2 ∧
      (s.trace defs starvationPolls).any (fun e => e.ev.executes 1) = true ∧
      (s.trace defs starvationPolls).any (fun e => e.ev.executes 2) = false ∧
      (∀ d ∈ defs, ∀ now, ∃ t, d.start (handedOut now k.job) = .running t) := by
  refine ⟨_, List.getElem_mem (n := 1) (by decide), by decide, by decide, by decide, by decide, by decide, ?_⟩
  intro d hd now
  simp only [List.mem_cons, List.not_mem_nil, or_false, or_self] at hd
  subst hd
  exact ⟨_, rfl⟩

end Rexecutor
