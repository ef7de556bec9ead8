import Verif.Spec.PgHistory
import Verif.Spec.Samples

/-!
# C127: the stored numbers fit their columns

The fields `attempt`, `max_attempts`, `priority` and `id` of a job are `i32` in memory and `INTEGER` in the table; the models have unbounded
integers instead. Here it is shown that no history that is not absurdly long can tell the difference.
-/

namespace Rexecutor

/-- The number fits an `i32` or `INTEGER`. -/
def FitsI32 (x : Int) : Prop := -2147483648 ≤ x ∧ x ≤ 2147483647

instance (x : Int) : Decidable (FitsI32 x) := inferInstanceAs (Decidable (_ ∧ _))

/-- The number fits a `u16`. -/
def FitsU16 (x : Int) : Prop := 0 ≤ x ∧ x ≤ 65535

instance (x : Int) : Decidable (FitsU16 x) := inferInstanceAs (Decidable (_ ∧ _))

/-- The fields of a job to be enqueued that are `u16` (rexecutor/src/backend.rs:207, 221). -/
def EnqueuableJob.InRange (e : EnqueuableJob) : Prop := FitsU16 e.maxAttempts ∧ FitsU16 e.priority

/-- The fields of a job to be written by `update_job` that come from a `u16` (rexecutor/src/job.rs:77-89,
rexecutor/src/backend.rs:366-395). -/
def Job.InRange (j : Job) : Prop := FitsU16 j.attempt ∧ FitsU16 j.maxAttempts ∧ FitsU16 j.priority

/-- The numbers a client passes have the range of their types. -/
def Op.InRange : Op → Prop
  | .update j => j.InRange
  | _ => True

/-- The numbers a client passes have the range of their types. -/
def Act.InRange : Act → Prop
  | .start e => e.InRange
  | .op o => o.InRange
  | _ => True

/-- The numbers a client passes have the range of their types. -/
def PgAct.InRange : PgAct → Prop
  | .unique e _ => e.InRange
  | .plain e => e.InRange
  | .stmt o => o.InRange
  | _ => True

/-- A stream got a job. -/
def Ev.isHandout : Ev → Bool
  | .op (.load _) (.job (some _)) => true
  | _ => false

/-- A job was snoozed. -/
def Ev.isSnooze : Ev → Bool
  | .op (.snoozed _ _) .unit => true
  | _ => false

/-- A job was rerun. -/
def Ev.isRerun : Ev → Bool
  | .op (.rerun _) .unit => true
  | _ => false

/-- A row was handed out. -/
def PgEv.isHandout : PgEv → Bool
  | .handedOut _ _ => true
  | _ => false

/-- A snooze was tried. -/
def PgEv.isSnooze : PgEv → Bool
  | .stmt (.snoozed _ _) _ => true
  | _ => false

/-- A rerun was tried. -/
def PgEv.isRerun : PgEv → Bool
  | .stmt (.rerun _) _ => true
  | _ => false

/-! ## In memory -/

private def JOk (h z r : Int) (j : Job) : Prop :=
  FitsI32 j.id ∧ -z ≤ j.attempt ∧ j.attempt ≤ 65535 + h ∧ 0 ≤ j.maxAttempts ∧ j.maxAttempts ≤ 65535 + r ∧ FitsU16 j.priority

private theorem JOk.mono {h z r h' z' r' : Int} {j : Job} (H : JOk h z r j) (hh : h ≤ h') (hz : z ≤ z') (hr : r ≤ r') : JOk h' z' r' j := by
  obtain ⟨a, b, c, d, e, f⟩ := H
  exact ⟨a, by omega, by omega, d, by omega, f⟩

private def POk (h z r : Int) : Pending → Prop
  | .start e => e.InRange
  | .noMatch e => e.InRange
  | .allocated id e => FitsI32 id ∧ e.InRange
  | .pushed _ _ => True
  | .matched j => JOk h z r j
  | .done _ => True

private theorem POk.mono {h z r h' z' r' : Int} {p : Pending} (H : POk h z r p) (hh : h ≤ h') (hz : z ≤ z') (hr : r ≤ r') : POk h' z' r' p := by
  cases p <;> first | exact H | exact JOk.mono H hh hz hr

private def MemOk (h z r : Int) (m : Mem) : Prop := ∀ k ∈ m.jobs, JOk h z r k.job

private theorem MemOk.mono {h z r h' z' r' : Int} {m : Mem} (H : MemOk h z r m) (hh : h ≤ h') (hz : z ≤ z') (hr : r ≤ r') : MemOk h' z' r' m :=
  fun k hk => (H k hk).mono hh hz hr

private def COk (h z r : Int) (c : Conc) : Prop := MemOk h z r c.mem ∧ ∀ p ∈ c.calls, POk h z r p

private theorem wrap_fits (n : Nat) : FitsI32 (wrapI32 n) := by
  have h : n % 4294967296 < 4294967296 := Nat.mod_lt _ (by decide)
  unfold wrapI32 FitsI32
  generalize n % 4294967296 = x at *
  dsimp only
  split <;> omega

private theorem notify_jobs' (x : String) (t : Time) (m : Mem) : (m.notify x t).jobs = m.jobs := by
  simp only [Mem.notify]; split <;> rfl

private theorem updateById_ok {P Q : Job → Prop} {id : Int} {f : Job → Job} {ks ks' : List KeyedJob} {j : Job} (hQ : ∀ k ∈ ks, P k.job)
    (hPQ : ∀ j, P j → Q j) (hf : ∀ j, j.id = id → P j → Q (f j)) (h : updateById id f ks = some (ks', j)) : ∀ k ∈ ks', Q k.job := by
  induction ks generalizing ks' with
  | nil => cases h
  | cons k ks ih =>
    simp only [updateById] at h
    split at h
    · rename_i hid
      cases h
      intro k' hk'
      rcases List.mem_cons.mp hk' with rfl | hk'
      · exact hf _ hid (hQ _ (by simp))
      · exact hPQ _ (hQ _ (by simp [hk']))
    · cases hu : updateById id f ks with
      | none => rw [hu] at h; cases h
      | some x =>
        rw [hu] at h
        obtain ⟨x1, x2⟩ := x
        simp only [Option.map_some, Option.some.injEq, Prod.mk.injEq] at h
        obtain ⟨h1, h2⟩ := h
        subst h1 h2
        intro k' hk'
        rcases List.mem_cons.mp hk' with rfl | hk'
        · exact hPQ _ (hQ _ (by simp))
        · exact ih (fun k hk => hQ k (by simp [hk])) hu k' hk'

private theorem onJob_ok {P Q : Job → Prop} {id : Int} {f : Job → Job} {wake : Bool} {m : Mem} (hQ : ∀ k ∈ m.jobs, P k.job)
    (hPQ : ∀ j, P j → Q j) (hf : ∀ j, j.id = id → P j → Q (f j)) : ∀ k ∈ (m.onJob id f wake).2.jobs, Q k.job := by
  simp only [Mem.onJob]
  cases hu : updateById id f m.jobs with
  | none => exact fun k hk => hPQ _ (hQ k hk)
  | some x =>
    obtain ⟨ks, j⟩ := x
    have : ∀ k ∈ ks, Q k.job := updateById_ok hQ hPQ hf hu
    cases wake
    · exact this
    · intro k hk
      simp only [if_true, notify_jobs'] at hk
      exact this k hk

private theorem retain_sub (spec : PruneSpec) (l n : Nat) (ks : List KeyedJob) : ∀ k ∈ Mem.retainLength spec l n ks, k ∈ ks := by
  induction ks generalizing n with
  | nil => simp [Mem.retainLength]
  | cons a ks ih =>
    intro k hk
    simp only [Mem.retainLength] at hk
    split at hk
    · split at hk
      · rcases List.mem_cons.mp hk with rfl | hk
        · simp
        · simp [ih _ k hk]
      · simp [ih _ k hk]
    · rcases List.mem_cons.mp hk with rfl | hk
      · simp
      · simp [ih _ k hk]

private theorem insertBy_mem {α : Type} (le : α → α → Bool) (a x : α) (l : List α) : x ∈ insertBy le a l → x = a ∨ x ∈ l := by
  induction l with
  | nil => simp [insertBy]
  | cons b l ih =>
    simp only [insertBy]
    split
    · simp
    · intro h
      rcases List.mem_cons.mp h with rfl | h
      · simp
      · rcases ih h with h | h <;> simp [h]

private theorem sortBy_mem {α : Type} (le : α → α → Bool) (x : α) (l : List α) : x ∈ sortBy le l → x ∈ l := by
  induction l with
  | nil => simp [sortBy]
  | cons a l ih =>
    intro h
    rcases insertBy_mem le a x _ h with h | h
    · simp [h]
    · simp [ih h]

private def plus (b : Bool) : Int := if b then 1 else 0

private theorem plus_nonneg (b : Bool) : 0 ≤ plus b := by cases b <;> simp [plus]

private theorem op_ok {h z r : Int} {m : Mem} (now : Time) (o : Op) (H : MemOk h z r m) (hz : 0 ≤ z) (ho : o.InRange) (hh : 0 ≤ h) (hr : 0 ≤ r) :
    MemOk (h + plus (Ev.op o (m.step now o).1).isHandout) (z + plus (Ev.op o (m.step now o).1).isSnooze)
      (r + plus (Ev.op o (m.step now o).1).isRerun) (m.step now o).2 := by
  have keep : ∀ (m' : Mem), (∀ k ∈ m'.jobs, k ∈ m.jobs) → ∀ a b c : Bool, MemOk (h + plus a) (z + plus b) (r + plus c) m' := by
    intro m' hs a b c k hk
    have := plus_nonneg a; have := plus_nonneg b; have := plus_nonneg c
    exact (H k (hs k hk)).mono (by omega) (by omega) (by omega)
  have same : ∀ (id : Int) (f : Job → Job) (wake : Bool), (∀ j, JOk h z r j → JOk h z r (f j)) →
      ∀ a b c : Bool, MemOk (h + plus a) (z + plus b) (r + plus c) (m.onJob id f wake).2 := by
    intro id f wake hf a b c
    have := plus_nonneg a; have := plus_nonneg b; have := plus_nonneg c
    exact MemOk.mono (onJob_ok H (fun _ h => h) fun j _ => hf j) (by omega) (by omega) (by omega)
  cases o with
  | complete id => exact same id (Job.markComplete now) false (fun j hj => hj) _ _ _
  | retryable id next e => exact same id (Job.markRetryable now next e) true (fun j hj => hj) _ _ _
  | discarded id e => exact same id (Job.markDiscarded now e) false (fun j hj => hj) _ _ _
  | cancelled id e => exact same id (Job.markCancelled now e) false (fun j hj => hj) _ _ _
  | snoozed id next =>
    simp only [Mem.step, Mem.markSnoozed]
    cases hu : updateById id (Job.markSnoozed next) m.jobs with
    | none => exact keep _ (by simp only [Mem.onJob, hu]; exact fun k hk => hk) _ _ _
    | some x =>
      have e1 : (m.onJob id (Job.markSnoozed next) true).1 = .unit := by obtain ⟨a, b⟩ := x; simp [Mem.onJob, hu]
      rw [e1]
      simp only [Ev.isHandout, Ev.isSnooze, Ev.isRerun, plus, if_true, Bool.false_eq_true, if_false]
      refine onJob_ok (P := JOk h z r) H (fun j hj => hj.mono (by omega) (by omega) (by omega)) fun j _ hj => ?_
      obtain ⟨a, b, c, d, e, f⟩ := hj
      exact ⟨a, by simp only [Job.markSnoozed]; omega, by simp only [Job.markSnoozed]; omega, d, by simp only [Job.markSnoozed]; omega, f⟩
  | rerun id =>
    simp only [Mem.step, Mem.rerun]
    cases hu : updateById id (Job.markRerunable now) m.jobs with
    | none => exact keep _ (by simp only [Mem.onJob, hu]; exact fun k hk => hk) _ _ _
    | some x =>
      have e1 : (m.onJob id (Job.markRerunable now) true).1 = .unit := by obtain ⟨a, b⟩ := x; simp [Mem.onJob, hu]
      rw [e1]
      simp only [Ev.isHandout, Ev.isSnooze, Ev.isRerun, plus, if_true, Bool.false_eq_true, if_false]
      refine onJob_ok (P := JOk h z r) H (fun j hj => hj.mono (by omega) (by omega) (by omega)) fun j _ hj => ?_
      obtain ⟨a, b, c, d, e, f⟩ := hj
      exact ⟨a, by simp only [Job.markRerunable]; omega, by simp only [Job.markRerunable]; omega, by simp only [Job.markRerunable]; omega,
        by simp only [Job.markRerunable]; omega, f⟩
  | update j =>
    have hx := plus_nonneg; 
    refine MemOk.mono (h := h) (z := z) (r := r) (onJob_ok (P := JOk h z r) H (fun j hj => hj) fun j' hid hj' => ?_)
      (by have := hx (Ev.op (.update j) (m.step now (.update j)).1).isHandout; omega)
      (by have := hx (Ev.op (.update j) (m.step now (.update j)).1).isSnooze; omega)
      (by have := hx (Ev.op (.update j) (m.step now (.update j)).1).isRerun; omega)
    obtain ⟨⟨h1, h2⟩, ⟨h3, h4⟩, h5⟩ := ho
    exact ⟨hid ▸ hj'.1, by omega, by omega, h3, by omega, h5⟩
  | prune spec =>
    refine keep _ ?_ _ _ _
    intro k hk
    simp only [Mem.step, Mem.prune] at hk
    split at hk
    · exact (List.mem_filter.mp hk).1
    · exact retain_sub _ _ _ _ k hk
  | query q => exact keep _ (fun k hk => hk) _ _ _
  | load x =>
    simp only [Mem.step, Mem.load]
    cases hs : sortBy (fun a b => dueBefore a.1.job b.1.job) (m.jobs.zipIdx.filter fun (k, _) => readyFor now x k.job) with
    | nil => exact keep _ (fun k hk => hk) _ _ _
    | cons a l =>
      obtain ⟨k, i⟩ := a
      simp only [Ev.isHandout, Ev.isSnooze, Ev.isRerun, plus, if_true, Bool.false_eq_true, if_false]
      have hk : k ∈ m.jobs := by
        have := sortBy_mem _ (k, i) _ (by rw [hs]; simp)
        have := (List.mem_filter.mp this).1
        rw [List.mk_mem_zipIdx_iff_getElem?] at this
        exact List.mem_of_getElem? this
      intro k' hk'
      rcases List.mem_or_eq_of_mem_set hk' with hk' | rfl
      · exact (H k' hk').mono (by omega) (by omega) (by omega)
      · obtain ⟨a, b, c, d, e, f⟩ := H k hk
        exact ⟨a, by simp only [Job.markExecuting]; omega, by simp only [Job.markExecuting]; omega, d, by simp only [Job.markExecuting]; omega, f⟩
  | subscribe x => exact keep _ (fun k hk => hk) _ _ _
  | notifyAll => exact keep _ (fun k hk => hk) _ _ _

private theorem replace_ok {h z r : Int} (hr : 0 ≤ r) {e : EnqueuableJob} (he : e.InRange) {j : Job} (hj : JOk h z r j) : JOk h z r (j.replace e) := by
  obtain ⟨a, b, c, d, e1, f⟩ := hj
  simp only [Job.replace]
  split
  · split
    · refine ⟨a, b, c, ?_, ?_, ?_⟩ <;> simp only <;> split <;>
        first | exact he.2 | exact f | assumption | (have := he.1.1; have := he.1.2; omega)
    · exact ⟨a, b, c, d, e1, f⟩
  · exact ⟨a, b, c, d, e1, f⟩

private theorem advance_ok {h z r : Int} (hh : 0 ≤ h) (hz : 0 ≤ z) (hr : 0 ≤ r) {m : Mem} {p : Pending} (now : Time) (H : MemOk h z r m)
    (hp : POk h z r p) : MemOk h z r (m.advance now p).2.2 ∧ POk h z r (m.advance now p).2.1 := by
  cases p with
  | start e =>
    simp only [Mem.advance]
    cases hc : e.criteria with
    | none => exact ⟨H, wrap_fits _, hp⟩
    | some uc =>
      cases hf : m.jobs.filter fun k => e.matches now k with
      | nil => exact ⟨H, hp⟩
      | cons k ks =>
        have hk : k ∈ m.jobs := (List.mem_filter.mp (by rw [hf]; simp : k ∈ m.jobs.filter fun k => e.matches now k)).1
        exact ⟨H, replace_ok hr hp (H k hk)⟩
  | noMatch e => exact ⟨H, wrap_fits _, hp⟩
  | allocated id e =>
    refine ⟨?_, trivial⟩
    intro k hk
    rcases List.mem_append.mp hk with hk | hk
    · exact H k hk
    · rw [List.mem_singleton] at hk
      subst hk
      obtain ⟨h1, ⟨h2, h3⟩, h4⟩ := hp
      exact ⟨h1, by simp only [EnqueuableJob.intoJob]; omega, by simp only [EnqueuableJob.intoJob]; omega, h2,
        by simp only [EnqueuableJob.intoJob]; omega, h4⟩
  | pushed id e => exact ⟨fun k hk => H k (by simpa only [Mem.advance, notify_jobs'] using hk), trivial⟩
  | matched j =>
    have hu : MemOk h z r (m.update j).2 := onJob_ok H (fun j hj => hj) fun _ _ _ => hp
    simp only [Mem.advance]
    generalize m.update j = x at hu ⊢
    obtain ⟨x1, x2⟩ := x
    cases x1 <;> exact ⟨hu, trivial⟩
  | done x => exact ⟨H, trivial⟩

private theorem step_ok {h z r : Int} (hh : 0 ≤ h) (hz : 0 ≤ z) (hr : 0 ≤ r) {c : Conc} (now : Time) (a : Act) (H : COk h z r c) (ha : a.InRange) :
    COk (h + plus (c.step now a).1.isHandout) (z + plus (c.step now a).1.isSnooze) (r + plus (c.step now a).1.isRerun) (c.step now a).2 := by
  have n1 := plus_nonneg (c.step now a).1.isHandout
  have n2 := plus_nonneg (c.step now a).1.isSnooze
  have n3 := plus_nonneg (c.step now a).1.isRerun
  have up : ∀ c', COk h z r c' →
      COk (h + plus (c.step now a).1.isHandout) (z + plus (c.step now a).1.isSnooze) (r + plus (c.step now a).1.isRerun) c' :=
    fun c' H => ⟨H.1.mono (by omega) (by omega) (by omega), fun p hp => (H.2 p hp).mono (by omega) (by omega) (by omega)⟩
  cases a with
  | start e =>
    refine up _ ⟨H.1, fun p hp => ?_⟩
    rcases List.mem_append.mp hp with hp | hp
    · exact H.2 p hp
    · rw [List.mem_singleton] at hp; subst hp; exact ha
  | advance i =>
    refine up _ ?_
    simp only [Conc.step]
    cases hi : c.calls[i]? with
    | none => exact H
    | some p =>
      have hp := H.2 p (List.mem_of_getElem? hi)
      obtain ⟨h1, h2⟩ := advance_ok hh hz hr now H.1 hp
      refine ⟨h1, fun q hq => ?_⟩
      rcases List.mem_or_eq_of_mem_set hq with hq | rfl
      · exact H.2 q hq
      · exact h2
  | op o =>
    exact ⟨op_ok now o H.1 hz ha hh hr, fun p hp => (H.2 p hp).mono (by omega) (by omega) (by omega)⟩

private theorem run_ok {h z r : Int} (hh : 0 ≤ h) (hz : 0 ≤ z) (hr : 0 ≤ r) {c : Conc} (as : List TAct) (H : COk h z r c) (ha : ∀ a ∈ as, a.act.InRange) :
    COk (h + (c.trace as).countP (fun e => e.ev.isHandout)) (z + (c.trace as).countP (fun e => e.ev.isSnooze))
      (r + (c.trace as).countP (fun e => e.ev.isRerun)) (c.run as) := by
  induction as generalizing c h z r with
  | nil => simpa [Conc.trace, Conc.run] using H
  | cons a as ih =>
    have n1 := plus_nonneg (c.step a.now a.act).1.isHandout
    have n2 := plus_nonneg (c.step a.now a.act).1.isSnooze
    have n3 := plus_nonneg (c.step a.now a.act).1.isRerun
    have := ih (by omega) (by omega) (by omega) (step_ok hh hz hr a.now a.act H (ha a (by simp))) fun b hb => ha b (by simp [hb])
    simp only [Conc.trace, Conc.run, List.countP_cons] at this ⊢
    refine ⟨this.1.mono ?_ ?_ ?_, fun p hp => (this.2 p hp).mono ?_ ?_ ?_⟩ <;>
      · simp only [plus]; split <;> simp_all <;> omega

/-- **C127, in memory.** If clients pass numbers of the types the interface has, then in every history with at most 2147418112 hand-outs, as
many snoozes and as many reruns every number of every stored job fits its `i32`; `priority` fits a `u16`. -/
theorem C127_in_memory (paused : Bool) (as : List TAct) (ha : ∀ a ∈ as, a.act.InRange)
    (hh : (Conc.trace { mem := .init paused } as).countP (fun e => e.ev.isHandout) ≤ 2147418112)
    (hz : (Conc.trace { mem := .init paused } as).countP (fun e => e.ev.isSnooze) ≤ 2147418112)
    (hr : (Conc.trace { mem := .init paused } as).countP (fun e => e.ev.isRerun) ≤ 2147418112) :
    ∀ k ∈ (Conc.run { mem := .init paused } as).mem.jobs,
      FitsI32 k.job.id ∧ FitsI32 k.job.attempt ∧ FitsI32 k.job.maxAttempts ∧ FitsU16 k.job.priority := by
  intro k hk
  have h0 : COk 0 0 0 ({ mem := .init paused } : Conc) := ⟨fun k hk => by simp [Mem.init] at hk, fun p hp => by simp at hp⟩
  obtain ⟨a, b, c, d, e, f⟩ := (run_ok (by omega) (by omega) (by omega) as h0 ha).1 k hk
  refine ⟨a, ⟨?_, ?_⟩, ⟨?_, ?_⟩, f⟩ <;> omega

/-! ## On Postgres -/

private def ROk (h z r : Int) (j : Row) : Prop :=
  1 ≤ j.id ∧ j.id ≤ 2147483647 ∧ -z ≤ j.attempt ∧ j.attempt ≤ h ∧ 0 ≤ j.maxAttempts ∧ j.maxAttempts ≤ 65535 + r ∧ FitsU16 j.priority

private theorem ROk.mono {h z r h' z' r' : Int} {j : Row} (H : ROk h z r j) (hh : h ≤ h') (hz : z ≤ z') (hr : r ≤ r') : ROk h' z' r' j := by
  obtain ⟨a, a', b, c, d, e, f⟩ := H
  exact ⟨a, a', by omega, by omega, d, by omega, f⟩

private def SOk (h z r : Int) : Session → Prop
  | .unique e _ _ => e.InRange
  | .holding e _ _ => e.InRange
  | .missing e _ _ => e.InRange
  | .found e _ _ _ => e.InRange
  | .inserted _ _ row => ROk h z r row
  | .replacing e _ _ _ => e.InRange
  | _ => True

private theorem SOk.mono {h z r h' z' r' : Int} {s : Session} (H : SOk h z r s) (hh : h ≤ h') (hz : z ≤ z') (hr : r ≤ r') : SOk h' z' r' s := by
  cases s <;> first | exact H | exact ROk.mono H hh hz hr

private def RowsOk (h z r : Int) (p : Pg) : Prop := ∀ j ∈ p.rows, ROk h z r j

private theorem RowsOk.mono {h z r h' z' r' : Int} {p : Pg} (H : RowsOk h z r p) (hh : h ≤ h') (hz : z ≤ z') (hr : r ≤ r') : RowsOk h' z' r' p :=
  fun k hk => (H k hk).mono hh hz hr

private def PCOk (h z r : Int) (c : PgConc) : Prop := RowsOk h z r c.pg ∧ ∀ s ∈ c.sessions, SOk h z r s

private theorem updateRows_ok {P Q : Row → Prop} {id : Int} {f : Row → Row} {rows : List Row} (hP : ∀ j ∈ rows, P j)
    (hPQ : ∀ j, P j → Q j) (hf : ∀ j, P j → Q (f j)) : ∀ j ∈ (updateRows id f rows).1, Q j := by
  intro j hj
  obtain ⟨j', hj', rfl⟩ := List.mem_map.mp hj
  split
  · exact hf _ (hP _ hj')
  · exact hPQ _ (hP _ hj')

private theorem onRow_ok {P Q : Row → Prop} {id : Int} {f : Row → Row} {p : Pg} (hP : ∀ j ∈ p.rows, P j)
    (hPQ : ∀ j, P j → Q j) (hf : ∀ j, P j → Q (f j)) : ∀ j ∈ (p.onRow id f).2.rows, Q j := by
  have := updateRows_ok (id := id) hP hPQ hf
  simp only [Pg.onRow]
  generalize updateRows id f p.rows = x at this
  obtain ⟨rows, n⟩ := x
  match n with
  | 0 => exact fun j hj => hPQ _ (hP j hj)
  | 1 => exact this
  | _ + 2 => exact this

private theorem stmt_ok {h z r : Int} {p : Pg} (tie : Int → Nat) (now : Time) (o : Op) (H : RowsOk h z r p) (ho : o.InRange) (hr : 0 ≤ r)
    (hl : ∀ x, o ≠ .load x) (res : Res) :
    RowsOk (h + plus (PgEv.stmt o res).isHandout) (z + plus (PgEv.stmt o res).isSnooze)
      (r + plus (PgEv.stmt o res).isRerun) (p.step tie now o).2 := by
  have keep : ∀ (p' : Pg), (∀ k ∈ p'.rows, k ∈ p.rows) → ∀ a b c : Bool, RowsOk (h + plus a) (z + plus b) (r + plus c) p' := by
    intro p' hs a b c k hk
    have := plus_nonneg a; have := plus_nonneg b; have := plus_nonneg c
    exact (H k (hs k hk)).mono (by omega) (by omega) (by omega)
  have same : ∀ (id : Int) (f : Row → Row), (∀ j, ROk h z r j → ROk h z r (f j)) →
      ∀ a b c : Bool, RowsOk (h + plus a) (z + plus b) (r + plus c) (p.onRow id f).2 := by
    intro id f hf a b c
    have := plus_nonneg a; have := plus_nonneg b; have := plus_nonneg c
    exact RowsOk.mono (onRow_ok H (fun _ h => h) fun j => hf j) (by omega) (by omega) (by omega)
  cases o with
  | complete id => exact same id (Row.markComplete now) (fun j hj => hj) _ _ _
  | retryable id next e => exact same id (Row.markRetryable now next e) (fun j hj => hj) _ _ _
  | discarded id e => exact same id (Row.markDiscarded now e) (fun j hj => hj) _ _ _
  | cancelled id e => exact same id (Row.markCancelled now e) (fun j hj => hj) _ _ _
  | snoozed id next =>
    simp only [PgEv.isHandout, PgEv.isSnooze, PgEv.isRerun, plus, if_true, Bool.false_eq_true, if_false]
    refine onRow_ok (P := ROk h z r) H (fun j hj => hj.mono (by omega) (by omega) (by omega)) fun j hj => ?_
    obtain ⟨a, a', b, c, d, e, f⟩ := hj
    exact ⟨a, a', by simp only [Row.markSnoozed]; omega, by simp only [Row.markSnoozed]; omega, d, by simp only [Row.markSnoozed]; omega, f⟩
  | rerun id =>
    simp only [PgEv.isHandout, PgEv.isSnooze, PgEv.isRerun, plus, if_true, Bool.false_eq_true, if_false]
    refine onRow_ok (P := ROk h z r) H (fun j hj => hj.mono (by omega) (by omega) (by omega)) fun j hj => ?_
    obtain ⟨a, a', b, c, d, e, f⟩ := hj
    exact ⟨a, a', by simp only [Row.markRerunable]; omega, by simp only [Row.markRerunable]; omega, by simp only [Row.markRerunable]; omega,
      by simp only [Row.markRerunable]; omega, f⟩
  | update j =>
    refine same j.id (Row.update j) (fun j' hj' => ?_) _ _ _
    obtain ⟨a, a', b, c, d, e, f⟩ := hj'
    obtain ⟨_, ⟨h3, h4⟩, h5⟩ := ho
    exact ⟨a, a', b, c, h3, by simp only [Row.update]; omega, h5⟩
  | prune spec => exact keep _ (fun k hk => (List.mem_filter.mp hk).1) _ _ _
  | query q => exact keep _ (fun k hk => hk) _ _ _
  | load x => exact absurd rfl (hl x)
  | subscribe x => exact keep _ (fun k hk => hk) _ _ _
  | notifyAll => exact keep _ (fun k hk => hk) _ _ _

private theorem toRow_ok {h z r : Int} (hh : 0 ≤ h) (hz : 0 ≤ z) (hr : 0 ≤ r) {e : EnqueuableJob} (he : e.InRange) (t : Time) {n : Nat}
    (hn : ¬ n ≥ 2147483647) (key : Option Int) : ROk h z r (e.toRow t (n + 1 : Nat) key) := by
  obtain ⟨⟨h1, h2⟩, h3⟩ := he
  refine ⟨?_, ?_, ?_, ?_, h1, ?_, h3⟩ <;> simp only [EnqueuableJob.toRow] <;> omega

private theorem rowReplace_ok {h z r : Int} (hr : 0 ≤ r) {e : EnqueuableJob} (he : e.InRange) (rep : Replace) {j : Row} (hj : ROk h z r j) :
    ROk h z r (j.replace rep e) := by
  obtain ⟨a, a', b, c, d, e1, f⟩ := hj
  refine ⟨a, a', b, c, ?_, ?_, ?_⟩ <;> simp only [Row.replace] <;> split <;>
    first | exact he.2 | exact f | assumption | (have := he.1.1; have := he.1.2; omega)

private theorem session_ok {h z r : Int} (hh : 0 ≤ h) (hz : 0 ≤ z) (hr : 0 ≤ r) (hash : HashFn) (tie : Int → Nat) (now : Time) {c : PgConc}
    {s : Session} (H : RowsOk h z r c.pg) (hs : SOk h z r s) :
    RowsOk (h + plus (c.advance hash tie now s).1.isHandout) z r (c.advance hash tie now s).2.2 ∧
      SOk (h + plus (c.advance hash tie now s).1.isHandout) z r (c.advance hash tie now s).2.1 := by
  have n1 := plus_nonneg (c.advance hash tie now s).1.isHandout
  suffices hlock : (∃ x t id, s = .locked x t id) ∨ (RowsOk h z r (c.advance hash tie now s).2.2 ∧ SOk h z r (c.advance hash tie now s).2.1) by
    rcases hlock with ⟨x, t, id, rfl⟩ | hx
    · simp only [PgConc.advance]
      cases hf : c.pg.rows.find? fun r => r.id == id with
      | none => exact ⟨H.mono (Int.le_add_of_nonneg_right (plus_nonneg _)) (by omega) (by omega), trivial⟩
      | some j =>
        refine ⟨?_, trivial⟩
        simp only [PgEv.isHandout, plus, if_true]
        refine updateRows_ok (P := ROk h z r) H (fun j hj => hj.mono (by omega) (by omega) (by omega)) fun j hj => ?_
        obtain ⟨a, a', b, c, d, e, f⟩ := hj
        exact ⟨a, a', by simp only [Row.markExecuting]; omega, by simp only [Row.markExecuting]; omega, d, by simp only [Row.markExecuting]; omega, f⟩
    · exact ⟨hx.1.mono (by omega) (by omega) (by omega), hx.2.mono (by omega) (by omega) (by omega)⟩
  cases s with
  | handout x => exact .inr ⟨H, trivial⟩
  | looking x t snap => right; simp only [PgConc.advance]; split <;> exact ⟨H, trivial⟩
  | locked x t id => exact .inl ⟨x, t, id, rfl⟩
  | unique e uc t => right; simp only [PgConc.advance]; split <;> exact ⟨H, hs⟩
  | holding e uc t => right; simp only [PgConc.advance]; split <;> exact ⟨H, hs⟩
  | missing e uc t =>
    right
    simp only [PgConc.advance]
    split
    · exact ⟨H, trivial⟩
    · rename_i hn
      exact ⟨H, toRow_ok hh hz hr hs t hn _⟩
  | found e uc id st =>
    right
    simp only [PgConc.advance]
    split
    · split
      · split
        · exact ⟨H, trivial⟩
        · split <;> exact ⟨H, hs⟩
      · exact ⟨H, trivial⟩
    · exact ⟨H, trivial⟩
  | inserted e uc row =>
    right
    refine ⟨fun j hj => ?_, trivial⟩
    rcases List.mem_append.mp hj with hj | hj
    · exact H j hj
    · rw [List.mem_singleton] at hj; subst hj; exact hs
  | replacing e uc rep id =>
    exact .inr ⟨updateRows_ok (P := ROk h z r) H (fun j hj => hj) fun j hj => rowReplace_ok hr hs rep hj, trivial⟩
  | done x => exact .inr ⟨H, trivial⟩

private theorem advance_only (hash : HashFn) (tie : Int → Nat) (now : Time) (c : PgConc) (s : Session) :
    (c.advance hash tie now s).1.isSnooze = false ∧ (c.advance hash tie now s).1.isRerun = false := by
  cases s <;> simp only [PgConc.advance] <;> (repeat' split) <;> exact ⟨rfl, rfl⟩

private theorem pgStep_ok {h z r : Int} (hh : 0 ≤ h) (hz : 0 ≤ z) (hr : 0 ≤ r) (hash : HashFn) (tie : Int → Nat) (now : Time) {c : PgConc} (a : PgAct)
    (H : PCOk h z r c) (ha : a.InRange) :
    PCOk (h + plus (c.step hash tie now a).1.isHandout) (z + plus (c.step hash tie now a).1.isSnooze)
      (r + plus (c.step hash tie now a).1.isRerun) (c.step hash tie now a).2 := by
  have n1 := plus_nonneg (c.step hash tie now a).1.isHandout
  have n2 := plus_nonneg (c.step hash tie now a).1.isSnooze
  have n3 := plus_nonneg (c.step hash tie now a).1.isRerun
  have up : ∀ c', PCOk h z r c' →
      PCOk (h + plus (c.step hash tie now a).1.isHandout) (z + plus (c.step hash tie now a).1.isSnooze) (r + plus (c.step hash tie now a).1.isRerun) c' :=
    fun c' H => ⟨H.1.mono (by omega) (by omega) (by omega), fun p hp => (H.2 p hp).mono (by omega) (by omega) (by omega)⟩
  have snoc : ∀ s, SOk h z r s → PCOk h z r { c with sessions := c.sessions ++ [s] } := by
    intro s hs
    refine ⟨H.1, fun p hp => ?_⟩
    rcases List.mem_append.mp hp with hp | hp
    · exact H.2 p hp
    · rw [List.mem_singleton] at hp; subst hp; exact hs
  cases a with
  | handout x => exact up _ (snoc _ trivial)
  | unique e uc => exact up _ (snoc _ ha)
  | advance i =>
    simp only [PgConc.step] at up ⊢
    cases hi : c.sessions[i]? with
    | none => simp only [hi] at up; exact up _ H
    | some s =>
      have hs := H.2 s (List.mem_of_getElem? hi)
      obtain ⟨h1, h2⟩ := session_ok hh hz hr hash tie now H.1 hs
      obtain ⟨e1, e2⟩ := advance_only hash tie now c s
      have n1 := plus_nonneg (c.advance hash tie now s).1.isHandout
      simp only [e1, e2, plus, Bool.false_eq_true, if_false, Int.add_zero] at n1 ⊢
      simp only [plus] at h1 h2
      refine ⟨h1, fun q hq => ?_⟩
      rcases List.mem_or_eq_of_mem_set hq with hq | rfl
      · exact (H.2 q hq).mono (by omega) (by omega) (by omega)
      · exact h2
  | abort i =>
    simp only [PgConc.step] at up ⊢
    cases hi : c.sessions[i]? with
    | none => simp only [hi] at up; exact up _ H
    | some s =>
      have : PCOk h z r { c with sessions := c.sessions.set i (.done (.err .io)) } := by
        refine ⟨H.1, fun q hq => ?_⟩
        rcases List.mem_or_eq_of_mem_set hq with hq | rfl
        · exact H.2 q hq
        · trivial
      cases s <;> simp only [hi] at up <;> first | exact up _ this | exact up _ H
  | plain e =>
    simp only [PgConc.step] at up ⊢
    split
    · rename_i hn; simp only [hn, if_true] at up; exact up _ H
    · rename_i hn
      simp only [hn, if_false] at up
      refine up _ ⟨fun j hj => ?_, H.2⟩
      rcases List.mem_append.mp hj with hj | hj
      · exact H.1 j hj
      · rw [List.mem_singleton] at hj; subst hj; exact toRow_ok hh hz hr ha now hn _
  | stmt o =>
    by_cases hl : ∃ x, o = .load x
    · obtain ⟨x, rfl⟩ := hl
      exact up _ H
    · have hl' : ∀ x, o ≠ .load x := fun x hx => hl ⟨x, hx⟩
      have e : c.step hash tie now (.stmt o) = if (o.needs tie now c.pg.rows).any c.rowLocked then (.blocked, c) else
          (.stmt o (c.pg.step tie now o).1, { c with pg := (c.pg.step tie now o).2 }) := by
        cases o <;> first | rfl | exact absurd rfl (hl' _)
      rw [e] at up n1 n2 n3 ⊢
      split
      · rename_i hb; simp only [hb, if_true] at up; exact up _ H
      · rename_i hb
        simp only [hb] at n1 n2 n3 ⊢
        exact ⟨stmt_ok tie now o H.1 ha hr hl' _, fun p hp => (H.2 p hp).mono (by simp_all; omega) (by simp_all; omega) (by simp_all; omega)⟩

private theorem pgRun_ok {h z r : Int} (hh : 0 ≤ h) (hz : 0 ≤ z) (hr : 0 ≤ r) (hash : HashFn) {c : PgConc} (as : List TPgAct) (H : PCOk h z r c)
    (ha : ∀ a ∈ as, a.act.InRange) :
    PCOk (h + (c.trace hash as).countP (fun e => e.isHandout)) (z + (c.trace hash as).countP (fun e => e.isSnooze))
      (r + (c.trace hash as).countP (fun e => e.isRerun)) (c.run hash as) := by
  induction as generalizing c h z r with
  | nil => simpa [PgConc.trace, PgConc.run] using H
  | cons a as ih =>
    have n1 := plus_nonneg (c.step hash a.tie a.now a.act).1.isHandout
    have n2 := plus_nonneg (c.step hash a.tie a.now a.act).1.isSnooze
    have n3 := plus_nonneg (c.step hash a.tie a.now a.act).1.isRerun
    have := ih (by omega) (by omega) (by omega) (pgStep_ok hh hz hr hash a.tie a.now a.act H (ha a (by simp))) fun b hb => ha b (by simp [hb])
    simp only [PgConc.trace, PgConc.run, List.countP_cons] at this ⊢
    refine ⟨this.1.mono ?_ ?_ ?_, fun p hp => (this.2 p hp).mono ?_ ?_ ?_⟩ <;>
      · simp only [plus]; split <;> simp_all <;> omega

/-- **C127, on Postgres.** If clients pass numbers of the types the interface has, then in every history with at most 2147483647 hand-outs, as
many snoozes and at most 2147418112 reruns every number of every row fits its `INTEGER` column – so no `attempt + 1`, `attempt - 1` or
`max_attempts + 1` of the statements is out of range – and `id` is positive. -/
theorem C127_on_postgres (hash : HashFn) (as : List TPgAct) (ha : ∀ a ∈ as, a.act.InRange)
    (hh : (PgConc.trace hash {} as).countP (fun e => e.isHandout) ≤ 2147483647)
    (hz : (PgConc.trace hash {} as).countP (fun e => e.isSnooze) ≤ 2147483647)
    (hr : (PgConc.trace hash {} as).countP (fun e => e.isRerun) ≤ 2147418112) :
    ∀ j ∈ (PgConc.run hash {} as).pg.rows,
      (1 ≤ j.id ∧ FitsI32 j.id) ∧ FitsI32 j.attempt ∧ FitsI32 j.maxAttempts ∧ FitsU16 j.priority := by
  intro j hj
  have h0 : PCOk 0 0 0 ({} : PgConc) := ⟨fun k hk => by simp at hk, fun p hp => by simp at hp⟩
  obtain ⟨a, a', b, c, d, e, f⟩ := (pgRun_ok (by omega) (by omega) (by omega) hash as h0 ha).1 j hj
  refine ⟨⟨a, ?_, a'⟩, ⟨?_, ?_⟩, ⟨?_, ?_⟩, f⟩ <;> omega

/-- The bound on the reruns is the best one: after `n` reruns `max_attempts` of a job enqueued with 65535 is 65535 + `n`. -/
private theorem reruns_pile_up (n : Nat) (j : Row) (hj : j.id = 1) :
    ∃ j', (PgConc.run sampleHash { pg := { rows := [j], seq := 1 } } (List.replicate n ⟨0, Int.toNat, .stmt (.rerun 1)⟩)).pg = { rows := [j'], seq := 1 } ∧
      j'.id = 1 ∧ j'.maxAttempts = j.maxAttempts + n := by
  induction n generalizing j with
  | zero => exact ⟨j, rfl, hj, by simp⟩
  | succ n ih =>
    obtain ⟨j', h1, h2, h3⟩ := ih (j.markRerunable 0) hj
    refine ⟨j', ?_, h2, by rw [h3]; simp only [Row.markRerunable]; omega⟩
    rw [List.replicate_succ]
    have : (PgConc.step sampleHash Int.toNat 0 { pg := { rows := [j], seq := 1 } } (.stmt (.rerun 1))).2 =
        { pg := { rows := [j.markRerunable 0], seq := 1 } } := by
      simp [PgConc.step, Op.needs, PgConc.rowLocked, Pg.step, Pg.onRow, updateRows, hj]
    simp only [PgConc.run, this]
    exact h1

private theorem piled_up (n : Nat) : ∃ as : List TPgAct, (∀ a ∈ as, a.act.InRange) ∧
    (PgConc.trace sampleHash {} as).countP (fun e => e.isRerun) ≤ n ∧
    ∃ j ∈ (PgConc.run sampleHash {} as).pg.rows, j.maxAttempts = 65535 + n := by
  refine ⟨⟨0, Int.toNat, .plain { sampleEnq with maxAttempts := 65535, priority := 0 }⟩ :: List.replicate n ⟨0, Int.toNat, .stmt (.rerun 1)⟩, ?_, ?_, ?_⟩
  · intro a ha
    rcases List.mem_cons.mp ha with rfl | ha
    · exact ⟨by decide, by decide⟩
    · rw [List.eq_of_mem_replicate ha]; trivial
  · have hlen : ∀ (as : List TPgAct) (c : PgConc), (PgConc.trace sampleHash c as).length = as.length := by
      intro as
      induction as with
      | nil => intro c; rfl
      | cons a as ih => intro c; simp only [PgConc.trace, List.length_cons, ih]
    rw [PgConc.trace, List.countP_cons]
    refine Nat.le_trans (Nat.add_le_add_right List.countP_le_length _) ?_
    rw [hlen, List.length_replicate]
    exact Nat.le_refl _
  · rw [PgConc.run]
    obtain ⟨j', h1, _, h3⟩ := reruns_pile_up n ({ sampleEnq with maxAttempts := 65535, priority := 0 : EnqueuableJob }.toRow 0 1 none) rfl
    exact ⟨j', by rw [show (PgConc.step sampleHash Int.toNat 0 {} (.plain { sampleEnq with maxAttempts := 65535, priority := 0 })).2 =
      { pg := { rows := [({ sampleEnq with maxAttempts := 65535, priority := 0 : EnqueuableJob }.toRow 0 1 none)], seq := 1 } } from rfl, h1]; simp, h3⟩

/-- **C127, the bound.** With one rerun more than `C127_on_postgres` allows, the statement `max_attempts = max_attempts + 1` would have to store
2147483648, which is not an `INTEGER`. -/
theorem C127_bound_attained : ∃ as : List TPgAct, (∀ a ∈ as, a.act.InRange) ∧
    (PgConc.trace sampleHash {} as).countP (fun e => e.isRerun) ≤ 2147418113 ∧
    ∃ j ∈ (PgConc.run sampleHash {} as).pg.rows, j.maxAttempts = 2147483648 := by
  obtain ⟨as, h1, h2, j, h3, h4⟩ := piled_up 2147418113
  exact ⟨as, h1, h2, j, h3, by omega⟩

/-- The hypotheses are met by a history with a hand-out, a snooze and a rerun. -/
example : (∀ a ∈ [(⟨0, .start sampleEnq⟩ : TAct), ⟨0, .advance 0⟩, ⟨0, .advance 0⟩, ⟨0, .op (.load "mail")⟩, ⟨1, .op (.snoozed 0 5)⟩, ⟨6, .op (.rerun 0)⟩],
      a.act.InRange) ∧
    (Conc.trace { mem := .init false } [⟨0, .start sampleEnq⟩, ⟨0, .advance 0⟩, ⟨0, .advance 0⟩, ⟨sec, .op (.load "mail")⟩, ⟨sec, .op (.snoozed 0 5)⟩,
      ⟨6, .op (.rerun 0)⟩]).map (fun e => (e.ev.isHandout, e.ev.isSnooze, e.ev.isRerun)) =
      [(false, false, false), (false, false, false), (false, false, false), (true, false, false), (false, true, false), (false, false, true)] ∧
    (Conc.run { mem := .init false } [⟨0, .start sampleEnq⟩, ⟨0, .advance 0⟩, ⟨0, .advance 0⟩, ⟨sec, .op (.load "mail")⟩, ⟨sec, .op (.snoozed 0 5)⟩,
      ⟨6, .op (.rerun 0)⟩]).mem.jobs.map (fun k => (k.job.attempt, k.job.maxAttempts)) = [(0, 3)] := by
  refine ⟨?_, by decide +kernel, by decide +kernel⟩
  intro a ha
  simp only [List.mem_cons, List.not_mem_nil, or_false] at ha
  rcases ha with rfl | rfl | rfl | rfl | rfl | rfl <;> first | trivial | exact ⟨by decide, by decide⟩

end Rexecutor
