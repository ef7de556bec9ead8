import Verif.Lemmas.Life
import Verif.Spec.Samples
import Verif.Spec.Store

/-! # C01, C02, C03: ids -/

namespace Rexecutor

/-- The ids returned by the enqueue calls that inserted a job, in order of return. -/
def returnedIds (h : List TEv) : List Int :=
  h.filterMap fun e => match e.ev with
    | .woke id => some id
    | _ => none

/-- The ids taken from the counter, in order. -/
def allocatedIds (h : List TEv) : List Int :=
  h.filterMap fun e => match e.ev with
    | .allocated id => some id
    | _ => none

/-! ## C01 -/

/-- ids pushed by calls that have not returned yet -/
private def pushedId : Pending → Option Int
  | .pushed id _ => some id
  | _ => none

private theorem returned_perm (c : Conc) (as : List TAct) :
    (returnedIds (c.trace as) ++ (c.run as).calls.filterMap pushedId).Perm
      (insertedIds (c.trace as) ++ c.calls.filterMap pushedId) := by
  induction as generalizing c with
  | nil => exact List.Perm.refl _
  | cons a as ih =>
    simp only [Conc.trace, Conc.run]
    refine List.Perm.trans (l₂ := returnedIds [⟨a.now, (c.step a.now a.act).1⟩] ++
      (returnedIds ((c.step a.now a.act).2.trace as) ++
      ((c.step a.now a.act).2.run as).calls.filterMap pushedId)) ?_ ?_
    · rw [← List.append_assoc, ← show ∀ a b, returnedIds (a ++ b) = returnedIds a ++ returnedIds b from
        fun a b => by simp [returnedIds]]
      exact List.Perm.refl _
    refine ((ih _).append_left _).trans ?_
    rw [show ∀ (x : TEv) l, insertedIds (x :: l) = insertedIds [x] ++ insertedIds l from
      fun x l => insertedIds_append [x] l]
    have key : (returnedIds [(⟨a.now, (c.step a.now a.act).1⟩ : TEv)] ++
        (c.step a.now a.act).2.calls.filterMap pushedId).Perm
        (insertedIds [(⟨a.now, (c.step a.now a.act).1⟩ : TEv)] ++ c.calls.filterMap pushedId) := by
      obtain ⟨now, act⟩ := a
      cases act with
      | start e => simp [Conc.step, returnedIds, insertedIds, pushedId, List.filterMap_cons]
      | op o => simp [Conc.step, returnedIds, insertedIds]
      | advance i =>
        simp only [Conc.step]
        cases hp : c.calls[i]? with
        | none => simp [returnedIds, insertedIds]
        | some q =>
          obtain ⟨l, r, hc, hset⟩ := set_split hp
          simp only [hset]
          rw [hc]
          cases q with
          | start e =>
            simp only [Mem.advance]
            split
            · simp [returnedIds, insertedIds, pushedId, List.filterMap_cons]
            · split <;> simp [returnedIds, insertedIds, pushedId, List.filterMap_cons]
          | noMatch e => simp [Mem.advance, returnedIds, insertedIds, pushedId, List.filterMap_cons]
          | allocated id e =>
            simp only [Mem.advance, returnedIds, insertedIds, pushedId, List.filterMap_cons,
              List.filterMap_append, List.filterMap_nil, List.nil_append, List.cons_append]
            exact List.perm_middle
          | pushed id e =>
            simp only [Mem.advance, returnedIds, insertedIds, pushedId, List.filterMap_cons,
              List.filterMap_append, List.filterMap_nil, List.nil_append, List.cons_append]
            exact List.perm_middle.symm
          | matched job =>
            simp only [Mem.advance]
            split <;> simp [returnedIds, insertedIds, pushedId, List.filterMap_cons]
          | done r => simp [Mem.advance, returnedIds, insertedIds, pushedId, List.filterMap_cons]
    refine List.Perm.trans (l₂ := insertedIds ((c.step a.now a.act).2.trace as) ++
      (returnedIds [⟨a.now, (c.step a.now a.act).1⟩] ++
        (c.step a.now a.act).2.calls.filterMap pushedId)) ?_ ?_
    · rw [← List.append_assoc, ← List.append_assoc]
      exact List.Perm.append_right _ List.perm_append_comm
    refine (key.append_left _).trans ?_
    rw [← List.append_assoc]
    exact List.Perm.append_right _ List.perm_append_comm

/-- **C01.** In every schedule of any number of concurrent enqueue calls and other
calls, as long as at most 2^32 ids have been taken: no two inserted jobs got the
same id, no two inserting enqueue calls returned the same id, what they return is
the id of an inserted job, and no two stored jobs have the same id. -/
theorem C01_ids_unique (paused : Bool) (as : List TAct)
    (h : idsTaken ((fresh paused).trace as) ≤ 2 ^ 32) :
    (insertedIds ((fresh paused).trace as)).Nodup ∧
    (returnedIds ((fresh paused).trace as)).Nodup ∧
    (∀ id ∈ returnedIds ((fresh paused).trace as), id ∈ insertedIds ((fresh paused).trace as)) ∧
    (((fresh paused).run as).mem.jobs.map fun k => k.job.id).Nodup := by
  have H := histOk_run paused as (by simpa using h)
  have hn := (List.nodup_append.mp H.nodup).1
  have hp := returned_perm (fresh paused) as
  have hp' : (returnedIds ((fresh paused).trace as) ++
      ((fresh paused).run as).calls.filterMap pushedId).Perm
      (insertedIds ((fresh paused).trace as)) := by simpa [fresh] using hp
  refine ⟨hn, ?_, ?_, H.ids_nodup⟩
  · exact (List.nodup_append.mp (hp'.nodup_iff.mpr hn)).1
  · intro id hid
    exact hp'.mem_iff.mp (List.mem_append_left _ hid)

/-- Two enqueue calls whose steps interleave: the one that took its id first
inserts last. -/
def crossed : List TAct :=
  [⟨0, .start sampleEnq⟩, ⟨0, .start sampleUnique⟩, ⟨0, .advance 0⟩, ⟨1, .advance 1⟩, ⟨2, .advance 1⟩,
   ⟨3, .advance 1⟩, ⟨4, .advance 0⟩, ⟨5, .advance 1⟩, ⟨6, .advance 0⟩]

example : idsTaken (fresh.trace crossed) ≤ 2 ^ 32 ∧ insertedIds (fresh.trace crossed) = [1, 0] ∧
    returnedIds (fresh.trace crossed) = [1, 0] := by decide

private theorem allocated_ids (paused : Bool) (as : List TAct) : allocatedIds ((fresh paused).trace as) =
    (List.range ((fresh paused).run as).mem.allocated).map wrapI32 := by
  refine snocInduction (P := fun as => allocatedIds ((fresh paused).trace as) =
    (List.range ((fresh paused).run as).mem.allocated).map wrapI32) ?_ ?_ as
  · simp [Conc.trace, Conc.run, allocatedIds, fresh, Mem.init]
  · intro as a ih
    rw [Conc.trace_append, Conc.run_append]
    rw [show ∀ a b, allocatedIds (a ++ b) = allocatedIds a ++ allocatedIds b from
      fun a b => by simp [allocatedIds], ih]
    generalize (fresh paused).run as = c
    obtain ⟨now, act⟩ := a
    simp only [Conc.trace, Conc.run]
    cases act with
    | start e => simp [Conc.step, allocatedIds]
    | op o => simp [Conc.step, (step_ids now c.mem o).2, allocatedIds]
    | advance i =>
      simp only [Conc.step]
      cases hp : c.calls[i]? with
      | none => simp [allocatedIds]
      | some q =>
        cases q with
        | start e =>
          simp only [Mem.advance]
          split
          · simp [allocatedIds, List.range_succ]
          · split <;> simp [allocatedIds]
        | noMatch e => simp [Mem.advance, allocatedIds, List.range_succ]
        | allocated id e => simp [Mem.advance, allocatedIds]
        | pushed id e => simp [Mem.advance, allocatedIds]
        | matched job =>
          simp [advance_matched_mem, advance_matched_ev, Mem.update, onJob_allocated, allocatedIds]
        | done r => simp [Mem.advance, allocatedIds]

private theorem ids_taken (paused : Bool) (as : List TAct) :
    idsTaken ((fresh paused).trace as) = ((fresh paused).run as).mem.allocated := by
  rw [← trace_taken]; simp [fresh, Mem.init]

/-- The number of an id read as a signed number of 32 bits. -/
def signed32 (n : Nat) : Int := ((n : Int) + 2147483648) % 4294967296 - 2147483648

private theorem wrapI32_signed (n : Nat) : wrapI32 n = signed32 n := by
  unfold wrapI32 signed32
  simp only [Int.natCast_emod]
  split <;> omega

/-- **C01, which ids there are.** The ids taken are the numbers 0, 1, 2, … read as signed
numbers of 32 bits: after 2147483647 comes -2147483648. -/
theorem C01_ids_signed (paused : Bool) (as : List TAct) :
    allocatedIds ((fresh paused).trace as) = (List.range (idsTaken ((fresh paused).trace as))).map signed32 := by
  rw [allocated_ids, ids_taken]
  exact List.map_congr_left fun n _ => wrapI32_signed n

example : signed32 0 = 0 ∧ signed32 2147483647 = 2147483647 ∧ signed32 2147483648 = -2147483648 ∧
    signed32 4294967295 = -1 ∧ signed32 4294967296 = 0 := by simp [signed32]

example : allocatedIds (fresh.trace crossed) = [0, 1] := by decide

/-- **C01, second part.** The id taken 2^32 enqueues after another one is the same. -/
theorem C01_ids_repeat (paused : Bool) (as : List TAct) (n : Nat)
    (h : n + 2 ^ 32 < idsTaken ((fresh paused).trace as)) :
    ∃ id, (allocatedIds ((fresh paused).trace as))[n]? = some id ∧
      (allocatedIds ((fresh paused).trace as))[n + 2 ^ 32]? = some id := by
  rw [ids_taken] at h
  refine ⟨wrapI32 n, ?_, ?_⟩
  · rw [allocated_ids, List.getElem?_map, List.getElem?_range (by omega)]; rfl
  · rw [allocated_ids, List.getElem?_map, List.getElem?_range h, Option.map_some]
    exact congrArg some (wrapI32_add n)

/-- `n` enqueues one after the other. -/
def manyEnqueues : Nat → List TAct
  | 0 => []
  | n + 1 => manyEnqueues n ++ enqSteps 0 n sampleEnq

/-- The schedules of `C01_ids_repeat` exist: `n` enqueues one after the other take
`n` ids and store `n` jobs. -/
theorem C01_many (n : Nat) : idsTaken (fresh.trace (manyEnqueues n)) = n ∧
    (fresh.run (manyEnqueues n)).mem.jobs.map (fun k => k.job.id) = (List.range n).map signed32 := by
  have : (fresh.run (manyEnqueues n)).calls.length = n ∧
      (fresh.run (manyEnqueues n)).mem.allocated = n ∧
      (fresh.run (manyEnqueues n)).mem.jobs.map (fun k => k.job.id) = (List.range n).map wrapI32 := by
    induction n with
    | zero => simp [manyEnqueues, Conc.run, fresh, Mem.init]
    | succ n ih =>
      simp only [manyEnqueues, Conc.run_append]
      generalize fresh.run (manyEnqueues n) = c at ih
      obtain ⟨h1, h2, h3⟩ := ih
      subst h1
      simp [enqSteps, Conc.run, Conc.step, Mem.advance, sampleEnq, List.range_succ, h3, h2]
  refine ⟨?_, this.2.2.trans (List.map_congr_left fun n _ => wrapI32_signed n)⟩
  have ht := trace_taken fresh (manyEnqueues n)
  rw [this.2.1] at ht
  simpa [fresh, Mem.init] using ht

private theorem range_not_nodup (N : Nat) (h0 : 0 < N) (h : signed32 N = signed32 0) :
    ¬ ((List.range (N + 1)).map signed32).Nodup := by
  intro hn
  rw [List.range_succ, List.map_append] at hn
  refine (List.nodup_append.mp hn).2.2 (signed32 0) ?_ (signed32 N) (by simp) h.symm
  exact List.mem_map_of_mem (List.mem_range.mpr h0)

/-- So after 2^32 + 1 enqueues two stored jobs have the same id. -/
theorem C01_collision :
    ¬ ((fresh.run (manyEnqueues (2 ^ 32 + 1))).mem.jobs.map fun k => k.job.id).Nodup := by
  rw [(C01_many _).2]
  exact range_not_nodup (2 ^ 32) (by omega) (by simp [signed32])

/-! ## C02 -/

/-- **C02.** For every store and every call that addresses a job by id: the call
returns `JobNotFound` with that id exactly when no stored job has the id, and then
nothing changes (no job, no id counter, no subscriber channel); otherwise it
returns `Ok`. -/
theorem C02_unknown_id (now : Time) (m : Mem) (o : Op) (id : Int) (ho : o.target = some id) :
    ((m.step now o).1 = .err (.jobNotFound id) ↔ ¬ ∃ k ∈ m.jobs, k.job.id = id) ∧
    ((¬ ∃ k ∈ m.jobs, k.job.id = id) → (m.step now o).2 = m) ∧
    ((∃ k ∈ m.jobs, k.job.id = id) → (m.step now o).1 = .unit) := by
  have main : ∀ (f : Job → Job) (w : Bool), m.step now o = m.onJob id f w →
      ((m.step now o).1 = .err (.jobNotFound id) ↔ ¬ ∃ k ∈ m.jobs, k.job.id = id) ∧
      ((¬ ∃ k ∈ m.jobs, k.job.id = id) → (m.step now o).2 = m) ∧
      ((∃ k ∈ m.jobs, k.job.id = id) → (m.step now o).1 = .unit) := by
    intro f w he
    rw [he]
    rcases onJob_cases id f w m with ⟨hne, hr⟩ | ⟨l, k, r, h1, h2, h3, h4, h5, h6⟩
    · rw [hr]
      refine ⟨⟨fun _ ⟨k, hk, hi⟩ => hne k hk hi, fun _ => rfl⟩, fun _ => rfl, ?_⟩
      rintro ⟨k, hk, hi⟩; exact absurd hi (hne k hk)
    · have hex : ∃ k ∈ m.jobs, k.job.id = id := ⟨k, by rw [h1]; simp, h3⟩
      refine ⟨⟨fun h => by rw [h4] at h; simp at h, fun h => absurd hex h⟩, fun h => absurd hex h, fun _ => h4⟩
  cases o <;> simp only [Op.target, Option.some.injEq, reduceCtorEq] at ho <;> subst ho <;>
    exact main _ _ rfl

example : (storeOf [sampleJob 3]).step 7 (.snoozed 3 9) ≠ (storeOf [sampleJob 3]).step 7 (.snoozed 4 9) ∧
    ((storeOf [sampleJob 3]).step 7 (.snoozed 4 9)).1 = .err (.jobNotFound 4) ∧
    ((storeOf [sampleJob 3]).step 7 (.snoozed 3 9)).1 = .unit := by decide

/-! ## C03 -/

/-- **C03.** For every store and every call that addresses a job by id: no job is
added or removed, the id counter is unchanged, and there is one position such that
every other position holds exactly what it held before; a job at that position has
the given id before and after, and keeps its uniqueness key. -/
theorem C03_frame (now : Time) (m : Mem) (o : Op) (id : Int) (ho : o.target = some id) :
    (m.step now o).2.jobs.length = m.jobs.length ∧
    (m.step now o).2.allocated = m.allocated ∧
    ∃ i : Nat, (∀ n, n ≠ i → (m.step now o).2.jobs[n]? = m.jobs[n]?) ∧
      ∀ k', (m.step now o).2.jobs[i]? = some k' →
        ∃ k, m.jobs[i]? = some k ∧ k.job.id = id ∧ k'.job.id = id ∧ k'.key = k.key := by
  have main : ∀ (f : Job → Job) (w : Bool), (∀ j : Job, j.id = id → (f j).id = id) →
      m.step now o = m.onJob id f w →
      (m.step now o).2.jobs.length = m.jobs.length ∧
      (m.step now o).2.allocated = m.allocated ∧
      ∃ i : Nat, (∀ n, n ≠ i → (m.step now o).2.jobs[n]? = m.jobs[n]?) ∧
        ∀ k', (m.step now o).2.jobs[i]? = some k' →
          ∃ k, m.jobs[i]? = some k ∧ k.job.id = id ∧ k'.job.id = id ∧ k'.key = k.key := by
    intro f w hf he
    rw [he]
    rcases onJob_cases id f w m with ⟨hne, hr⟩ | ⟨l, k, r, h1, h2, h3, h4, h5, h6⟩
    · rw [hr]
      refine ⟨rfl, rfl, m.jobs.length, fun _ _ => rfl, ?_⟩
      intro k' hk'; simp at hk'
    · rw [h5, h1]
      refine ⟨by simp, h6, l.length, ?_, ?_⟩
      · intro n hn
        rcases Nat.lt_or_gt_of_ne hn with hlt | hgt
        · rw [List.getElem?_append_left hlt, List.getElem?_append_left hlt]
        · rw [List.getElem?_append_right (by omega), List.getElem?_append_right (by omega)]
          obtain ⟨d, hd⟩ : ∃ d, n - l.length = d + 1 := ⟨n - l.length - 1, by omega⟩
          rw [hd]; simp
      · intro k' hk'
        simp at hk'
        subst hk'
        exact ⟨k, by simp, h3, hf _ h3, rfl⟩
  cases o <;> simp only [Op.target, Option.some.injEq, reduceCtorEq] at ho <;> subst ho <;>
    exact main _ _ (by intro j hj; first | exact hj | rfl) rfl

example : ((storeOf [sampleJob 3, sampleJob 4, sampleJob 5]).step 7 (.cancelled 4 sampleErr)).2.jobs.map
    (fun k => (k.job.id, k.job.status)) = [(3, .scheduled), (4, .cancelled), (5, .scheduled)] := by decide

end Rexecutor
