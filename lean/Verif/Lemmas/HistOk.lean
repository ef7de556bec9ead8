import Verif.Lemmas.History

/-! The bookkeeping invariant of every history: ids are fresh, stored ids are
inserted ids, and only inserted jobs are ever touched. -/

namespace Rexecutor

theorem wrapI32_inj {n m : Nat} (hn : n < 4294967296) (hm : m < 4294967296)
    (h : wrapI32 n = wrapI32 m) : n = m := by
  unfold wrapI32 at h
  simp only at h
  split at h <;> split at h <;> omega

theorem wrapI32_add (n : Nat) : wrapI32 (n + 4294967296) = wrapI32 n := by
  unfold wrapI32; simp

structure HistOk (h : List TEv) (c : Conc) : Prop where
  nodup : (insertedIds h ++ c.calls.filterMap Pending.waitingId).Nodup
  bound : ∀ x ∈ insertedIds h ++ c.calls.filterMap Pending.waitingId,
    ∃ n, n < c.mem.allocated ∧ x = wrapI32 n
  stored : c.mem.ids.Sublist (insertedIds h)
  touched : ∀ e ∈ h, ∀ id, e.ev.touches id = true → id ∈ insertedIds h
  taken : idsTaken h = c.mem.allocated

theorem HistOk.ids_nodup {h : List TEv} {c : Conc} (H : HistOk h c) : c.mem.ids.Nodup :=
  H.stored.nodup (List.nodup_append.mp H.nodup).1

theorem insertedIds_append (a b : List TEv) : insertedIds (a ++ b) = insertedIds a ++ insertedIds b := by
  simp [insertedIds]

theorem idsTaken_append (a b : List TEv) : idsTaken (a ++ b) = idsTaken a + idsTaken b := by
  simp [idsTaken]

/-- How an op changes the list of ids and what it touches. -/
theorem onJob_ids {id : Int} {f : Job → Job} {w : Bool} {m : Mem} (hf : ∀ j, j.id = id → (f j).id = id) :
    (m.onJob id f w).2.ids = m.ids := by
  rcases onJob_cases id f w m with ⟨hne, he⟩ | ⟨l, k, r, h1, h2, h3, h4, h5, -⟩
  · rw [he]
  · unfold Mem.ids; rw [h5, h1]; simp [hf _ h3, h3]

theorem onJob_ids_sub {id : Int} {f : Job → Job} {w : Bool} {m : Mem}
    (hf : ∀ j, j.id = id → (f j).id = id) : (m.onJob id f w).2.ids.Sublist m.ids := by
  rw [onJob_ids hf]; exact List.Sublist.refl _

theorem onJob_allocated {id : Int} {f : Job → Job} {w : Bool} {m : Mem} :
    (m.onJob id f w).2.allocated = m.allocated := by
  rcases onJob_cases id f w m with ⟨hne, he⟩ | ⟨l, k, r, h1, h2, h3, h4, h5, h6⟩
  · rw [he]
  · exact h6

theorem onJob_mem {id : Int} {f : Job → Job} {w : Bool} {m : Mem}
    (h : (m.onJob id f w).1 = .unit) : id ∈ m.ids := by
  rcases onJob_cases id f w m with ⟨hne, he⟩ | ⟨l, k, r, h1, h2, h3, h4, h5, h6⟩
  · rw [he] at h; simp at h
  · unfold Mem.ids; rw [h1]; simp [h3]

theorem step_ids (now : Time) (m : Mem) (o : Op) :
    (m.step now o).2.ids.Sublist m.ids ∧ (m.step now o).2.allocated = m.allocated := by
  cases o with
  | complete id => exact ⟨onJob_ids_sub (fun j hj => by first | exact hj | rfl), onJob_allocated⟩
  | retryable id t e => exact ⟨onJob_ids_sub (fun j hj => by first | exact hj | rfl), onJob_allocated⟩
  | discarded id e => exact ⟨onJob_ids_sub (fun j hj => by first | exact hj | rfl), onJob_allocated⟩
  | cancelled id e => exact ⟨onJob_ids_sub (fun j hj => by first | exact hj | rfl), onJob_allocated⟩
  | snoozed id t => exact ⟨onJob_ids_sub (fun j hj => by first | exact hj | rfl), onJob_allocated⟩
  | rerun id => exact ⟨onJob_ids_sub (fun j hj => by first | exact hj | rfl), onJob_allocated⟩
  | update job => exact ⟨onJob_ids_sub (fun j hj => by first | exact hj | rfl), onJob_allocated⟩
  | prune spec => exact ⟨(prune_sublist now spec m).map _, prune_allocated now spec m⟩
  | query q => exact ⟨List.Sublist.refl _, rfl⟩
  | subscribe x => exact ⟨List.Sublist.refl _, rfl⟩
  | notifyAll => exact ⟨List.Sublist.refl _, rfl⟩
  | load x =>
    simp only [Mem.step]
    rcases load_cases now x m with ⟨-, he⟩ | ⟨l, k, r, h1, h2, h3, h4, h5⟩
    · rw [he]; exact ⟨List.Sublist.refl _, rfl⟩
    · rw [h5]; unfold Mem.ids; simp only; rw [h1]; simp [Job.markExecuting]

theorem step_touches (now : Time) (m : Mem) (o : Op) (id : Int)
    (h : (Ev.op o (m.step now o).1).touches id = true) : id ∈ m.ids := by
  have aux : ∀ (i : Int) (f : Job → Job) (w : Bool),
      (m.onJob i f w).1 = .unit → i = id → id ∈ m.ids := fun i f w h1 h2 => h2 ▸ onJob_mem h1
  cases o with
  | complete i =>
    rcases onJob_res i (Job.markComplete now) false m with hr | hr
    · simp [Mem.step, Mem.markComplete, hr, Ev.touches, Ev.handsOut, Ev.finishes, Ev.putsBack,
        Ev.retries, Ev.snoozes, Ev.reruns, Ev.updates, Ev.conflicts] at h
      exact aux _ _ _ hr h
    · simp [Mem.step, Mem.markComplete, hr, Ev.touches, Ev.handsOut, Ev.finishes, Ev.putsBack,
        Ev.retries, Ev.snoozes, Ev.reruns, Ev.updates, Ev.conflicts] at h
  | retryable i t e =>
    rcases onJob_res i (Job.markRetryable now t e) true m with hr | hr
    · simp [Mem.step, Mem.markRetryable, hr, Ev.touches, Ev.handsOut, Ev.finishes, Ev.putsBack,
        Ev.retries, Ev.snoozes, Ev.reruns, Ev.updates, Ev.conflicts] at h
      exact aux _ _ _ hr h
    · simp [Mem.step, Mem.markRetryable, hr, Ev.touches, Ev.handsOut, Ev.finishes, Ev.putsBack,
        Ev.retries, Ev.snoozes, Ev.reruns, Ev.updates, Ev.conflicts] at h
  | discarded i e =>
    rcases onJob_res i (Job.markDiscarded now e) false m with hr | hr
    · simp [Mem.step, Mem.markDiscarded, hr, Ev.touches, Ev.handsOut, Ev.finishes, Ev.putsBack,
        Ev.retries, Ev.snoozes, Ev.reruns, Ev.updates, Ev.conflicts] at h
      exact aux _ _ _ hr h
    · simp [Mem.step, Mem.markDiscarded, hr, Ev.touches, Ev.handsOut, Ev.finishes, Ev.putsBack,
        Ev.retries, Ev.snoozes, Ev.reruns, Ev.updates, Ev.conflicts] at h
  | cancelled i e =>
    rcases onJob_res i (Job.markCancelled now e) false m with hr | hr
    · simp [Mem.step, Mem.markCancelled, hr, Ev.touches, Ev.handsOut, Ev.finishes, Ev.putsBack,
        Ev.retries, Ev.snoozes, Ev.reruns, Ev.updates, Ev.conflicts] at h
      exact aux _ _ _ hr h
    · simp [Mem.step, Mem.markCancelled, hr, Ev.touches, Ev.handsOut, Ev.finishes, Ev.putsBack,
        Ev.retries, Ev.snoozes, Ev.reruns, Ev.updates, Ev.conflicts] at h
  | snoozed i t =>
    rcases onJob_res i (Job.markSnoozed t) true m with hr | hr
    · simp [Mem.step, Mem.markSnoozed, hr, Ev.touches, Ev.handsOut, Ev.finishes, Ev.putsBack,
        Ev.retries, Ev.snoozes, Ev.reruns, Ev.updates, Ev.conflicts] at h
      exact aux _ _ _ hr h
    · simp [Mem.step, Mem.markSnoozed, hr, Ev.touches, Ev.handsOut, Ev.finishes, Ev.putsBack,
        Ev.retries, Ev.snoozes, Ev.reruns, Ev.updates, Ev.conflicts] at h
  | rerun i =>
    rcases onJob_res i (Job.markRerunable now) true m with hr | hr
    · simp [Mem.step, Mem.rerun, hr, Ev.touches, Ev.handsOut, Ev.finishes, Ev.putsBack,
        Ev.retries, Ev.snoozes, Ev.reruns, Ev.updates, Ev.conflicts] at h
      exact aux _ _ _ hr h
    · simp [Mem.step, Mem.rerun, hr, Ev.touches, Ev.handsOut, Ev.finishes, Ev.putsBack,
        Ev.retries, Ev.snoozes, Ev.reruns, Ev.updates, Ev.conflicts] at h
  | update job =>
    rcases onJob_res job.id (fun _ => job) true m with hr | hr
    · simp [Mem.step, Mem.update, hr, Ev.touches, Ev.handsOut, Ev.finishes, Ev.putsBack,
        Ev.retries, Ev.snoozes, Ev.reruns, Ev.updates, Ev.conflicts] at h
      exact aux _ _ _ hr h
    · simp [Mem.step, Mem.update, hr, Ev.touches, Ev.handsOut, Ev.finishes, Ev.putsBack,
        Ev.retries, Ev.snoozes, Ev.reruns, Ev.updates, Ev.conflicts] at h
  | prune _ | query _ | subscribe _ | notifyAll =>
    simp [Ev.touches, Ev.handsOut, Ev.finishes, Ev.putsBack,
      Ev.retries, Ev.snoozes, Ev.reruns, Ev.updates, Ev.conflicts] at h
  | load x =>
    simp only [Mem.step] at h
    rcases load_cases now x m with ⟨-, he⟩ | ⟨l, k, r, h1, h2, h3, h4, h5⟩
    · rw [he] at h
      simp [Ev.touches, Ev.handsOut, Ev.finishes, Ev.putsBack,
        Ev.retries, Ev.snoozes, Ev.reruns, Ev.updates, Ev.conflicts] at h
    · rw [h5] at h
      simp [Ev.touches, Ev.handsOut, Ev.finishes, Ev.putsBack,
        Ev.retries, Ev.snoozes, Ev.reruns, Ev.updates, Ev.conflicts] at h
      unfold Mem.ids; rw [h1, ← h]; simp [Job.markExecuting]

theorem set_split {α : Type _} {l : List α} {i : Nat} {p : α} (h : l[i]? = some p) :
    ∃ a b, l = a ++ p :: b ∧ ∀ q, l.set i q = a ++ q :: b := by
  obtain ⟨hi, rfl⟩ := List.getElem?_eq_some_iff.mp h
  refine ⟨l.take i, l.drop (i + 1), by simp, fun q => by rw [List.set_eq_take_append_cons_drop]; simp [hi]⟩

theorem HistOk.init (p : Bool) : HistOk [] (fresh p) := by
  constructor <;> simp [fresh, insertedIds, Mem.ids, Mem.init, idsTaken]

/-- Steps that touch nothing of the bookkeeping. -/
theorem HistOk.quiet {h : List TEv} {c c' : Conc} {now : Time} {ev : Ev} (H : HistOk h c)
    (hins : insertedIds [({ now := now, ev := ev } : TEv)] = [])
    (htaken : idsTaken [({ now := now, ev := ev } : TEv)] = 0)
    (hwait : c'.calls.filterMap Pending.waitingId = c.calls.filterMap Pending.waitingId)
    (hids : c'.mem.ids.Sublist c.mem.ids) (hall : c'.mem.allocated = c.mem.allocated)
    (htouch : ∀ id, ev.touches id = true → id ∈ c.mem.ids) :
    HistOk (h ++ [{ now := now, ev := ev }]) c' := by
  have e : insertedIds (h ++ [({ now := now, ev := ev } : TEv)]) = insertedIds h := by
    rw [insertedIds_append, hins, List.append_nil]
  constructor
  · rw [e, hwait]; exact H.nodup
  · rw [e, hwait, hall]; exact H.bound
  · rw [e]; exact hids.trans H.stored
  · rw [e]
    intro x hx id hid
    rcases List.mem_append.mp hx with hx | hx
    · exact H.touched x hx id hid
    · simp only [List.mem_singleton] at hx
      subst hx
      exact H.stored.subset (htouch id hid)
  · rw [idsTaken_append, htaken, hall, H.taken]; rfl

theorem HistOk.alloc {h : List TEv} {c : Conc} {now : Time} {a b : List Pending} {p : Pending}
    {e : EnqueuableJob} (H : HistOk h c) (hc : c.calls = a ++ p :: b) (hp : p.waitingId = none)
    (hb : c.mem.allocated < 4294967296) :
    HistOk (h ++ [{ now := now, ev := .allocated (wrapI32 c.mem.allocated) }])
      { mem := { c.mem with allocated := c.mem.allocated + 1 },
        calls := a ++ .allocated (wrapI32 c.mem.allocated) e :: b } := by
  have e1 : insertedIds (h ++ [({ now := now, ev := .allocated (wrapI32 c.mem.allocated) } : TEv)])
      = insertedIds h := by simp [insertedIds]
  have hfm : c.calls.filterMap Pending.waitingId
      = a.filterMap Pending.waitingId ++ b.filterMap Pending.waitingId := by
    rw [hc]; simp [List.filterMap_cons, hp]
  have hperm : (insertedIds h ++ (a.filterMap Pending.waitingId ++ wrapI32 c.mem.allocated ::
      b.filterMap Pending.waitingId)).Perm (wrapI32 c.mem.allocated ::
      (insertedIds h ++ c.calls.filterMap Pending.waitingId)) := by
    rw [hfm, ← List.append_assoc, ← List.append_assoc]
    exact List.perm_middle
  have hfm' : (a ++ Pending.allocated (wrapI32 c.mem.allocated) e :: b).filterMap Pending.waitingId
      = a.filterMap Pending.waitingId ++ wrapI32 c.mem.allocated :: b.filterMap Pending.waitingId := by
    simp [List.filterMap_cons, Pending.waitingId]
  constructor
  · simp only [e1, hfm']
    rw [hperm.nodup_iff, List.nodup_cons]
    refine ⟨?_, H.nodup⟩
    intro hm
    obtain ⟨n, hn, he⟩ := H.bound _ hm
    have := wrapI32_inj (by omega) (by omega) he
    omega
  · simp only [e1, hfm']
    intro x hx
    rcases List.mem_cons.mp (hperm.mem_iff.mp hx) with hx | hx
    · exact ⟨c.mem.allocated, Nat.lt_succ_self c.mem.allocated, hx⟩
    · obtain ⟨n, hn, he⟩ := H.bound x hx
      exact ⟨n, by omega, he⟩
  · rw [e1]; exact H.stored
  · rw [e1]
    intro x hx id hid
    rcases List.mem_append.mp hx with hx | hx
    · exact H.touched x hx id hid
    · simp only [List.mem_singleton] at hx
      subst hx
      simp [Ev.touches, Ev.handsOut, Ev.finishes, Ev.putsBack,
        Ev.retries, Ev.snoozes, Ev.reruns, Ev.updates, Ev.conflicts] at hid
  · rw [idsTaken_append, H.taken]; rfl

theorem step_allocated_le (now : Time) (c : Conc) (a : Act) :
    c.mem.allocated ≤ (c.step now a).2.mem.allocated := by
  cases a with
  | start e => exact Nat.le_refl _
  | op o => simp only [Conc.step]; rw [(step_ids now c.mem o).2]; exact Nat.le_refl _
  | advance i =>
    simp only [Conc.step]
    cases hp : c.calls[i]? with
    | none => exact Nat.le_refl _
    | some p =>
      simp only
      cases p with
      | start e =>
        simp only [Mem.advance]
        split
        · exact Nat.le_succ _
        · split <;> exact Nat.le_refl _
      | noMatch e => exact Nat.le_succ _
      | allocated id e => exact Nat.le_refl _
      | pushed id e => simp [Mem.advance]
      | matched job => rw [advance_matched_mem, Mem.update, onJob_allocated]; exact Nat.le_refl _
      | done r => exact Nat.le_refl _

theorem HistOk.step {h : List TEv} {c : Conc} {now : Time} {a : Act} (H : HistOk h c)
    (hb : (c.step now a).2.mem.allocated ≤ 4294967296) :
    HistOk (h ++ [{ now := now, ev := (c.step now a).1 }]) (c.step now a).2 := by
  have notouch : ∀ ev : Ev, (∀ id, ev.touches id = false) → ∀ id, ev.touches id = true → id ∈ c.mem.ids := by
    intro ev h id hid; rw [h] at hid; cases hid
  cases a with
  | start e =>
    refine H.quiet rfl rfl ?_ (List.Sublist.refl _) rfl (notouch _ fun _ => rfl)
    simp [Conc.step, List.filterMap_cons, Pending.waitingId]
  | op o =>
    have hs := step_ids now c.mem o
    refine H.quiet rfl rfl rfl hs.1 hs.2 ?_
    intro id hid
    exact step_touches now c.mem o id hid
  | advance i =>
    simp only [Conc.step] at hb ⊢
    cases hp : c.calls[i]? with
    | none =>
      simp only [hp]
      exact H.quiet rfl rfl rfl (List.Sublist.refl _) rfl (notouch _ fun _ => rfl)
    | some p =>
      simp only [hp] at hb ⊢
      obtain ⟨l, r, hc, hset⟩ := set_split hp
      rw [hset]
      have wait : ∀ q : Pending, p.waitingId = q.waitingId →
          (l ++ q :: r).filterMap Pending.waitingId = c.calls.filterMap Pending.waitingId := by
        intro q hq
        rw [hc]; simp [List.filterMap_cons, hq]
      cases p with
      | start e =>
        simp only [Mem.advance] at hb ⊢
        cases hcr : e.criteria with
        | none =>
          simp only [hcr] at hb ⊢
          exact H.alloc hc rfl (Nat.lt_of_succ_le hb)
        | some u =>
          simp only [hcr] at hb ⊢
          split
          · exact H.quiet rfl rfl (wait _ rfl) (List.Sublist.refl _) rfl (notouch _ fun _ => rfl)
          · exact H.quiet rfl rfl (wait _ rfl) (List.Sublist.refl _) rfl (notouch _ fun _ => rfl)
      | noMatch e => exact H.alloc hc rfl (Nat.lt_of_succ_le hb)
      | allocated id e =>
        simp only [Mem.advance]
        have e1 : insertedIds (h ++ [({ now := now, ev := .inserted id e } : TEv)])
            = insertedIds h ++ [id] := by simp [insertedIds]
        have hfm : c.calls.filterMap Pending.waitingId
            = l.filterMap Pending.waitingId ++ id :: r.filterMap Pending.waitingId := by
          rw [hc]; simp [List.filterMap_cons, Pending.waitingId]
        have hfm' : (l ++ Pending.pushed id e :: r).filterMap Pending.waitingId
            = l.filterMap Pending.waitingId ++ r.filterMap Pending.waitingId := by
          simp [List.filterMap_cons, Pending.waitingId]
        have hperm : ((insertedIds h ++ [id]) ++ (l.filterMap Pending.waitingId ++
            r.filterMap Pending.waitingId)).Perm
            (insertedIds h ++ c.calls.filterMap Pending.waitingId) := by
          rw [hfm, List.append_assoc]
          exact List.Perm.append_left _ (by simpa using List.perm_middle.symm)
        constructor
        · simp only [e1, hfm']; rw [hperm.nodup_iff]; exact H.nodup
        · simp only [e1, hfm']
          intro x hx
          exact H.bound x (hperm.mem_iff.mp hx)
        · rw [e1]; simp only [Mem.ids, List.map_append, List.map_cons, List.map_nil, intoJob_id]
          exact H.stored.append (List.Sublist.refl _)
        · rw [e1]
          intro x hx i' hid
          rcases List.mem_append.mp hx with hx | hx
          · exact List.mem_append_left _ (H.touched x hx i' hid)
          · simp only [List.mem_singleton] at hx
            subst hx
            simp [Ev.touches, Ev.handsOut, Ev.finishes, Ev.putsBack,
              Ev.retries, Ev.snoozes, Ev.reruns, Ev.updates, Ev.conflicts] at hid
        · rw [idsTaken_append, H.taken]; rfl
      | pushed id e =>
        refine H.quiet rfl rfl (wait _ rfl) ?_ ?_ (notouch _ fun _ => rfl)
        · simp [Mem.advance, Mem.ids]
        · simp [Mem.advance]
      | matched job =>
        have hev := advance_matched_ev now c.mem job
        rw [hev]
        refine H.quiet rfl rfl ?_ ?_ ?_ ?_
        · simp only [Mem.advance]
          split <;> exact wait _ rfl
        · simp only [advance_matched_mem]
          exact (step_ids now c.mem (.update job)).1
        · simp only [advance_matched_mem]
          exact (step_ids now c.mem (.update job)).2
        · intro id hid
          refine step_touches now c.mem (.update job) id ?_
          revert hid
          simp only [Mem.step]
          cases (c.mem.update job).1 <;>
            simp [Ev.touches, Ev.handsOut, Ev.finishes, Ev.putsBack,
              Ev.retries, Ev.snoozes, Ev.reruns, Ev.updates, Ev.conflicts]
      | done r => exact H.quiet rfl rfl (wait _ rfl) (List.Sublist.refl _) rfl (notouch _ fun _ => rfl)

theorem run_allocated_le (c : Conc) (as : List TAct) : c.mem.allocated ≤ (c.run as).mem.allocated := by
  induction as generalizing c with
  | nil => exact Nat.le_refl _
  | cons a as ih => exact Nat.le_trans (step_allocated_le a.now c a.act) (ih _)

theorem trace_taken (c : Conc) (as : List TAct) :
    c.mem.allocated + idsTaken (c.trace as) = (c.run as).mem.allocated := by
  induction as generalizing c with
  | nil => simp [Conc.trace, Conc.run, idsTaken]
  | cons a as ih =>
    simp only [Conc.trace, Conc.run]
    rw [show ∀ (x : TEv) l, x :: l = [x] ++ l from fun _ _ => rfl, idsTaken_append, ← ih]
    suffices h : c.mem.allocated + idsTaken [({ now := a.now, ev := (c.step a.now a.act).1 } : TEv)]
        = (c.step a.now a.act).2.mem.allocated by omega
    obtain ⟨now, act⟩ := a
    cases act with
    | start e => rfl
    | op o =>
      simp only [Conc.step]; rw [(step_ids now c.mem o).2]; rfl
    | advance i =>
      simp only [Conc.step]
      cases hp : c.calls[i]? with
      | none => rfl
      | some p =>
        simp only
        cases p with
        | start e =>
          simp only [Mem.advance]
          split
          · rfl
          · split <;> rfl
        | noMatch e => rfl
        | allocated id e => rfl
        | pushed id e => simp [Mem.advance, idsTaken]
        | matched job =>
          rw [advance_matched_mem, Mem.update, onJob_allocated, advance_matched_ev]; rfl
        | done r => rfl

/-- Every history of a fresh backend, as long as the counter has not wrapped. -/
theorem histOk_run (p : Bool) (as : List TAct)
    (hb : idsTaken ((fresh p).trace as) ≤ 4294967296) :
    HistOk ((fresh p).trace as) ((fresh p).run as) := by
  have hb' : ((fresh p).run as).mem.allocated ≤ 4294967296 := by
    rw [← trace_taken]; simpa [fresh, Mem.init] using hb
  clear hb
  revert hb'
  refine snocInduction (P := fun as => ((fresh p).run as).mem.allocated ≤ 4294967296 →
    HistOk ((fresh p).trace as) ((fresh p).run as)) ?_ ?_ as
  · intro _; exact HistOk.init p
  · intro as a ih hb
    rw [Conc.run_append] at hb
    have := ih (Nat.le_trans (step_allocated_le a.now _ a.act) hb)
    rw [Conc.run_append, Conc.trace_append]
    exact this.step hb

end Rexecutor
