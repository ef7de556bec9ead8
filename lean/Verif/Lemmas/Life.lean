import Verif.Lemmas.HistOk

/-! Induction principles for statements about one job in a history. -/

namespace Rexecutor

theorem idsTaken_append_le {a b : List TEv} {n : Nat} (h : idsTaken (a ++ b) ≤ n) : idsTaken a ≤ n := by
  rw [idsTaken_append] at h; omega

theorem mem_ids {m : Mem} {k : KeyedJob} (h : k ∈ m.jobs) : k.job.id ∈ m.ids :=
  List.mem_map_of_mem h

theorem eq_of_id {ks : List KeyedJob} (hn : (ks.map fun k => k.job.id).Nodup) {k k' : KeyedJob}
    (hk : k ∈ ks) (hk' : k' ∈ ks) (h : k'.job.id = k.job.id) : k' = k := by
  induction ks with
  | nil => simp at hk
  | cons x xs ih =>
    simp only [List.map_cons, List.nodup_cons] at hn
    rcases List.mem_cons.mp hk with rfl | hk₁ <;> rcases List.mem_cons.mp hk' with rfl | hk₂
    · rfl
    · exact absurd (h ▸ List.mem_map_of_mem (f := fun k : KeyedJob => k.job.id) hk₂) hn.1
    · exact absurd (h ▸ List.mem_map_of_mem (f := fun k : KeyedJob => k.job.id) hk₁) hn.1
    · exact ih hn.2 hk₁ hk₂

theorem HistOk.mem_inserted {h : List TEv} {c : Conc} (H : HistOk h c) {k : KeyedJob}
    (hk : k ∈ c.mem.jobs) : k.job.id ∈ insertedIds h := H.stored.subset (mem_ids hk)

theorem HistOk.not_waiting {h : List TEv} {c : Conc} (H : HistOk h c) {id : Int}
    (hid : id ∈ insertedIds h) : id ∉ c.calls.filterMap Pending.waitingId := by
  intro hw
  exact (List.nodup_append.mp H.nodup).2.2 id hid id hw rfl

/-- An `inserted` event comes from a call that had taken that id. -/
theorem inserted_waiting {now : Time} {c : Conc} {a : Act} {id : Int} {e : EnqueuableJob}
    (h : (c.step now a).1 = .inserted id e) : id ∈ c.calls.filterMap Pending.waitingId := by
  cases a with
  | start e => simp [Conc.step] at h
  | op o => simp [Conc.step] at h
  | advance i =>
    simp only [Conc.step] at h
    cases hp : c.calls[i]? with
    | none => rw [hp] at h; simp at h
    | some p =>
      simp only [hp] at h
      have hm := List.mem_of_getElem? hp
      cases p with
      | start e =>
        simp only [Mem.advance] at h
        split at h
        · simp at h
        · split at h <;> simp at h
      | noMatch e => simp [Mem.advance] at h
      | allocated id' e' =>
        simp only [Mem.advance, Ev.inserted.injEq] at h
        exact List.mem_filterMap.mpr ⟨_, hm, by simp [Pending.waitingId, h.1]⟩
      | pushed id e => simp [Mem.advance] at h
      | matched job => rw [advance_matched_ev] at h; simp at h
      | done r => simp [Mem.advance] at h

/-- A hand-out event comes from a `load` that found the job ready. -/
theorem handout_cases {now : Time} {c : Conc} {a : Act} {x : String} {j : Job}
    (h : (c.step now a).1 = .op (.load x) (.job (some j))) :
    a = .op (.load x) ∧
    ∃ l k r, c.mem.jobs = l ++ k :: r ∧ readyFor now x k.job = true ∧
      (∀ y ∈ l, readyFor now x y.job = true → dueBefore y.job k.job = false) ∧
      (∀ y ∈ r, readyFor now x y.job = true → dueBefore k.job y.job = true) ∧
      j = k.job.markExecuting now ∧
      (c.step now a).2 = { c with mem := { c.mem with
        jobs := l ++ { k with job := k.job.markExecuting now } :: r } } := by
  cases a with
  | start e => simp [Conc.step] at h
  | advance i =>
    exfalso
    simp only [Conc.step] at h
    cases hp : c.calls[i]? with
    | none => rw [hp] at h; simp at h
    | some p =>
      simp only [hp] at h
      cases p with
      | start e =>
        simp only [Mem.advance] at h
        split at h
        · simp at h
        · split at h <;> simp at h
      | noMatch e => simp [Mem.advance] at h
      | allocated id' e' => simp [Mem.advance] at h
      | pushed id e => simp [Mem.advance] at h
      | matched job => rw [advance_matched_ev] at h; simp at h
      | done r => simp [Mem.advance] at h
  | op o =>
    simp only [Conc.step, Ev.op.injEq] at h
    obtain ⟨rfl, h⟩ := h
    refine ⟨rfl, ?_⟩
    simp only [Mem.step] at h
    simp only [Conc.step, Mem.step]
    rcases load_cases now x c.mem with ⟨-, he⟩ | ⟨l, k, r, h1, h2, h3, h4, h5⟩
    · rw [he] at h; simp at h
    · rw [h5] at h
      simp only [Res.job.injEq, Option.some.injEq] at h
      exact ⟨l, k, r, h1, h2, h3, h4, h.symm, by rw [h5]⟩

/-- Induction over the life of a stored job. -/
theorem life_induction (p : Bool) (P : List TEv → Job → Prop)
    (hnew : ∀ (h : List TEv) (now : Time) (id : Int) (e : EnqueuableJob),
      (∀ x ∈ h, x.ev.touches id = false) →
      P (h ++ [{ now := now, ev := .inserted id e }]) (e.intoJob now id).job)
    (hstep : ∀ (h : List TEv) (now : Time) (ev : Ev) (j : Job), P h j →
      P (h ++ [{ now := now, ev := ev }]) (applyEv now ev j))
    (as : List TAct) (hb : idsTaken ((fresh p).trace as) ≤ 4294967296) :
    ∀ k ∈ ((fresh p).run as).mem.jobs, P ((fresh p).trace as) k.job := by
  revert hb
  refine snocInduction (P := fun as => idsTaken ((fresh p).trace as) ≤ 4294967296 →
    ∀ k ∈ ((fresh p).run as).mem.jobs, P ((fresh p).trace as) k.job) ?_ ?_ as
  · intro _ k hk; simp [Conc.run, fresh, Mem.init] at hk
  · intro as a ih hb k hk
    rw [Conc.trace_append] at hb ⊢
    rw [Conc.run_append] at hk
    have hb1 := idsTaken_append_le hb
    have H := histOk_run p as hb1
    simp only [Conc.run, Conc.trace] at hk hb ⊢
    cases step_job H.ids_nodup hk with
    | new e hev hke =>
      rw [hev]
      rw [hke]
      simp only [intoJob_id]
      refine hnew _ _ _ _ ?_
      intro x hx
      cases ht : x.ev.touches k.job.id with
      | false => rfl
      | true =>
        exact absurd (inserted_waiting hev) (H.not_waiting (H.touched x hx _ ht))
    | old k₀ hk₀ _ hj =>
      rw [hj]
      exact hstep _ _ _ _ (ih hb1 k₀ hk₀)

/-- Following one job through a continuation of a history. -/
theorem follow_job {h : List TEv} {c : Conc} (H : HistOk h c) {id : Int} (hid : id ∈ insertedIds h)
    (P : Job → Prop) (allowed : Ev → Prop)
    (hstep : ∀ now ev j, allowed ev → j.id = id → P j → P (applyEv now ev j))
    (as : List TAct) (hb : (c.run as).mem.allocated ≤ 4294967296)
    (hal : ∀ e ∈ c.trace as, allowed e.ev)
    (h0 : ∀ k ∈ c.mem.jobs, k.job.id = id → P k.job) :
    HistOk (h ++ c.trace as) (c.run as) ∧
    ∀ k ∈ (c.run as).mem.jobs, k.job.id = id → P k.job := by
  induction as generalizing h c with
  | nil => simp only [Conc.trace, Conc.run, List.append_nil]; exact ⟨H, h0⟩
  | cons a as ih =>
    simp only [Conc.run] at hb ⊢
    simp only [Conc.trace] at hal ⊢
    have hb' : (c.step a.now a.act).2.mem.allocated ≤ 4294967296 :=
      Nat.le_trans (run_allocated_le _ as) hb
    have H' := H.step (now := a.now) (a := a.act) hb'
    have hid' : id ∈ insertedIds (h ++ [({ now := a.now, ev := (c.step a.now a.act).1 } : TEv)]) := by
      rw [insertedIds_append]; exact List.mem_append_left _ hid
    have := ih H' hid' hb (fun e he => hal e (List.mem_cons_of_mem _ he)) ?_
    · simpa using this
    · intro k hk hkid
      cases step_job H.ids_nodup hk with
      | new e hev hke =>
        rw [hkid] at hev
        exact absurd (inserted_waiting hev) (H.not_waiting hid)
      | old k₀ hk₀ _ hj =>
        rw [hj]
        have hid0 : k₀.job.id = id := by
          have := applyEv_id a.now (c.step a.now a.act).1 k₀.job
          rw [← hj] at this; rw [← this]; exact hkid
        exact hstep _ _ _ (hal _ List.mem_cons_self) hid0 (h0 k₀ hk₀ hid0)

/-- Splitting a history of a fresh backend at an event. -/
theorem fresh_split {p : Bool} {as : List TAct} {pre post : List TEv} {e : TEv}
    (h : (fresh p).trace as = pre ++ e :: post)
    (hb : idsTaken ((fresh p).trace as) ≤ 4294967296) :
    ∃ as₁ a as₂, as = as₁ ++ a :: as₂ ∧
      (fresh p).trace as₁ = pre ∧
      e = { now := a.now, ev := (((fresh p).run as₁).step a.now a.act).1 } ∧
      ((((fresh p).run as₁).step a.now a.act).2).trace as₂ = post ∧
      HistOk pre ((fresh p).run as₁) ∧
      HistOk (pre ++ [e]) (((fresh p).run as₁).step a.now a.act).2 ∧
      ((((fresh p).run as₁).step a.now a.act).2.run as₂).mem.allocated ≤ 4294967296 := by
  obtain ⟨as₁, rest, rfl, h1, h2⟩ := Conc.trace_split h
  obtain ⟨a, as₂, rfl, rfl, h4⟩ := Conc.trace_cons h2
  have hb0 : ((fresh p).run (as₁ ++ a :: as₂)).mem.allocated ≤ 4294967296 := by
    rw [← trace_taken]; simpa [fresh, Mem.init] using hb
  rw [Conc.run_append] at hb0
  have H : HistOk pre ((fresh p).run as₁) := by
    rw [← h1]; refine histOk_run p as₁ ?_
    rw [h] at hb; rw [h1]; exact idsTaken_append_le hb
  refine ⟨as₁, a, as₂, rfl, h1, rfl, h4, H, H.step ?_, hb0⟩
  exact Nat.le_trans (run_allocated_le _ as₂) hb0

end Rexecutor
