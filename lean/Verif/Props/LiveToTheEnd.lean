import Verif.Props.Live
import Verif.Props.LiveRuns
import Verif.Props.Served
import Verif.Props.ToTheEnd

/-!
# C126: a job is finished by a time that can be computed beforehand

Runners with their streams (`Live`). C119 says that a job is finished some time; here it is said when.
-/

namespace Rexecutor

/-- An execution of job `id` reported a snooze. -/
def LvEv.snoozesJob (id : Int) : LvEv → Bool
  | .reported _ _ ev => ev.snoozes id
  | _ => false

/-- An execution of job `id` reported. -/
private def LvEv.reportsOf (id : Int) : LvEv → Bool
  | .reported _ t _ => t.id == id
  | _ => false

private theorem lte_trace_append (defs : List Runner) (s : Live) (as bs : List TLvAct) :
    s.trace defs (as ++ bs) = s.trace defs as ++ (s.run defs as).trace defs bs := by
  induction as generalizing s with
  | nil => rfl
  | cons a as ih => exact congrArg _ (ih _)

/-- the first event of some kind -/
private theorem first_event (defs : List Runner) (P : LvEv → Bool) (s : Live) (as : List TLvAct)
    (h : ∃ e ∈ s.trace defs as, P e.ev = true) :
    ∃ as₁ a as₂, as = as₁ ++ a :: as₂ ∧ (∀ e ∈ s.trace defs as₁, P e.ev = false) ∧
      P ((s.run defs as₁).act defs a.now a.act).1 = true := by
  induction as generalizing s with
  | nil => obtain ⟨e, he, -⟩ := h; simp [Live.trace] at he
  | cons a as ih =>
    cases hp : P (s.act defs a.now a.act).1 with
    | true => exact ⟨[], a, as, rfl, by simp [Live.trace], hp⟩
    | false =>
      obtain ⟨e, he, hpe⟩ := h
      rcases List.mem_cons.mp he with rfl | he
      · rw [hp] at hpe; cases hpe
      · obtain ⟨as₁, b, as₂, g1, g2, g3⟩ := ih _ ⟨e, he, hpe⟩
        refine ⟨a :: as₁, b, as₂, by rw [g1]; rfl, ?_, g3⟩
        intro e he
        rcases List.mem_cons.mp he with rfl | he
        · exact hp
        · exact g2 e he

/-- an event of a schedule comes from an action -/
private theorem trace_split {defs : List Runner} {s : Live} {as : List TLvAct} {es₁ es₂ : List TLvEv} {e : TLvEv}
    (h : s.trace defs as = es₁ ++ e :: es₂) : ∃ as₁ a as₂, as = as₁ ++ a :: as₂ ∧ s.trace defs as₁ = es₁ ∧
      e = ⟨a.now, ((s.run defs as₁).act defs a.now a.act).1⟩ ∧ (s.run defs (as₁ ++ [a])).trace defs as₂ = es₂ := by
  induction as generalizing s es₁ with
  | nil => simp [Live.trace] at h
  | cons a as ih =>
    cases es₁ with
    | nil =>
      simp only [Live.trace, List.nil_append, List.cons.injEq] at h
      exact ⟨[], a, as, rfl, rfl, h.1.symm, h.2⟩
    | cons x es₁ =>
      simp only [Live.trace, List.cons_append, List.cons.injEq] at h
      obtain ⟨as₁, b, as₂, g1, g2, g3, g4⟩ := ih h.2
      refine ⟨a :: as₁, b, as₂, by rw [g1]; rfl, ?_, g3, g4⟩
      rw [← h.1, ← g2]; rfl

/-- the state of runners with streams, and that of runners without which did the same -/
private structure Twin (defs : List Runner) (l : List TLvAct) (t : Sys) : Prop where
  sim : LiveSim defs ((Live.init defs).run defs l) t
  same : ∃ bs, (Sys.init defs false).trace defs bs = Live.seen defs false l ∧ t = (Sys.init defs false).run defs bs

private theorem seen_append (defs : List Runner) (l m : List TLvAct) : ∃ h, Live.seen defs false (l ++ m) = Live.seen defs false l ++ h := by
  unfold Live.seen
  rw [lte_trace_append, List.filterMap_append]
  exact ⟨_, rfl⟩

/-- what is assumed of the history of a job -/
private structure Alone (defs : List Runner) (id : Int) (l : List TLvAct) : Prop where
  ids : idsTaken (backHistory (Live.seen defs false l)) ≤ 4294967296
  leave : ClientsLeave id (Live.seen defs false l)

private theorem Alone.front {defs : List Runner} {id : Int} {l m : List TLvAct} (A : Alone defs id (l ++ m)) : Alone defs id l := by
  obtain ⟨h, hh⟩ := seen_append defs l m
  obtain ⟨h1, h2⟩ := A
  rw [hh] at h1 h2
  rw [backHistory_append] at h1
  exact ⟨idsTaken_append_le h1, fun e he => h2 e (List.mem_append_left _ he)⟩

private theorem twin (defs : List Runner) (l : List TLvAct) : ∃ t, Twin defs l t := by
  obtain ⟨bs, h1, h2⟩ := live_refines defs (liveSim_init defs false) l
  exact ⟨_, h2, bs, h1, rfl⟩

private theorem Twin.known {defs : List Runner} {id : Int} {l : List TLvAct} {t : Sys} (W : Twin defs l t) (A : Alone defs id l) :
    HistOk (backHistory (Live.seen defs false l)) t.conc ∧ Track id (Live.seen defs false l) t ∧ AllReportable t := by
  obtain ⟨bs, h1, h2⟩ := W.same
  obtain ⟨a1, a2⟩ := A
  rw [← h1] at a1 a2 ⊢
  rw [h2]
  exact ⟨histOk_sys defs false bs a1, track_run defs false id bs a1 a2⟩

private theorem Twin.next {defs : List Runner} {id : Int} {l : List TLvAct} {t : Sys} (W : Twin defs l t) (a : TLvAct)
    (A : Alone defs id (l ++ [a])) : ∃ t', Twin defs (l ++ [a]) t' ∧
      ((t' = t ∧ (((Live.init defs).run defs l).act defs a.now a.act).1.visible defs = none) ∨
       ∃ v b, (((Live.init defs).run defs l).act defs a.now a.act).1.visible defs = some v ∧ FlyStep id a.now t v t' ∧
         SStep defs a.now t b v t') := by
  obtain ⟨t', h, S'⟩ := liveSim_act W.sim a.now a.act
  obtain ⟨bs, h1, h2⟩ := W.same
  have hs : Live.seen defs false (l ++ [a]) = Live.seen defs false l ++
      ((((Live.init defs).run defs l).act defs a.now a.act).1.visible defs).toList.map fun v => ⟨a.now, v⟩ := by
    unfold Live.seen
    rw [lte_trace_append, List.filterMap_append]
    congr 1
    simp only [Live.trace, List.filterMap_cons, List.filterMap_nil]
    cases (((Live.init defs).run defs l).act defs a.now a.act).1.visible defs <;> rfl
  have hr : LiveSim defs ((Live.init defs).run defs (l ++ [a])) t' := by
    rw [live_run_append]; exact S'
  rcases h with ⟨hv, rfl⟩ | ⟨b, hv, rfl⟩
  · exact ⟨t', ⟨hr, bs, by rw [hs, hv, h1]; simp, h2⟩, .inl ⟨rfl, hv⟩⟩
  · obtain ⟨-, T, R⟩ := W.known A.front
    refine ⟨_, ⟨hr, bs ++ [⟨a.now, b⟩], ?_, ?_⟩, .inr ⟨_, b, hv, ?_, step_sstep defs a.now t b⟩⟩
    · rw [hs, hv, Sys.trace_append, h1, h2]; simp [Sys.trace]
    · rw [Sys.run_append, h2]; rfl
    · refine fly_step T R ?_ (step_sstep defs a.now t b)
      intro e he
      have := A.leave ⟨a.now, (t.step defs a.now b).1⟩ (by rw [hs, hv]; simp)
      rw [he] at this
      exact this

private theorem lte_job_next {h : List TEv} {c : Conc} (H : HistOk h c) {now : Time} {b : Act} {id : Int}
    (hin : id ∈ insertedIds h) {k' : KeyedJob} (hk' : k' ∈ (c.step now b).2.mem.jobs) (hid : k'.job.id = id) :
    ∃ k ∈ c.mem.jobs, k.job.id = id ∧ k'.job = applyEv now (c.step now b).1 k.job := by
  cases step_job H.ids_nodup hk' with
  | new e hev hk =>
    rw [hid] at hev
    exact absurd (inserted_waiting hev) (H.not_waiting hin)
  | old k hk _ hj =>
    refine ⟨k, hk, ?_, hj⟩
    have := applyEv_id now (c.step now b).1 k.job
    rw [← hj] at this
    rw [← this]; exact hid

/-- what an action can make of a job -/
private inductive Turn (id : Int) (now : Time) (ev : LvEv) (j j' : Job) : Prop where
  | same (h : j' = j) (hout : ev.handsOut id = false) (hrep : ev.reportsOf id = false)
  | taken (r i : Nat) (x : Job) (st : Started) (hev : ev = .moved r (.returned i x) (some st)) (hx : x.id = id)
      (hw : j.available) (h : j' = j.markExecuting now)
  | reported (r : Nat) (t : Task) (o : Op) (hev : ev = .reported r t (.op o .unit)) (ht : t.id = id) (hrep : Reportable t o)
      (hx : j.status = .executing) (hf : t.isFinal = decide (j.attempt = j.maxAttempts)) (h : j' = applyEv now (.op o .unit) j)

/-- a job a stream returns is returned to a runner -/
private theorem act_returned {defs : List Runner} {s : Live} {now : Time} {a : LvAct} {r i : Nat} {j : Job} {st : Option Started}
    (h : (s.act defs now a).1 = .moved r (.returned i j) st) : ∃ d, defs[r]? = some d ∧ st = some (d.start j) := by
  cases a with
  | client a => cases h
  | shutdown => cases h
  | begin x =>
    simp only [Live.act] at h
    split at h <;> cases h
  | poll x =>
    simp only [Live.act] at h
    split at h
    · split at h
      · split at h <;> cases h
      · cases h
    · cases h
  | finish x y z =>
    simp only [Live.act] at h
    split at h
    · split at h
      · split at h
        · cases h
        · split at h <;> cases h
      · cases h
    · cases h
  | report x y =>
    simp only [Live.act] at h
    split at h
    · split at h <;> cases h
    · cases h
  | step x b =>
    simp only [Live.act] at h
    cases hd : defs[x]? with
    | none => rw [hd] at h; cases h
    | some d =>
      cases hq : s.runners[x]? with
      | none => rw [hd, hq] at h; cases h
      | some q =>
        rw [hd, hq] at h
        obtain ⟨st', ip, rs⟩ := q
        cases st' with
        | none => cases h
        | some y =>
          cases ip with
          | false => cases h
          | true =>
            simp only at h
            generalize s.streams.step now (.stream y b) = z at *
            obtain ⟨ev, st'⟩ := z
            cases ev with
            | returned i' j' =>
              simp only [LvEv.moved.injEq, StEv.returned.injEq] at h
              obtain ⟨rfl, ⟨rfl, rfl⟩, rfl⟩ := h
              exact ⟨d, hd, rfl⟩
            | _ => cases h

private theorem Alone.turn {defs : List Runner} {id : Int} {l : List TLvAct} {a : TLvAct} (A : Alone defs id (l ++ [a]))
    (hin : id ∈ insertedIds (backHistory (Live.seen defs false l))) {k' : KeyedJob}
    (hk' : k' ∈ ((Live.init defs).run defs (l ++ [a])).streams.conc.mem.jobs) (hid : k'.job.id = id) :
    ∃ k ∈ ((Live.init defs).run defs l).streams.conc.mem.jobs, k.job.id = id ∧
      Turn id a.now (((Live.init defs).run defs l).act defs a.now a.act).1 k.job k'.job := by
  obtain ⟨t, W⟩ := twin defs l
  obtain ⟨t', W', hst⟩ := W.next a A
  obtain ⟨H, T, R⟩ := W.known A.front
  rw [← W'.sim.conc.mem.jobs] at hk'
  rw [← W.sim.conc.mem.jobs]
  have hret : ∀ r i j st, (((Live.init defs).run defs l).act defs a.now a.act).1 = .moved r (.returned i j) st →
      ∃ d, defs[r]? = some d ∧ st = some (d.start j) := fun _ _ _ _ => act_returned
  generalize (((Live.init defs).run defs l).act defs a.now a.act).1 = ev at *
  rcases hst with ⟨rfl, hv⟩ | ⟨v, b, hv, hf, hs⟩
  · refine ⟨k', hk', hid, ?_⟩
    have : ev.handsOut id = false ∧ ev.reportsOf id = false := by
      cases ev with
      | client => cases hv
      | reported => cases hv
      | moved r e st =>
        cases e with
        | returned i j =>
          obtain ⟨d, h1, rfl⟩ := hret _ _ _ _ rfl
          simp [LvEv.visible, h1] at hv
        | _ => exact ⟨rfl, rfl⟩
      | _ => exact ⟨rfl, rfl⟩
    exact .same rfl this.1 this.2
  · obtain ⟨k, hk, hkid, hj⟩ : ∃ k ∈ t.conc.mem.jobs, k.job.id = id ∧ k'.job = match v.back with
        | some e => applyEv a.now e k.job
        | none => k.job := by
      cases hf with
      | away _ _ hsub hback hconc hend => rw [hback]; rw [hconc] at hk'; exact ⟨k', hk', hid, rfl⟩
      | other _ _ b hsub hback hconc ht => rw [hback]; rw [hconc] at hk'; exact lte_job_next H hin hk' hid
      | taken r x j st _ hev hj hfly hfly' hconc =>
        rw [hconc] at hk'
        have := lte_job_next H hin hk' hid
        rw [hev] at this
        exact this
      | ended r t j d o _ hid' ho hfly hfly' hconc => rw [hconc] at hk'; exact ⟨k', hk', hid, rfl⟩
      | overflowed r t j _ hid' hfly hfly' hconc => rw [hconc] at hk'; exact ⟨k', hk', hid, rfl⟩
      | reported r t o _ hid' hrep hfly hfly' hconc => rw [hconc] at hk'; exact lte_job_next H hin hk' hid
    refine ⟨k, hk, hkid, ?_⟩
    have found : ∀ {t₁ o}, t₁.id = id → Reportable t₁ o → (t.conc.step a.now (.op o)).1 = .op o .unit := fun h1 h2 =>
      report_found_mem h2 ⟨k, hk, by rw [hkid, h1]⟩
    have quiet : (∀ r i j st, ev ≠ .moved r (.returned i j) st ∨ j.id ≠ id) → (∀ e, ev = .client e → e.touches id = false) →
        (∀ r t₁ e, ev = .reported r t₁ e → e.touches id = false ∧ t₁.id ≠ id) → ev.handsOut id = false ∧ ev.reportsOf id = false := by
      intro h1 h2 h3
      have un : ∀ e : Ev, e.touches id = false → e.handsOut id = false := by
        intro e he
        simp only [Ev.touches, Bool.or_eq_false_iff] at he
        exact he.1.1
      cases ev with
      | client e => exact ⟨un e (h2 e rfl), rfl⟩
      | reported r t₁ e => exact ⟨un e (h3 r t₁ e rfl).1, by simpa [LvEv.reportsOf] using (h3 r t₁ e rfl).2⟩
      | moved r e st =>
        cases e with
        | returned i j => exact ⟨by simpa [LvEv.handsOut] using h1 r i j st, rfl⟩
        | _ => exact ⟨rfl, rfl⟩
      | _ => exact ⟨rfl, rfl⟩
    have hjob : ∀ e : Ev, e.touches id = false → applyEv a.now e k.job = k.job := fun e he =>
      applyEv_of_not_touches (by rw [hkid]; exact he)
    -- a report of the job is found and touches it
    have hrepd : ∀ r t₁ e, v = .reported r t₁ e → t₁.id = id → e.touches id = true := by
      rintro r t₁ e rfl ht
      cases hs with
      | reported r i rs t₁ o hr hfl =>
        have hR : Reportable t₁ o := R r _ o (by rw [flightsOf_some hr]; exact List.mem_of_getElem? hfl) rfl
        rw [found ht hR]
        rcases reportable_cases hR with rfl | ⟨e, rfl⟩ | ⟨x, rfl⟩ | ⟨-, e, rfl⟩ | ⟨-, x, e, rfl⟩ <;>
          simp [Ev.touches, Ev.finishes, Ev.putsBack, Ev.snoozes, Ev.retries, ht]
    have vis : (∀ r i j st, ev = .moved r (.returned i j) st → ∃ x s₁, v = .pulled r (.op (.load x) (.job (some j))) s₁ ∧ st = s₁) ∧
        (∀ e, ev = .client e → v = .client e) ∧ (∀ r t₁ e, ev = .reported r t₁ e → v = .reported r t₁ e) := by
      refine ⟨?_, ?_, ?_⟩
      · rintro r i j st rfl
        obtain ⟨d, h1, rfl⟩ := hret _ _ _ _ rfl
        simp only [LvEv.visible, h1, Option.some.injEq] at hv
        exact ⟨d.name, _, hv.symm, rfl⟩
      · rintro e rfl; simpa [LvEv.visible] using hv.symm
      · rintro r t₁ e rfl; simpa [LvEv.visible] using hv.symm
    have away : (v.back = none ∨ ∃ e, v.back = some e ∧ e.touches id = false) → Turn id a.now ev k.job k'.job := by
      intro hb
      have hq := quiet (by
        intro r i j st
        by_cases h : ev = .moved r (.returned i j) st
        · obtain ⟨x, s₁, rfl, -⟩ := vis.1 r i j st h
          right
          rcases hb with hb | ⟨e, hb, he⟩
          · cases hb
          · simp only [SEv.back, Option.some.injEq] at hb
            subst hb
            simp only [Ev.touches, Bool.or_eq_false_iff] at he
            simpa [Ev.handsOut] using he.1.1
        · exact .inl h) (by
        intro e h
        have := vis.2.1 e h
        subst this
        rcases hb with hb | ⟨e', hb, he⟩
        · cases hb
        · simp only [SEv.back, Option.some.injEq] at hb
          rw [hb]; exact he) (by
        intro r t₁ e h
        have h' := vis.2.2 r t₁ e h
        have hne : e.touches id = false := by
          subst h'
          rcases hb with hb | ⟨e', hb, he⟩
          · cases hb
          · simp only [SEv.back, Option.some.injEq] at hb
            rw [hb]; exact he
        refine ⟨hne, fun ht => ?_⟩
        have := hrepd r t₁ e h' ht
        rw [hne] at this; cases this)
      refine .same ?_ hq.1 hq.2
      rw [hj]
      rcases hb with hb | ⟨e, hb, he⟩
      · rw [hb]
      · rw [hb]; exact hjob e he
    cases hf with
    | away _ _ hsub hback hconc hend => exact away (.inl hback)
    | other _ _ b hsub hback hconc ht => exact away (.inr ⟨_, hback, ht⟩)
    | taken r x j st _ hev hj' hfly hfly' hconc =>
      obtain ⟨-, l', k₀, rr, g1, g2, -, -, g5, -⟩ := handout_cases hev
      have hk₀ : k₀ = k := eq_of_id H.ids_nodup hk (by rw [g1]; simp) (by rw [hkid, ← hj', g5]; rfl)
      subst hk₀
      rw [readyFor_iff] at g2
      have hev' : ∃ i, ev = .moved r (.returned i j) (some st) := by
        cases ev with
        | moved r' e st' =>
          cases e with
          | returned i j₁ =>
            obtain ⟨x', s₁, h1, rfl⟩ := vis.1 r' i j₁ st' rfl
            simp only [SEv.pulled.injEq, Ev.op.injEq, Res.job.injEq, Option.some.injEq] at h1
            obtain ⟨rfl, ⟨-, rfl⟩, rfl⟩ := h1
            exact ⟨i, rfl⟩
          | _ => simp [LvEv.visible] at hv
        | _ => simp [LvEv.visible] at hv
      obtain ⟨i, rfl⟩ := hev'
      refine .taken r i j st rfl hj' g2.2.2 ?_
      rw [hj]
      simp [SEv.back, applyEv, hkid, hj']
    | ended r t j d o _ hid' ho hfly hfly' hconc => exact away (.inl rfl)
    | overflowed r t j _ hid' hfly hfly' hconc => exact away (.inl rfl)
    | reported r t₁ o _ hid' hrep hfly hfly' hconc =>
      have hfound := found hid' hrep
      rw [hfound] at hj hv
      have hev' : ev = .reported r t₁ (.op o .unit) := by
        cases ev with
        | moved r' e st' =>
          cases e with
          | returned i j₁ =>
            obtain ⟨x', s₁, h1, rfl⟩ := vis.1 r' i j₁ st' rfl
            cases h1
          | _ => simp [LvEv.visible] at hv
        | _ => simp_all [LvEv.visible]
      rcases T.one with h0 | ⟨f, h1, h2⟩
      · rw [hfly] at h0; cases h0
      · rw [hfly] at h1
        obtain ⟨h3, h4⟩ := h2 k hk hkid
        cases h1
        exact .reported r t₁ o hev' hid' hrep h3 h4 hj

private def Known (defs : List Runner) (id : Int) (l : List TLvAct) : Prop := id ∈ insertedIds (backHistory (Live.seen defs false l))

private theorem Known.later {defs : List Runner} {id : Int} {l : List TLvAct} (h : Known defs id l) (m : List TLvAct) : Known defs id (l ++ m) := by
  obtain ⟨x, hx⟩ := seen_append defs l m
  unfold Known at *
  rw [hx, backHistory_append, insertedIds_append]
  exact List.mem_append_left _ h

private theorem known_of_stored {defs : List Runner} {id : Int} {l : List TLvAct} (A : Alone defs id l) {k : KeyedJob}
    (hk : k ∈ ((Live.init defs).run defs l).streams.conc.mem.jobs) (hid : k.job.id = id) : Known defs id l := by
  obtain ⟨t, W⟩ := twin defs l
  obtain ⟨H, -, -⟩ := W.known A
  rw [← W.sim.conc.mem.jobs] at hk
  have := H.mem_inserted hk
  rw [hid] at this
  exact this

private theorem stored_once {defs : List Runner} {id : Int} {l : List TLvAct} (A : Alone defs id l) {k k' : KeyedJob}
    (hk : k ∈ ((Live.init defs).run defs l).streams.conc.mem.jobs) (hk' : k' ∈ ((Live.init defs).run defs l).streams.conc.mem.jobs)
    (hid : k.job.id = id) (hid' : k'.job.id = id) : k = k' := by
  obtain ⟨t, W⟩ := twin defs l
  obtain ⟨H, -, -⟩ := W.known A
  rw [← W.sim.conc.mem.jobs] at hk hk'
  exact eq_of_id H.ids_nodup hk' hk (by rw [hid, hid'])

/-- a job that is still stored has been stored all the time -/
private theorem stored_before {defs : List Runner} {id : Int} {l m : List TLvAct} (A : Alone defs id (l ++ m)) (K : Known defs id l)
    (h : ∃ k ∈ ((Live.init defs).run defs (l ++ m)).streams.conc.mem.jobs, k.job.id = id) :
    ∃ k ∈ ((Live.init defs).run defs l).streams.conc.mem.jobs, k.job.id = id := by
  induction m generalizing l with
  | nil => simpa using h
  | cons a m ih =>
    have e : l ++ a :: m = l ++ [a] ++ m := by simp
    rw [e] at A h
    obtain ⟨k', h1, h2⟩ := ih A (K.later _) h
    obtain ⟨k, h3, h4, -⟩ := A.front.turn K h1 h2
    exact ⟨k, h3, h4⟩

/-- a job that is over stays over -/
private theorem over_stays {defs : List Runner} {id : Int} {l m : List TLvAct} (A : Alone defs id (l ++ m)) {k k' : KeyedJob}
    (hk : k ∈ ((Live.init defs).run defs l).streams.conc.mem.jobs) (hid : k.job.id = id) (ho : k.job.status.isOver = true)
    (hk' : k' ∈ ((Live.init defs).run defs (l ++ m)).streams.conc.mem.jobs) (hid' : k'.job.id = id) : k'.job.status.isOver = true := by
  induction m generalizing l k with
  | nil =>
    rw [List.append_nil] at hk' A
    rw [← stored_once A hk hk' hid hid']; exact ho
  | cons a m ih =>
    have e : l ++ a :: m = l ++ [a] ++ m := by simp
    rw [e] at A hk'
    have K := known_of_stored A.front.front hk hid
    obtain ⟨k₁, h1, h2⟩ := stored_before A (K.later _) ⟨k', hk', hid'⟩
    obtain ⟨k₀, h3, h4, ht⟩ := A.front.turn K h1 h2
    have := stored_once A.front.front hk h3 hid h4
    subst this
    refine ih A h1 h2 ?_ hk'
    cases ht with
    | same h _ _ => rw [h]; exact ho
    | taken _ _ _ _ _ _ hw _ => rcases hw with hw | hw <;> rw [hw] at ho <;> cases ho
    | reported _ _ _ _ _ _ hx _ _ => rw [hx] at ho; cases ho

/-- a job nobody begins with or reports stays as it is -/
private theorem stays {defs : List Runner} {id : Int} {l m n : List TLvAct} (A : Alone defs id (l ++ m ++ n)) {k : KeyedJob}
    (hk : k ∈ ((Live.init defs).run defs l).streams.conc.mem.jobs) (hid : k.job.id = id)
    (hend : ∃ k ∈ ((Live.init defs).run defs (l ++ m ++ n)).streams.conc.mem.jobs, k.job.id = id)
    (hno : k.job.available ∧ (∀ e ∈ ((Live.init defs).run defs l).trace defs m, e.ev.handsOut id = false) ∨
      k.job.status = .executing ∧ ∀ e ∈ ((Live.init defs).run defs l).trace defs m, e.ev.reportsOf id = false) :
    ∃ k' ∈ ((Live.init defs).run defs (l ++ m)).streams.conc.mem.jobs, k'.job = k.job := by
  induction m generalizing l k with
  | nil => exact ⟨k, by simpa using hk, rfl⟩
  | cons a m ih =>
    have e : l ++ a :: m = l ++ [a] ++ m := by simp
    rw [e] at A hend ⊢
    have K := known_of_stored A.front.front.front hk hid
    obtain ⟨k₁, h1, h2⟩ := stored_before (l := l ++ [a]) (m := m ++ n) (by simpa using A) (K.later _) (by simpa using hend)
    obtain ⟨k₀, h3, h4, ht⟩ := A.front.front.turn K h1 h2
    have := stored_once A.front.front.front hk h3 hid h4
    subst this
    have hsame : k₁.job = k.job := by
      cases ht with
      | same h _ _ => exact h
      | taken r i x st hev hx hw _ =>
        exfalso
        rcases hno with ⟨-, h⟩ | ⟨h, -⟩
        · have := h ⟨a.now, _⟩ (List.mem_cons_self)
          rw [hev] at this
          simp [LvEv.handsOut, hx] at this
        · rcases hw with hw | hw <;> rw [h] at hw <;> cases hw
      | reported r t o hev ht' _ hx _ _ =>
        exfalso
        rcases hno with ⟨h | h, -⟩ | ⟨-, h⟩
        · rw [hx] at h; cases h
        · rw [hx] at h; cases h
        · have := h ⟨a.now, _⟩ (List.mem_cons_self)
          rw [hev] at this
          simp [LvEv.reportsOf, ht'] at this
    have htr : ((Live.init defs).run defs l).trace defs (a :: m) = ⟨a.now, (((Live.init defs).run defs l).act defs a.now a.act).1⟩ ::
        ((Live.init defs).run defs (l ++ [a])).trace defs m := by
      rw [live_run_append]; rfl
    obtain ⟨k', g1, g2⟩ := ih A h1 h2 hend (by
      rw [hsame]
      rw [htr] at hno
      exact hno.imp (fun h => ⟨h.1, fun e he => h.2 e (List.mem_cons_of_mem _ he)⟩)
        (fun h => ⟨h.1, fun e he => h.2 e (List.mem_cons_of_mem _ he)⟩))
    exact ⟨k', g1, g2.trans hsame⟩

/-- no enqueue call stores a stored job again -/
private theorem pushed_before {defs : List Runner} {id : Int} {l m : List TLvAct} (A : Alone defs id (l ++ m)) (K : Known defs id l)
    {e : EnqueuableJob} (h : Pending.pushed id e ∈ ((Live.init defs).run defs (l ++ m)).streams.conc.calls) :
    Pending.pushed id e ∈ ((Live.init defs).run defs l).streams.conc.calls := by
  induction m generalizing l with
  | nil => simpa using h
  | cons a m ih =>
    have eq : l ++ a :: m = l ++ [a] ++ m := by simp
    rw [eq] at A h
    have h1 := ih A (K.later _) h
    obtain ⟨t, W⟩ := twin defs l
    obtain ⟨t', W', hst⟩ := W.next a A.front
    obtain ⟨H, -, -⟩ := W.known A.front.front
    rw [← W'.sim.conc.calls] at h1
    rw [← W.sim.conc.calls]
    have step : ∀ b, Pending.pushed id e ∈ (t.conc.step a.now b).2.calls → Pending.pushed id e ∈ t.conc.calls := by
      intro b hb
      cases b with
      | start x => simpa [Conc.step] using hb
      | op o => exact hb
      | advance i =>
        simp only [Conc.step] at hb
        cases hp : t.conc.calls[i]? with
        | none => rw [hp] at hb; exact hb
        | some p =>
          rw [hp] at hb
          simp only at hb
          rcases List.mem_or_eq_of_mem_set hb with hb | hb
          · exact hb
          · exfalso
            cases p with
            | start x =>
              simp only [Mem.advance] at hb
              split at hb
              · cases hb
              · split at hb <;> cases hb
            | noMatch x => cases hb
            | allocated id' x =>
              simp only [Mem.advance, Pending.pushed.injEq] at hb
              obtain ⟨rfl, rfl⟩ := hb
              exact H.not_waiting K (List.mem_filterMap.mpr ⟨_, List.mem_of_getElem? hp, rfl⟩)
            | pushed id' x => cases hb
            | matched j =>
              simp only [Mem.advance] at hb
              split at hb <;> cases hb
            | done r => cases hb
    rcases hst with ⟨rfl, -⟩ | ⟨v, b, -, hf, -⟩
    · exact h1
    · cases hf with
      | away _ _ hsub hback hconc hend => rw [hconc] at h1; exact h1
      | other _ _ b hsub hback hconc ht => rw [hconc] at h1; exact step _ h1
      | taken r x j st _ hev hj hfly hfly' hconc => rw [hconc] at h1; exact step _ h1
      | ended r t j d o _ hid' ho hfly hfly' hconc => rw [hconc] at h1; exact h1
      | overflowed r t j _ hid' hfly hfly' hconc => rw [hconc] at h1; exact h1
      | reported r t o _ hid' hrep hfly hfly' hconc => rw [hconc] at h1; exact step _ h1

private theorem lte_dup {xs ys : List Int} {c : Int} (h : (xs ++ c :: ys).Pairwise (· ≤ ·)) : (xs ++ c :: c :: ys).Pairwise (· ≤ ·) := by
  rw [List.pairwise_append] at h ⊢
  obtain ⟨h1, h2, h3⟩ := h
  rw [List.pairwise_cons] at h2
  refine ⟨h1, List.pairwise_cons.mpr ⟨?_, List.pairwise_cons.mpr h2⟩, ?_⟩
  · intro x hx
    rcases List.mem_cons.mp hx with rfl | hx
    · exact Int.le_refl _
    · exact h2.1 x hx
  · intro x hx y hy
    rcases List.mem_cons.mp hy with rfl | hy
    · exact h3 x hx _ List.mem_cons_self
    · exact h3 x hx y hy

private theorem lte_event_at {defs : List Runner} {s : Live} {as : List TLvAct} {a : TLvAct} (h : a ∈ as) :
    ∃ e ∈ s.trace defs as, e.now = a.now := by
  induction as generalizing s with
  | nil => cases h
  | cons b as ih =>
    rcases List.mem_cons.mp h with rfl | h
    · exact ⟨_, List.mem_cons_self, rfl⟩
    · obtain ⟨e, h1, h2⟩ := ih (s := (s.act defs b.now b.act).2) h
      exact ⟨e, List.mem_cons_of_mem _ h1, h2⟩

private theorem lte_client {defs : List Runner} {id : Int} {l m : List TLvAct} (A : Alone defs id (l ++ m)) {e : TLvEv}
    (he : e ∈ ((Live.init defs).run defs l).trace defs m) {ev : Ev} (h : e.ev = .client ev) : ev.handsOut id = false := by
  have := A.leave ⟨e.now, .client ev⟩ (by
    unfold Live.seen
    rw [lte_trace_append]
    exact List.mem_filterMap.mpr ⟨e, List.mem_append_right _ he, by rw [h]; rfl⟩)
  simp only [SEv.clientTouches, Bool.or_eq_false_iff] at this
  exact this.1.1

/-- one attempt after the other -/
private theorem rounds {ε D B Δ : Delta} (hε : 0 ≤ ε) (hD : 0 ≤ D) (hB : 0 ≤ B) (hΔ : 0 ≤ Δ) (defs : List Runner) (r : Nat) (d : Runner)
    (hd : defs[r]? = some d) (p : List TLvAct) (t₀ : Time) (id : Int) (N : Nat) (Tend : Time)
    (hbegin : (((Live.init defs).run defs p).act defs t₀ (.begin r)).1 = .begun r) (n : Nat) :
    ∀ (as bs : List TLvAct) (t₁ M : Time) (k : KeyedJob)
    (_ : (t₀ :: (as.map (·.now) ++ t₁ :: bs.map (·.now))).Pairwise (· ≤ ·))
    (_ : PromptRunner ε D defs r t₀ t₀ ((Live.init defs).run defs (p ++ [⟨t₀, .begin r⟩])) (as ++ bs))
    (_ : k ∈ ((Live.init defs).run defs (p ++ ⟨t₀, .begin r⟩ :: as)).streams.conc.mem.jobs) (_ : k.job.id = id)
    (_ : k.job.available) (_ : k.job.executor = d.name)
    (_ : ∃ b₁ b₂, bs = b₁ ++ b₂ ∧ (∀ b ∈ b₁, b.now ≤ M) ∧
      ¬ ((Live.init defs).run defs (p ++ ⟨t₀, .begin r⟩ :: as ++ b₁)).streams.conc.enqueuing k.job)
    (_ : k.job.attempt < k.job.maxAttempts)
    (_ : Alone defs id (p ++ ⟨t₀, .begin r⟩ :: as ++ bs))
    (_ : ∀ bs₁ b bs₂, bs = bs₁ ++ b :: bs₂ →
      ∀ k' ∈ ((Live.init defs).run defs (p ++ ⟨t₀, .begin r⟩ :: as ++ bs₁)).streams.conc.mem.jobs, k'.job.id = id → k'.job.available →
        (((Live.init defs).run defs (p ++ ⟨t₀, .begin r⟩ :: as ++ bs₁)).act defs b.now b.act).1.LetsPass k'.job b.now ∧
        ((Live.init defs).run defs (p ++ ⟨t₀, .begin r⟩ :: as ++ bs₁)).streams.conc.mem.jobs.countP
          (fun a => decide (Ahead k'.job a.job)) ≤ N)
    (_ : ∀ es₁ e es₂, ((Live.init defs).run defs (p ++ ⟨t₀, .begin r⟩ :: as)).trace defs bs = es₁ ++ e :: es₂ →
      ∀ r' i j st, e.ev = .moved r' (.returned i j) (some st) → j.id = id → ∃ t, st = .running t ∧
        ((∃ e' ∈ es₂, e.now + B < e'.now) → ∃ e' ∈ es₂, e'.now ≤ e.now + B ∧ ∃ ev, e'.ev = .reported r' t ev))
    (_ : ∀ e ∈ ((Live.init defs).run defs (p ++ ⟨t₀, .begin r⟩ :: as)).trace defs bs, ∀ r' t ev next, e.ev = .reported r' t ev →
      (ev = .op (.snoozed id next) .unit ∨ ∃ x, ev = .op (.retryable id next x) .unit) → next ≤ e.now + Δ)
    (_ : k.job.maxAttempts - k.job.attempt +
      (((Live.init defs).run defs (p ++ ⟨t₀, .begin r⟩ :: as)).trace defs bs).countP (fun e => e.ev.snoozesJob id) ≤ n)
    (_ : k.job.scheduledAt ≤ M) (_ : t₁ ≤ M)
    (_ : M + n * (15000000 + 6 * ε + D + N * (3 * ε + D) + B + Δ) ≤ Tend)
    (_ : ∃ b ∈ bs, Tend < b.now),
    ∀ k' ∈ ((Live.init defs).run defs (p ++ ⟨t₀, .begin r⟩ :: as ++ bs)).streams.conc.mem.jobs, k'.job.id = id → k'.job.status.isOver = true := by
  induction n with
  | zero =>
    intro as bs t₁ M k _ _ _ _ _ _ _ hm _ _ _ _ hn _ _ _ _
    exfalso
    omega
  | succ n ih =>
    intro as bs t₁ M k hc hp hk hid hw hx hen hm A hpass hrun hdelay hn hsM htM hT hlate kf hkf hidf
    obtain ⟨bl, hbl, hlate⟩ := hlate
    have hN0 : (0 : Int) ≤ N * (3 * ε + D) := Int.mul_nonneg (by omega) (by simp only [Delta] at *; omega)
    -- how long a round takes
    obtain ⟨Z, hZ⟩ : ∃ Z : Int, Z = 15000000 + 6 * ε + D + N * (3 * ε + D) + B + Δ := ⟨_, rfl⟩
    have hZ0 : 0 ≤ Z := by simp only [Delta] at *; omega
    have hnZ : (0 : Int) ≤ n * Z := Int.mul_nonneg (by omega) hZ0
    rw [← hZ] at hT
    have hT' : M + Z + n * Z ≤ Tend := by
      have : ((n + 1 : Nat) : Int) * Z = n * Z + Z := by rw [Int.natCast_add, Int.add_mul]; simp
      rw [this] at hT
      simp only [Time] at *; omega
    have hend : ∃ k ∈ ((Live.init defs).run defs (p ++ ⟨t₀, .begin r⟩ :: as ++ bs)).streams.conc.mem.jobs, k.job.id = id := ⟨kf, hkf, hidf⟩
    have hcb : (bs.map (·.now)).Pairwise (· ≤ ·) := by
      have h1 := List.Pairwise.of_cons hc
      exact List.Pairwise.of_cons (List.pairwise_append.mp h1).2.1
    have htb : ∀ b ∈ bs, t₁ ≤ b.now := by
      intro b hb
      have h1 := (List.pairwise_append.mp (List.Pairwise.of_cons hc)).2.1
      exact List.rel_of_pairwise_cons h1 (List.mem_map_of_mem hb)
    -- the first time a runner begins with it
    obtain ⟨b₁, b, b₂, hb, hbt, k₁, hk₁, hj₁, hst⟩ : ∃ b₁ b b₂, bs = b₁ ++ b :: b₂ ∧
        b.now ≤ M + 15000000 + 6 * ε + D + N * (3 * ε + D) ∧
        ∃ k₁ ∈ ((Live.init defs).run defs (p ++ ⟨t₀, .begin r⟩ :: as ++ b₁)).streams.conc.mem.jobs, k₁.job = k.job ∧
        (((Live.init defs).run defs (p ++ ⟨t₀, .begin r⟩ :: as ++ b₁)).act defs b.now b.act).1.handsOut id = true := by
      have fin : ∀ bs₁ b bs₂, bs = bs₁ ++ b :: bs₂ → b.now ≤ M + 15000000 + 6 * ε + D + N * (3 * ε + D) →
          (((Live.init defs).run defs (p ++ ⟨t₀, .begin r⟩ :: as ++ bs₁)).act defs b.now b.act).1.handsOut id = true →
          ∃ b₁ b b₂, bs = b₁ ++ b :: b₂ ∧ b.now ≤ M + 15000000 + 6 * ε + D + N * (3 * ε + D) ∧
            ∃ k₁ ∈ ((Live.init defs).run defs (p ++ ⟨t₀, .begin r⟩ :: as ++ b₁)).streams.conc.mem.jobs, k₁.job = k.job ∧
            (((Live.init defs).run defs (p ++ ⟨t₀, .begin r⟩ :: as ++ b₁)).act defs b.now b.act).1.handsOut id = true := by
        intro bs₁ b bs₂ g1 g2 g3
        have hmem : ∃ e ∈ ((Live.init defs).run defs (p ++ ⟨t₀, .begin r⟩ :: as)).trace defs (bs₁ ++ [b]), e.ev.handsOut id = true := by
          refine ⟨⟨b.now, _⟩, ?_, g3⟩
          rw [lte_trace_append, ← live_run_append]
          exact List.mem_append_right _ List.mem_cons_self
        obtain ⟨b₁, b', b₂, f1, f2, f3⟩ := first_event defs (LvEv.handsOut id) _ _ hmem
        have hbs' : bs = b₁ ++ b' :: (b₂ ++ bs₂) := by
          rw [g1, show bs₁ ++ b :: bs₂ = (bs₁ ++ [b]) ++ bs₂ by simp, f1]; simp
        have hle' : b'.now ≤ b.now := by
          rw [g1, show bs₁ ++ b :: bs₂ = bs₁ ++ [b] ++ bs₂ by simp, List.map_append] at hcb
          have h1 := (List.pairwise_append.mp hcb).1
          rw [List.map_append] at h1
          have hin : b' ∈ bs₁ ++ [b] := by rw [f1]; simp
          rcases List.mem_append.mp hin with h | h
          · exact (List.pairwise_append.mp h1).2.2 _ (List.mem_map_of_mem h) _ (by simp)
          · rw [List.mem_singleton.mp h]; exact Int.le_refl _
        subst hbs'
        obtain ⟨k₁, h5, h6⟩ := stays (m := b₁) (n := b' :: (b₂ ++ bs₂)) (by simpa using A) hk hid (by simpa using hend) (.inl ⟨hw, f2⟩)
        exact ⟨b₁, b', b₂ ++ bs₂, rfl, Int.le_trans hle' g2, k₁, h5, h6, by rw [live_run_append]; exact f3⟩
      obtain ⟨c₁, c₂, hcc, hcM, hen⟩ := hen
      by_cases hany : ∃ x ∈ ((Live.init defs).run defs (p ++ ⟨t₀, .begin r⟩ :: as)).trace defs c₁, x.ev.handsOut id = true
      · obtain ⟨m₁, y, m₂, f1, f2, f3⟩ := first_event defs (LvEv.handsOut id) _ _ hany
        refine fin m₁ y (m₂ ++ c₂) (by rw [hcc, f1]; simp) ?_ (by rw [live_run_append]; exact f3)
        have := hcM y (by rw [f1]; simp)
        simp only [Time, Delta] at *; omega
      have hnone : ∀ x ∈ ((Live.init defs).run defs (p ++ ⟨t₀, .begin r⟩ :: as)).trace defs c₁, x.ev.handsOut id = false := by
        intro x hxm
        cases h : x.ev.handsOut id with
        | true => exact absurd ⟨x, hxm, h⟩ hany
        | false => rfl
      obtain ⟨kc, hkc, hjc⟩ := stays (m := c₁) (n := c₂) (by rw [hcc] at A; simpa using A) hk hid (by rw [hcc] at hend; simpa using hend) (.inl ⟨hw, hnone⟩)
      rw [show p ++ ⟨t₀, .begin r⟩ :: as ++ c₁ = p ++ ⟨t₀, .begin r⟩ :: (as ++ c₁) by simp] at hkc hen
      obtain ⟨t', ht', hct⟩ : ∃ t', t' ≤ M ∧ (t₀ :: ((as ++ c₁).map (·.now) ++ t' :: c₂.map (·.now))).Pairwise (· ≤ ·) := by
        rcases List.eq_nil_or_concat c₁ with rfl | ⟨c', y, rfl⟩
        · exact ⟨t₁, htM, by simpa [hcc] using hc⟩
        · refine ⟨y.now, hcM y (by simp), ?_⟩
          have h1 : (t₀ :: (as.map (·.now) ++ bs.map (·.now))).Pairwise (· ≤ ·) := by
            refine hc.sublist ?_
            exact List.Sublist.cons_cons _ (List.Sublist.append (List.Sublist.refl _) (List.sublist_cons_self _ _))
          have h2 : t₀ :: (as.map (·.now) ++ bs.map (·.now)) = (t₀ :: (as ++ c').map (·.now)) ++ y.now :: c₂.map (·.now) := by
            rw [hcc]; simp
          rw [h2] at h1
          have h3 := lte_dup h1
          have h4 : (t₀ :: (as ++ c').map (·.now)) ++ y.now :: y.now :: c₂.map (·.now) =
              t₀ :: ((as ++ c'.concat y).map (·.now) ++ y.now :: c₂.map (·.now)) := by simp
          rw [← h4]; exact h3
      have hbc : bl ∈ c₂ := by
        rw [hcc] at hbl
        rcases List.mem_append.mp hbl with h | h
        · have := hcM bl h
          simp only [Time] at *; omega
        · exact h
      obtain ⟨b₀, bs', hbs⟩ : ∃ b₀ bs', c₂ = b₀ :: bs' := by
        cases c₂ with
        | nil => cases hbc
        | cons x y => exact ⟨x, y, rfl⟩
      have ek : ∀ l : List TLvAct, p ++ ⟨t₀, .begin r⟩ :: as ++ (c₁ ++ l) = p ++ ⟨t₀, .begin r⟩ :: (as ++ c₁) ++ l := by simp
      have hidc : kc.job.id = id := by rw [hjc, hid]
      have hcount := (hpass (c₁ ++ []) b₀ bs' (by rw [hcc, hbs]; simp) kc (by rw [ek]; simpa using hkc) hidc (by rw [hjc]; exact hw)).2
      rw [ek, List.append_nil] at hcount
      have hle : ((((Live.init defs).run defs (p ++ ⟨t₀, .begin r⟩ :: (as ++ c₁))).streams.conc.mem.jobs.countP
          (fun a => decide (Ahead kc.job a.job)) : Nat) : Int) * (3 * ε + D) ≤ N * (3 * ε + D) :=
        Int.mul_le_mul_of_nonneg_right (by omega) (by simp only [Delta] at *; omega)
      have hmaxM : max kc.job.scheduledAt t' ≤ M := by rw [hjc]; simp only [Time] at *; omega
      obtain ⟨bs₁, b, bs₂, g1, g2, r', d', i, j, g3, -, g4⟩ := C124_in_memory hε hD defs r d hd p (as ++ c₁) c₂ t₀ t' kc hbegin hct
        (by rw [List.append_assoc, ← hcc]; exact hp) hkc (by rw [hjc]; exact hw) (by rw [hjc]; exact hx) (by rw [hjc]; exact hen)
        (by
          intro es₁ e es₂ htr hno
          obtain ⟨bs₁, b, bs₂, h1, h2, h3, h4⟩ := trace_split htr
          have A' : Alone defs id (p ++ ⟨t₀, .begin r⟩ :: (as ++ c₁) ++ bs₁ ++ b :: bs₂) := by rw [hcc, h1] at A; simpa using A
          obtain ⟨k₁, h5, h6⟩ := stays A' hkc hidc (by rw [hcc, h1] at hend; simpa using hend)
            (.inl ⟨by rw [hjc]; exact hw, by rw [h2, ← hidc]; exact hno⟩)
          refine ⟨?_, fun ev hev => by
            rw [hidc]
            exact lte_client (l := p ++ ⟨t₀, .begin r⟩ :: (as ++ c₁)) (m := c₂) (by rw [hcc] at A; simpa using A) (by rw [htr]; simp) hev⟩
          have := (hpass (c₁ ++ bs₁) b bs₂ (by rw [hcc, h1]; simp) k₁ (by rw [ek]; exact h5) (by rw [h6, hidc]) (by rw [h6, hjc]; exact hw)).1
          rw [h6, ek, live_run_append] at this
          rw [h3]
          exact this)
        _ rfl ⟨bl, hbc, by simp only [Time, Delta] at *; omega⟩
      refine fin (c₁ ++ bs₁) b bs₂ (by rw [hcc, g1]; simp) ?_ (by rw [ek, g3]; simp [LvEv.handsOut, g4, hidc])
      simp only [Time, Delta] at *; omega
    subst hb
    have hid₁ : k₁.job.id = id := by rw [hj₁, hid]
    obtain ⟨l, hl⟩ : ∃ l, l = p ++ ⟨t₀, .begin r⟩ :: as := ⟨_, rfl⟩
    rw [← hl] at hk hen A hpass hrun hdelay hn hkf hend hk₁ hst
    have A₁ : Alone defs id (l ++ b₁ ++ b :: b₂) := by simpa using A
    have A₂ : Alone defs id (l ++ b₁ ++ [b] ++ b₂) := by simpa using A
    have K₁ := known_of_stored A₁.front hk₁ hid₁
    obtain ⟨k₂, hk₂, hid₂⟩ := stored_before A₂ (K₁.later _) (by simpa using hend)
    obtain ⟨k₀, h3, h4, hturn⟩ := A₂.front.turn K₁ hk₂ hid₂
    have := stored_once A₁.front h3 hk₁ h4 hid₁
    subst this
    cases hturn with
    | same _ h _ => rw [h] at hst; cases hst
    | reported _ _ _ _ _ _ hx' _ _ =>
      rw [hj₁] at hx'
      rcases hw with hw | hw <;> rw [hw] at hx' <;> cases hx'
    | taken r' i x st hev hxid _ hj₂ =>
    rw [hj₁] at hj₂
    -- its execution reports in time
    have htr : ((Live.init defs).run defs l).trace defs (b₁ ++ b :: b₂) = ((Live.init defs).run defs l).trace defs b₁ ++
        ⟨b.now, .moved r' (.returned i x) (some st)⟩ :: ((Live.init defs).run defs (l ++ b₁ ++ [b])).trace defs b₂ := by
      rw [lte_trace_append, ← hev]
      simp only [live_run_append]
      rfl
    have hafter : ∀ y ∈ b₁ ++ b :: b₂, b.now < y.now → y ∈ b₂ := by
      intro y hy hlt
      rcases List.mem_append.mp hy with hy | hy
      · rw [List.map_append] at hcb
        have := (List.pairwise_append.mp hcb).2.2 _ (List.mem_map_of_mem hy) b.now (by simp)
        simp only [Time] at *; omega
      · rcases List.mem_cons.mp hy with rfl | hy
        · simp only [Time] at *; omega
        · exact hy
    obtain ⟨t, hrt, hrep⟩ := hrun _ _ _ htr r' i x st rfl hxid
    obtain ⟨el, hel, heln⟩ := lte_event_at (defs := defs) (s := (Live.init defs).run defs (l ++ b₁ ++ [b])) (hafter bl hbl (by
      simp only [Time, Delta] at *; omega))
    obtain ⟨e', he', het, ev, hev'⟩ := hrep ⟨el, hel, by
      rw [heln]
      simp only [Time, Delta] at *; omega⟩
    have htid : t.id = id := by
      obtain ⟨d', -, h⟩ := act_returned hev
      simp only [Option.some.injEq] at h
      rw [hrt] at h
      rw [(start_running h.symm).1, hxid]
    -- the first report
    obtain ⟨es₁, es₂, hes⟩ := List.append_of_mem he'
    obtain ⟨c₁, c, c₂, u1, u2, u3, u4⟩ := trace_split hes
    have hmem : ∃ e ∈ ((Live.init defs).run defs (l ++ b₁ ++ [b])).trace defs (c₁ ++ [c]), e.ev.reportsOf id = true := by
      refine ⟨e', ?_, by rw [hev']; simp [LvEv.reportsOf, htid]⟩
      rw [lte_trace_append, u3]
      exact List.mem_append_right _ List.mem_cons_self
    obtain ⟨q₁, q, q₂, f1, f2, f3⟩ := first_event defs (LvEv.reportsOf id) _ _ hmem
    have hb₂ : b₂ = q₁ ++ q :: (q₂ ++ c₂) := by
      rw [u1, show c₁ ++ c :: c₂ = (c₁ ++ [c]) ++ c₂ by simp, f1]; simp
    have hqt : q.now ≤ b.now + B := by
      have h0 : (b₂.map (·.now)).Pairwise (· ≤ ·) := by
        rw [List.map_append] at hcb
        exact List.Pairwise.of_cons (List.pairwise_append.mp hcb).2.1
      rw [u1, show c₁ ++ c :: c₂ = c₁ ++ [c] ++ c₂ by simp, List.map_append] at h0
      have h1 := (List.pairwise_append.mp h0).1
      rw [List.map_append] at h1
      have hin : q ∈ c₁ ++ [c] := by rw [f1]; simp
      have hc' : c.now ≤ b.now + B := by rw [u3] at het; exact het
      rcases List.mem_append.mp hin with h | h
      · exact Int.le_trans ((List.pairwise_append.mp h1).2.2 _ (List.mem_map_of_mem h) c.now (by simp)) hc'
      · rw [List.mem_singleton.mp h]; exact hc'
    obtain ⟨v, hv⟩ : ∃ v, v = q₂ ++ c₂ := ⟨_, rfl⟩
    rw [← hv] at hb₂
    clear hv u1 u2 u3 u4 f1 hmem hes
    subst hb₂
    obtain ⟨k₃, hk₃, hj₃⟩ := stays (l := l ++ b₁ ++ [b]) (m := q₁) (n := q :: v) (by simpa using A) hk₂ hid₂ (by simpa using hend)
      (.inr ⟨by rw [hj₂]; rfl, f2⟩)
    have hid₃ : k₃.job.id = id := by rw [hj₃, hid₂]
    have A₃ : Alone defs id (l ++ b₁ ++ [b] ++ q₁ ++ [q] ++ v) := by simpa using A
    have K₃ := known_of_stored A₃.front.front hk₃ hid₃
    obtain ⟨k₄, hk₄, hid₄⟩ := stored_before A₃ (K₃.later _) (by simpa using hend)
    obtain ⟨k₀', h3', h4', hturn⟩ := A₃.front.turn K₃ hk₄ hid₄
    have := stored_once A₃.front.front h3' hk₃ h4' hid₃
    subst this
    cases hturn with
    | same _ _ h => rw [live_run_append] at h; rw [h] at f3; cases f3
    | taken _ _ _ _ _ _ hw' _ =>
      rw [hj₃, hj₂] at hw'
      rcases hw' with hw' | hw' <;> cases hw'
    | reported r'' t' o hev'' htid' hR _ hfin hj₄ =>
    rw [hj₃, hj₂] at hfin hj₄
    have eL : l ++ b₁ ++ [b] ++ q₁ ++ [q] = p ++ ⟨t₀, .begin r⟩ :: (as ++ (b₁ ++ b :: q₁ ++ [q])) := by rw [hl]; simp
    have eB : b₁ ++ b :: (q₁ ++ q :: v) = b₁ ++ b :: q₁ ++ [q] ++ v := by simp
    have htr' : ((Live.init defs).run defs l).trace defs (b₁ ++ b :: (q₁ ++ q :: v)) =
        ((Live.init defs).run defs l).trace defs (b₁ ++ b :: q₁ ++ [q]) ++ ((Live.init defs).run defs (l ++ b₁ ++ [b] ++ q₁ ++ [q])).trace defs v := by
      rw [eB, lte_trace_append, ← live_run_append]; simp
    have hqmem : (⟨q.now, .reported r'' t' (.op o .unit)⟩ : TLvEv) ∈ ((Live.init defs).run defs l).trace defs (b₁ ++ b :: q₁ ++ [q]) := by
      rw [lte_trace_append, ← live_run_append]
      refine List.mem_append_right _ ?_
      rw [← hev'']
      simp [Live.trace]
    -- going on with the job as it is now
    have again : k₄.job.available → k₄.job.executor = d.name → k₄.job.attempt < k₄.job.maxAttempts → k₄.job.scheduledAt ≤ q.now + Δ →
        k₄.job.maxAttempts - k₄.job.attempt + (((Live.init defs).run defs (l ++ b₁ ++ [b] ++ q₁ ++ [q])).trace defs v).countP
          (fun e => e.ev.snoozesJob id) ≤ n → kf.job.status.isOver = true := by
      intro i1 i2 i3 i4 i5
      have hq₁ : q.now ≤ M + 15000000 + 6 * ε + D + N * (3 * ε + D) + B := by
        simp only [Time, Delta] at *; omega
      have hmax : k₄.job.scheduledAt ≤ M + Z := by
        have : k₄.job.scheduledAt ≤ q.now + Δ := i4
        simp only [Time, Delta] at *; omega
      refine ih (as ++ (b₁ ++ b :: q₁ ++ [q])) v q.now (M + Z) k₄ ?_ ?_ (by rw [← eL]; exact hk₄) hid₄ i1 i2 ?_ i3 ?_ ?_ ?_ ?_ ?_ hmax ?_ ?_ ?_ kf ?_ hidf
      · have h1 : (t₀ :: (as.map (·.now) ++ (b₁ ++ b :: (q₁ ++ q :: v)).map (·.now))).Pairwise (· ≤ ·) := by
          refine hc.sublist ?_
          exact List.Sublist.cons_cons _ (List.Sublist.append (List.Sublist.refl _) (List.sublist_cons_self _ _))
        have h2 : (t₀ :: as.map (·.now) ++ (b₁ ++ b :: q₁).map (·.now)) ++ q.now :: v.map (·.now) =
            t₀ :: (as.map (·.now) ++ (b₁ ++ b :: (q₁ ++ q :: v)).map (·.now)) := by simp
        rw [← h2] at h1
        have h3 := lte_dup h1
        have h4 : (t₀ :: as.map (·.now) ++ (b₁ ++ b :: q₁).map (·.now)) ++ q.now :: q.now :: v.map (·.now) =
            t₀ :: ((as ++ (b₁ ++ b :: q₁ ++ [q])).map (·.now) ++ q.now :: v.map (·.now)) := by simp
        rw [← h4]; exact h3
      · rw [show as ++ (b₁ ++ b :: q₁ ++ [q]) ++ v = as ++ (b₁ ++ b :: (q₁ ++ q :: v)) by simp]; exact hp
      · obtain ⟨c₁, c₂, hcc, hcM, hen⟩ := hen
        have hk₄x : ∀ m, Pending.pushed id m ∈ ((Live.init defs).run defs (l ++ c₁)).streams.conc.calls → m.executor ≠ k.job.executor :=
          fun m hm hmx => hen ⟨m, by rw [hid]; exact hm, hmx⟩
        rcases List.append_eq_append_iff.mp (show b₁ ++ b :: q₁ ++ [q] ++ v = c₁ ++ c₂ by rw [← hcc]; simp) with ⟨w, h1, h2⟩ | ⟨w, h1, h2⟩
        · refine ⟨w, c₂, h2, fun y hy => ?_, ?_⟩
          · have := hcM y (by rw [h1]; exact List.mem_append_right _ hy)
            simp only [Time] at *; omega
          · rintro ⟨e, h3, h4⟩
            rw [show p ++ ⟨t₀, .begin r⟩ :: (as ++ (b₁ ++ b :: q₁ ++ [q])) ++ w = l ++ c₁ by rw [hl, h1]; simp, hid₄] at h3
            exact hk₄x e h3 (by rw [h4, i2, hx])
        · refine ⟨[], v, rfl, by simp, ?_⟩
          rintro ⟨e, h3, h4⟩
          rw [show p ++ ⟨t₀, .begin r⟩ :: (as ++ (b₁ ++ b :: q₁ ++ [q])) ++ [] = l ++ c₁ ++ w by
            rw [hl, List.append_nil, h1]; simp, hid₄] at h3
          refine hk₄x e (pushed_before (l := l ++ c₁) (m := w) ?_ ((known_of_stored A.front hk hid).later _) h3) (by rw [h4, i2, hx])
          have h5 := A₃.front
          rw [show l ++ b₁ ++ [b] ++ q₁ ++ [q] = l ++ c₁ ++ w by
            have := congrArg (l ++ ·) h1
            simpa using this] at h5
          exact h5
      · rw [← eL]; exact A₃
      · intro bs₁ y bs₂ hy k' hk' hid' hw'
        have e : p ++ ⟨t₀, .begin r⟩ :: (as ++ (b₁ ++ b :: q₁ ++ [q])) ++ bs₁ = l ++ (b₁ ++ b :: (q₁ ++ q :: bs₁)) := by rw [hl]; simp
        rw [e] at hk' ⊢
        exact hpass _ y bs₂ (by rw [hy]; simp) k' hk' hid' hw'
      · intro es₁ e es₂ he
        rw [← eL] at he
        exact hrun (((Live.init defs).run defs l).trace defs (b₁ ++ b :: q₁ ++ [q]) ++ es₁) e es₂ (by rw [htr', he]; simp)
      · intro e he
        rw [← eL] at he
        exact hdelay e (by rw [htr']; exact List.mem_append_right _ he)
      · rw [← eL]; exact i5
      · simp only [Time, Delta] at *; omega
      · rw [← hZ]
        simp only [Time] at *; omega
      · refine ⟨bl, ?_, hlate⟩
        have hbl' := hafter bl hbl (by simp only [Time, Delta] at *; omega)
        rcases List.mem_append.mp hbl' with h | h
        · exfalso
          rw [List.map_append, List.map_cons, List.map_append] at hcb
          have h1 := List.Pairwise.of_cons (List.pairwise_append.mp hcb).2.1
          have := (List.pairwise_append.mp h1).2.2 _ (List.mem_map_of_mem h) q.now (by simp)
          simp only [Time, Delta] at *; omega
        · rcases List.mem_cons.mp h with rfl | h
          · simp only [Time, Delta] at *; omega
          · exact h
      · rw [← eL]; simpa using hkf
    have over : k₄.job.status.isOver = true → kf.job.status.isOver = true := fun ho =>
      over_stays A₃ hk₄ hid₄ ho (by simpa using hkf) hidf
    rw [htr', List.countP_append] at hn
    have hnext := fun next h => hdelay _ (by rw [htr']; exact List.mem_append_left _ hqmem) r'' t' (.op o .unit) next rfl h
    rcases reportable_cases hR with rfl | ⟨e, rfl⟩ | ⟨x, rfl⟩ | ⟨-, e, rfl⟩ | ⟨hf, x, e, rfl⟩
    · exact over (by rw [hj₄]; simp [applyEv, Job.markExecuting, Job.markComplete, hid, htid', JobStatus.isOver])
    · exact over (by rw [hj₄]; simp [applyEv, Job.markExecuting, Job.markCancelled, hid, htid', JobStatus.isOver])
    · have hpos : 0 < (((Live.init defs).run defs l).trace defs (b₁ ++ b :: q₁ ++ [q])).countP (fun e => e.ev.snoozesJob id) :=
        List.countP_pos_iff.mpr ⟨_, hqmem, by simp [LvEv.snoozesJob, Ev.snoozes, htid']⟩
      have hj : k₄.job = (k.job.markExecuting b.now).markSnoozed x := by
        rw [hj₄]; simp [applyEv, Job.markExecuting, hid, htid']
      refine again ?_ (by rw [hj]; exact hx) ?_ (by rw [hj]; exact hnext x (.inl (by rw [htid']))) ?_
      · rw [hj]
        simp only [Job.available, Job.markSnoozed]
        split <;> simp
      · rw [hj]; simp only [Job.markSnoozed, Job.markExecuting]; omega
      · rw [hj]; simp only [Job.markSnoozed, Job.markExecuting]; omega
    · exact over (by rw [hj₄]; simp [applyEv, Job.markExecuting, Job.markDiscarded, hid, htid', JobStatus.isOver])
    · have hj : k₄.job = (k.job.markExecuting b.now).markRetryable q.now x e := by
        rw [hj₄]; simp [applyEv, Job.markExecuting, hid, htid']
      rw [hf] at hfin
      have hne : (k.job.markExecuting b.now).attempt ≠ (k.job.markExecuting b.now).maxAttempts := of_decide_eq_false hfin.symm
      simp only [Job.markExecuting] at hne
      refine again (by rw [hj]; exact .inr rfl) (by rw [hj]; exact hx) ?_ (by rw [hj]; exact hnext x (.inr ⟨e, by rw [htid']⟩)) ?_
      · rw [hj]; simp only [Job.markRetryable, Job.markExecuting]; omega
      · rw [hj]; simp only [Job.markRetryable, Job.markExecuting]; omega

/-- **C126.** Runner `r` is as prompt as in C124. At `t₁` job `id` of its executor waits, its enqueueing is over, and it has attempts left.
Other clients leave the job alone (they may prune it when it does not wait); whenever it waits nothing is put in front of
it, and there are never more than `N` jobs ahead of it; whenever a runner gets it, its execution starts and
reports within `B`; it is never retried or snoozed for longer than `Δ`, and snoozed at most `S` times. Then, one round of
15 ms + 6 `ε` + `D` + `N` (3 `ε` + `D`) + `B` + `Δ` for every attempt that is left and for every snooze after it was due – or after
`t₁`, if that is later – the job is `Complete`, `Cancelled` or `Discarded`, unless it has been pruned. -/
theorem C126_in_memory {ε D B Δ : Delta} (hε : 0 ≤ ε) (hD : 0 ≤ D) (hB : 0 ≤ B) (hΔ : 0 ≤ Δ) (defs : List Runner) (r : Nat) (d : Runner)
    (hd : defs[r]? = some d) (p as bs : List TLvAct) (t₀ t₁ : Time) (id : Int) (k : KeyedJob)
    (hbegin : (((Live.init defs).run defs p).act defs t₀ (.begin r)).1 = .begun r)
    (hc : (t₀ :: (as.map (·.now) ++ t₁ :: bs.map (·.now))).Pairwise (· ≤ ·))
    (hp : PromptRunner ε D defs r t₀ t₀ ((Live.init defs).run defs (p ++ [⟨t₀, .begin r⟩])) (as ++ bs))
    (hk : k ∈ ((Live.init defs).run defs (p ++ ⟨t₀, .begin r⟩ :: as)).streams.conc.mem.jobs) (hid : k.job.id = id)
    (hw : k.job.available) (hx : k.job.executor = d.name)
    (hen : ¬ ((Live.init defs).run defs (p ++ ⟨t₀, .begin r⟩ :: as)).streams.conc.enqueuing k.job)
    (hm : k.job.attempt < k.job.maxAttempts)
    (hids : idsTaken (backHistory (Live.seen defs false (p ++ ⟨t₀, .begin r⟩ :: as ++ bs))) ≤ 4294967296)
    (hleave : ClientsLeave id (Live.seen defs false (p ++ ⟨t₀, .begin r⟩ :: as ++ bs)))
    (N : Nat) (hpass : ∀ bs₁ b bs₂, bs = bs₁ ++ b :: bs₂ →
      ∀ k' ∈ ((Live.init defs).run defs (p ++ ⟨t₀, .begin r⟩ :: as ++ bs₁)).streams.conc.mem.jobs, k'.job.id = id → k'.job.available →
        (((Live.init defs).run defs (p ++ ⟨t₀, .begin r⟩ :: as ++ bs₁)).act defs b.now b.act).1.LetsPass k'.job b.now ∧
        ((Live.init defs).run defs (p ++ ⟨t₀, .begin r⟩ :: as ++ bs₁)).streams.conc.mem.jobs.countP
          (fun a => decide (Ahead k'.job a.job)) ≤ N)
    (hrun : ∀ es₁ e es₂, ((Live.init defs).run defs (p ++ ⟨t₀, .begin r⟩ :: as)).trace defs bs = es₁ ++ e :: es₂ →
      ∀ r' i j st, e.ev = .moved r' (.returned i j) (some st) → j.id = id → ∃ t, st = .running t ∧
        ((∃ e' ∈ es₂, e.now + B < e'.now) → ∃ e' ∈ es₂, e'.now ≤ e.now + B ∧ ∃ ev, e'.ev = .reported r' t ev))
    (hdelay : ∀ e ∈ ((Live.init defs).run defs (p ++ ⟨t₀, .begin r⟩ :: as)).trace defs bs, ∀ r' t ev next, e.ev = .reported r' t ev →
      (ev = .op (.snoozed id next) .unit ∨ ∃ x, ev = .op (.retryable id next x) .unit) → next ≤ e.now + Δ)
    (S : Nat) (hsnooze : (((Live.init defs).run defs (p ++ ⟨t₀, .begin r⟩ :: as)).trace defs bs).countP (fun e => e.ev.snoozesJob id) ≤ S)
    (hlate : ∃ b ∈ bs, max k.job.scheduledAt t₁ +
      (k.job.maxAttempts - k.job.attempt + S) * (15000000 + 6 * ε + D + N * (3 * ε + D) + B + Δ) < b.now) :
    ∀ k' ∈ ((Live.init defs).run defs (p ++ ⟨t₀, .begin r⟩ :: as ++ bs)).streams.conc.mem.jobs, k'.job.id = id →
      k'.job.status = .complete ∨ k'.job.status = .cancelled ∨ k'.job.status = .discarded := by
  intro k' hk' hid'
  have hn : ((k.job.maxAttempts - k.job.attempt + S).toNat : Int) = k.job.maxAttempts - k.job.attempt + S := Int.toNat_of_nonneg (by omega)
  have := rounds hε hD hB hΔ defs r d hd p t₀ id N _ hbegin (k.job.maxAttempts - k.job.attempt + S).toNat as bs t₁ (max k.job.scheduledAt t₁) k
    hc hp hk hid hw hx ⟨[], bs, rfl, by simp, by simpa using hen⟩ hm
    ⟨hids, hleave⟩ hpass hrun hdelay (by rw [hn]; omega) (Int.le_max_left _ _) (Int.le_max_right _ _) (by rw [hn]; exact Int.le_refl _) hlate k' hk' hid'
  cases hst : k'.job.status <;> rw [hst] at this <;> simp_all [JobStatus.isOver]

/-- The schedule of `liveRest`, except that the first execution of job 0 fails at 9 s. The job is retried 10 s later: its second execution
takes from 19.004 s to 21 s. -/
def toEndRest : List TLvAct :=
  liveRest.take 15 ++
  [⟨9 * sec, .finish 0 0 { ending := .returns (.error "Io" "broken") }⟩, ⟨9 * sec, .report 0 0⟩,
   ⟨9 * sec + ms, .poll 0⟩, ⟨9 * sec + ms, .step 0 false⟩, ⟨9 * sec + 2 * ms, .step 0 false⟩, ⟨9 * sec + 3 * ms, .step 0 false⟩,
   ⟨12 * sec, .client (.op (.query (.statusEqual .complete)))⟩,
   ⟨14 * sec, .finish 0 0 { ending := .returns .done }⟩, ⟨14 * sec, .report 0 0⟩,
   ⟨14 * sec + ms, .poll 0⟩, ⟨14 * sec + ms, .step 0 false⟩, ⟨14 * sec + 2 * ms, .step 0 false⟩, ⟨14 * sec + 3 * ms, .step 0 false⟩,
   ⟨14 * sec + 4 * ms, .step 0 false⟩, ⟨14 * sec + 5 * ms, .step 0 false⟩, ⟨14 * sec + 6 * ms, .step 0 false⟩, ⟨14 * sec + 7 * ms, .step 0 false⟩,
   ⟨14 * sec + 8 * ms, .step 0 false⟩,
   ⟨19 * sec + ms, .poll 0⟩, ⟨19 * sec + ms, .step 0 true⟩, ⟨19 * sec + 2 * ms, .step 0 false⟩, ⟨19 * sec + 3 * ms, .step 0 false⟩,
   ⟨19 * sec + 4 * ms, .step 0 false⟩,
   ⟨21 * sec, .finish 0 0 { ending := .returns .done }⟩, ⟨21 * sec, .report 0 0⟩,
   ⟨21 * sec + ms, .poll 0⟩, ⟨21 * sec + ms, .step 0 false⟩, ⟨21 * sec + 2 * ms, .step 0 false⟩, ⟨21 * sec + 3 * ms, .step 0 false⟩,
   ⟨21 * sec + 4 * ms, .step 0 false⟩, ⟨51 * sec + 3 * ms, .poll 0⟩, ⟨51 * sec + 3 * ms, .step 0 true⟩, ⟨51 * sec + 4 * ms, .step 0 false⟩,
   ⟨51 * sec + 5 * ms, .step 0 false⟩, ⟨51 * sec + 6 * ms, .step 0 false⟩, ⟨51 * sec + 7 * ms, .step 0 false⟩,
   ⟨60 * sec, .client (.op (.query (.statusEqual .complete)))⟩]

/-- The hypotheses of `C126_in_memory` about job 0 are met with ε = 1 ms, D = 5 s, B = 4 s, Δ = 10 s, N = 1 (job 1 is ahead of it when it is
retried) and S = 0: it is over 5 s + 2 · (15 ms + 6 ms + 5 s + 5.003 s + 4 s + 10 s) = 53.048 s after the beginning. -/
example : ((0 : Time) :: (liveStart.map (·.now) ++ 1 * sec :: toEndRest.map (·.now))).Pairwise (· ≤ ·) ∧
    PromptRunner ms (5 * sec) [eagerRunner (some 1)] 0 0 0 ((Live.init [eagerRunner (some 1)]).run [eagerRunner (some 1)] [⟨0, .begin 0⟩])
      (liveStart ++ toEndRest) ∧
    (∃ k ∈ ((Live.init [eagerRunner (some 1)]).run [eagerRunner (some 1)] (⟨0, .begin 0⟩ :: liveStart)).streams.conc.mem.jobs,
      k.job.id = 0 ∧ k.job.available ∧ k.job.executor = "mail" ∧ k.job.attempt < k.job.maxAttempts ∧
      ∃ b ∈ toEndRest, max k.job.scheduledAt (1 * sec) + (k.job.maxAttempts - k.job.attempt + 0) *
        (15000000 + 6 * ms + 5 * sec + 1 * (3 * ms + 5 * sec) + 4 * sec + 10 * sec) < b.now) ∧
    idsTaken (backHistory (Live.seen [eagerRunner (some 1)] false (⟨0, .begin 0⟩ :: liveStart ++ toEndRest))) = 2 ∧
    (∀ e ∈ Live.seen [eagerRunner (some 1)] false (⟨0, .begin 0⟩ :: liveStart ++ toEndRest), e.ev.clientTouches 0 = false) := by
  decide +kernel

/-- Whenever it waits, nothing is put in front of it, and at most one job is ahead of it. -/
example : ∀ n ∈ List.range toEndRest.length,
    ∀ k ∈ ((Live.init [eagerRunner (some 1)]).run [eagerRunner (some 1)] (⟨0, .begin 0⟩ :: liveStart ++ toEndRest.take n)).streams.conc.mem.jobs,
      k.job.id = 0 → k.job.available →
      (∀ b ∈ (toEndRest.drop n).head?, (((Live.init [eagerRunner (some 1)]).run [eagerRunner (some 1)]
        (⟨0, .begin 0⟩ :: liveStart ++ toEndRest.take n)).act [eagerRunner (some 1)] b.now b.act).1.LetsPass k.job b.now) ∧
      ((Live.init [eagerRunner (some 1)]).run [eagerRunner (some 1)] (⟨0, .begin 0⟩ :: liveStart ++ toEndRest.take n)).streams.conc.mem.jobs.countP
        (fun a => decide (Ahead k.job a.job)) ≤ 1 := by
  decide +kernel

/-- Its executions start, report within 4 s, and it is put off by 10 s once. In the end it is complete. -/
example : ((((Live.init [eagerRunner (some 1)]).run [eagerRunner (some 1)] (⟨0, .begin 0⟩ :: liveStart)).trace [eagerRunner (some 1)] toEndRest).filterMap
    fun e => match e.ev with
      | .moved _ (.returned _ j) (some (.running _)) => if j.id = 0 then some (e.now, "running", 0) else none
      | .reported _ _ (.op (.retryable 0 next _) .unit) => some (e.now, "retry at", next)
      | .reported _ t _ => if t.id = 0 then some (e.now, "reported", 0) else none
      | _ => none) =
    [(5 * sec + 4 * ms, "running", 0), (9 * sec, "retry at", 19 * sec), (19 * sec + 4 * ms, "running", 0), (21 * sec, "reported", 0)] ∧
    ((((Live.init [eagerRunner (some 1)]).run [eagerRunner (some 1)] (⟨0, .begin 0⟩ :: liveStart)).trace [eagerRunner (some 1)] toEndRest).countP
      fun e => e.ev.snoozesJob 0) = 0 ∧
    (((Live.init [eagerRunner (some 1)]).run [eagerRunner (some 1)] (⟨0, .begin 0⟩ :: liveStart ++ toEndRest)).streams.conc.mem.jobs.map
      fun k => (k.job.id, k.job.status, k.job.attempt)) = [(0, .complete, 2), (1, .complete, 1)] := by
  decide +kernel

/-! ## C129: an enqueued job is begun on time -/

private def pushedId (id : Int) : Pending → Bool
  | .pushed x _ => x == id
  | _ => false

private def LvEv.storesId (id : Int) : LvEv → Bool
  | .client (.inserted x _) => x == id
  | _ => false

private def LvEv.wakesId (id : Int) : LvEv → Bool
  | .client (.woke x) => x == id
  | _ => false

private theorem pushed_set {P : α → Bool} {l : List α} {i : Nat} {a b : α} (h : l[i]? = some a) :
    (l.set i b).countP P + (P a).toNat = l.countP P + (P b).toNat := by
  induction l generalizing i with
  | nil => simp at h
  | cons x l ih =>
    have cons : ∀ (y : α) (l : List α), (y :: l).countP P = l.countP P + (P y).toNat := by
      intro y l; rw [List.countP_cons]; cases P y <;> rfl
    cases i with
    | zero =>
      simp only [List.getElem?_cons_zero, Option.some.injEq] at h
      subst h
      simp only [List.set_cons_zero, cons]
      omega
    | succ i =>
      simp only [List.getElem?_cons_succ] at h
      simp only [List.set_cons_succ, cons]
      have := ih h
      omega

private theorem pushed_conc (id : Int) (c : Conc) (now : Time) (a : Act) :
    (c.step now a).2.calls.countP (pushedId id) + ((LvEv.client (c.step now a).1).wakesId id).toNat =
      c.calls.countP (pushedId id) + ((LvEv.client (c.step now a).1).storesId id).toNat := by
  cases a with
  | start x => simp [Conc.step, LvEv.wakesId, LvEv.storesId, pushedId]
  | op o => rfl
  | advance i =>
    simp only [Conc.step]
    cases hp : c.calls[i]? with
    | none => rfl
    | some p =>
      have h := pushed_set (P := pushedId id) (b := (c.mem.advance now p).2.1) hp
      cases p with
      | start x =>
        simp only [Mem.advance] at h ⊢
        split at h
        · simpa [LvEv.wakesId, LvEv.storesId, pushedId] using h
        · split at h <;> simpa [LvEv.wakesId, LvEv.storesId, pushedId] using h
      | noMatch x => simpa [Mem.advance, LvEv.wakesId, LvEv.storesId, pushedId] using h
      | allocated id' x => simpa [Mem.advance, LvEv.wakesId, LvEv.storesId, pushedId] using h
      | pushed id' x => simpa [Mem.advance, LvEv.wakesId, LvEv.storesId, pushedId] using h
      | matched j =>
        simp only [Mem.advance] at h ⊢
        split at h <;> simpa [LvEv.wakesId, LvEv.storesId, pushedId] using h
      | done r => simpa [Mem.advance, LvEv.wakesId, LvEv.storesId, pushedId] using h

private theorem calls_stream (s : Streams) (now : Time) (i : Nat) (b : Bool) : (s.step now (.stream i b)).2.conc.calls = s.conc.calls := by
  simp only [Streams.step]
  cases s.readers[i]? with
  | none => rfl
  | some q =>
    simp only [Streams.streamStep]
    cases q.wait with
    | ready => rfl
    | looked f => rfl
    | decided c d =>
      simp only
      split
      · generalize s.conc.mem.load now q.executor = z
        obtain ⟨o, m⟩ := z
        cases o <;> rfl
      · rfl
    | asleep c a d =>
      simp only
      split
      · rfl
      · split <;> rfl

private theorem pushed_act (defs : List Runner) (id : Int) (s : Live) (now : Time) (a : LvAct) :
    (s.act defs now a).2.streams.conc.calls.countP (pushedId id) + ((s.act defs now a).1.wakesId id).toNat =
      s.streams.conc.calls.countP (pushedId id) + ((s.act defs now a).1.storesId id).toNat := by
  have hv := (live_view defs now s a).1
  have other : (∀ ev, (s.act defs now a).1 ≠ .client ev) → (s.act defs now a).2.streams.conc.calls = s.streams.conc.calls →
      (s.act defs now a).2.streams.conc.calls.countP (pushedId id) + ((s.act defs now a).1.wakesId id).toNat =
        s.streams.conc.calls.countP (pushedId id) + ((s.act defs now a).1.storesId id).toNat := by
    intro h1 h2
    rw [h2]
    generalize (s.act defs now a).1 = ev at *
    cases ev with
    | client e => exact absurd rfl (h1 e)
    | _ => rfl
  cases a with
  | client a => exact pushed_conc id s.streams.conc now a
  | shutdown => rfl
  | begin r =>
    refine other ?_ ?_
    · intro ev; simp only [Live.act]; split <;> simp
    · rw [hv]; simp only [liveView]
      split
      · rfl
      · rename_i h; split at h
        · cases h; rfl
        · cases h
  | poll r =>
    refine other ?_ (by rw [hv]; rfl)
    intro ev; simp only [Live.act]
    split
    · split
      · split <;> simp
      · simp
    · simp
  | step r b =>
    refine other ?_ ?_
    · intro ev; simp only [Live.act]
      split
      · split <;> simp
      · simp
    · rw [hv]; simp only [liveView]
      split
      · rename_i h; split at h
        · cases h
        · rfl
      · rename_i h; split at h
        · cases h; exact calls_stream ..
        · cases h
  | finish r i b =>
    refine other ?_ (by rw [hv]; rfl)
    intro ev; simp only [Live.act]
    split
    · split
      · split
        · simp
        · split <;> simp
      · simp
    · simp
  | report r i =>
    refine other ?_ ?_
    · intro ev; simp only [Live.act]
      split
      · split <;> simp
      · simp
    · rw [hv]; simp only [liveView]
      split
      · rfl
      · rename_i h
        split at h
        · split at h
          · cases h; rfl
          · cases h
        · cases h

private theorem pushed_run (defs : List Runner) (id : Int) (s : Live) (l : List TLvAct) :
    (s.run defs l).streams.conc.calls.countP (pushedId id) + (s.trace defs l).countP (fun e => e.ev.wakesId id) =
      s.streams.conc.calls.countP (pushedId id) + (s.trace defs l).countP (fun e => e.ev.storesId id) := by
  induction l generalizing s with
  | nil => rfl
  | cons a l ih =>
    have h1 := ih (s.act defs a.now a.act).2
    have h2 := pushed_act defs id s a.now a.act
    simp only [Live.run, Live.trace, List.countP_cons] at h1 ⊢
    generalize (s.act defs a.now a.act).1.wakesId id = x at *
    generalize (s.act defs a.now a.act).1.storesId id = y at *
    cases x <;> cases y <;> simp at * <;> omega

private theorem stored_count (defs : List Runner) (id : Int) (es : List TLvEv) :
    es.countP (fun e => e.ev.storesId id) ≤
      (insertedIds (backHistory (es.filterMap fun e => (e.ev.visible defs).map fun v => ⟨e.now, v⟩))).count id := by
  induction es with
  | nil => exact Nat.zero_le _
  | cons e es ih =>
    obtain ⟨now, ev⟩ := e
    have step : ∀ x : Option TSEv, (x.toList.flatMap fun v => insertedIds (backHistory [v])).count id +
        (insertedIds (backHistory (es.filterMap fun e => (e.ev.visible defs).map fun v => ⟨e.now, v⟩))).count id =
        (insertedIds (backHistory (x.toList ++ es.filterMap fun e => (e.ev.visible defs).map fun v => ⟨e.now, v⟩))).count id := by
      intro x
      cases x with
      | none => simp
      | some v =>
        rw [backHistory_append, insertedIds_append, List.count_append]
        simp
    have hcons : ((⟨now, ev⟩ : TLvEv) :: es).filterMap (fun e => (e.ev.visible defs).map fun v => (⟨e.now, v⟩ : TSEv)) =
        ((ev.visible defs).map fun v => (⟨now, v⟩ : TSEv)).toList ++ es.filterMap fun e => (e.ev.visible defs).map fun v => ⟨e.now, v⟩ := by
      rw [List.filterMap_cons]
      cases ev.visible defs <;> simp
    rw [hcons, ← step, List.countP_cons, Nat.add_comm]
    refine Nat.add_le_add ?_ ih
    split
    · rename_i h
      cases ev with
      | client c =>
        cases c with
        | inserted x e =>
          simp only [LvEv.storesId, beq_iff_eq] at h
          subst h
          simp [LvEv.visible, backHistory, SEv.back, insertedIds]
        | _ => cases h
      | _ => cases h
    · exact Nat.zero_le _

/-- a call that has returned no longer has to wake anybody -/
private theorem woke_over {defs : List Runner} {id : Int} {l : List TLvAct} (A : Alone defs id l) {x : TLvEv}
    (hx : x ∈ (Live.init defs).trace defs l) (hw : x.ev = .client (.woke id)) (j : Job) (hj : j.id = id) :
    ¬ ((Live.init defs).run defs l).streams.conc.enqueuing j := by
  rintro ⟨e, he, -⟩
  obtain ⟨t, W⟩ := twin defs l
  obtain ⟨H, -, -⟩ := W.known A
  have h1 := pushed_run defs id (Live.init defs) l
  have h2 : (insertedIds (backHistory (Live.seen defs false l))).count id ≤ 1 :=
    List.nodup_iff_count.mp (List.nodup_append.mp H.nodup).1 id
  have h3 := stored_count defs id ((Live.init defs).trace defs l)
  have h4 : 0 < ((Live.init defs).trace defs l).countP (fun e => e.ev.wakesId id) :=
    List.countP_pos_iff.mpr ⟨x, hx, by rw [hw]; simp [LvEv.wakesId]⟩
  have h5 : 0 < ((Live.init defs).run defs l).streams.conc.calls.countP (pushedId id) :=
    List.countP_pos_iff.mpr ⟨_, he, by simp [pushedId, hj]⟩
  have h6 : (Live.init defs).streams.conc.calls.countP (pushedId id) = 0 := rfl
  unfold Live.seen at h2
  omega

/-- a waiting job that is let pass is still there, unless somebody has got it -/
private theorem passed_run {defs : List Runner} {s : Live} {k : KeyedJob} (l : List TLvAct) (hk : k ∈ s.streams.conc.mem.jobs)
    (hw : k.job.available)
    (hpass : ∀ l₁ b l₂, l = l₁ ++ b :: l₂ → k ∈ (s.run defs l₁).streams.conc.mem.jobs →
      (∀ e ∈ s.trace defs l₁, e.ev.handsOut k.job.id = false) → ((s.run defs l₁).act defs b.now b.act).1.LetsPass k.job b.now)
    (hno : ∀ e ∈ s.trace defs l, e.ev.handsOut k.job.id = false) : k ∈ (s.run defs l).streams.conc.mem.jobs := by
  induction l generalizing s with
  | nil => exact hk
  | cons a l ih =>
    refine ih (s := (s.act defs a.now a.act).2) (passed_stays hk hw (hpass [] a l rfl hk (by simp [Live.trace])) (hno _ List.mem_cons_self)) ?_
      fun e he => hno e (List.mem_cons_of_mem _ he)
    rintro l₁ b l₂ rfl hk' hno'
    refine hpass (a :: l₁) b l₂ rfl hk' ?_
    intro e he
    rcases List.mem_cons.mp he with rfl | he
    · exact hno _ List.mem_cons_self
    · exact hno' e he

private theorem inserted_stores {defs : List Runner} {s : Live} {now : Time} {a : LvAct} {id : Int} {e : EnqueuableJob}
    (h : (s.act defs now a).1 = .client (.inserted id e)) : e.intoJob now id ∈ (s.act defs now a).2.streams.conc.mem.jobs := by
  cases a with
  | client a =>
    cases a with
    | start x => simp [Live.act, Conc.step] at h
    | op o => simp [Live.act, Conc.step] at h
    | advance i =>
      simp only [Live.act, Conc.step] at h ⊢
      cases hp : s.streams.conc.calls[i]? with
      | none => rw [hp] at h; cases h
      | some p =>
        rw [hp] at h
        cases p with
        | start x =>
          simp only [Mem.advance] at h
          split at h
          · cases h
          · split at h <;> cases h
        | noMatch x => cases h
        | allocated id' x =>
          simp only [Mem.advance, LvEv.client.injEq, Ev.inserted.injEq] at h
          obtain ⟨rfl, rfl⟩ := h
          simp [Mem.advance]
        | pushed id' x => cases h
        | matched j =>
          simp only [Mem.advance] at h
          split at h <;> cases h
        | done r => cases h
  | shutdown => cases h
  | begin x =>
    simp only [Live.act] at h
    split at h <;> cases h
  | poll x =>
    simp only [Live.act] at h
    split at h
    · split at h
      · split at h <;> cases h
      · cases h
    · cases h
  | finish x y z =>
    simp only [Live.act] at h
    split at h
    · split at h
      · split at h
        · cases h
        · split at h <;> cases h
      · cases h
    · cases h
  | report x y =>
    simp only [Live.act] at h
    split at h
    · split at h <;> cases h
    · cases h
  | step x b =>
    simp only [Live.act] at h
    split at h
    · split at h <;> cases h
    · cases h

/-- **C129, in memory.** Runner `r` is as prompt as in C124 and subscribed before `t₁`. By `t₁` an enqueue call has stored job `id` of its
executor and has returned (whether or not the runner had subscribed already when it was called). Other clients leave the job
alone; until a runner gets it nothing is put in front of it, and there are never more than `N` jobs ahead of it. Then a runner has begun with it
by 15 ms + 6 `ε` + `D` + `N` (3 `ε` + `D`) after it is due – or after `t₁`, if that is later. -/
theorem C129_in_memory {ε D : Delta} (hε : 0 ≤ ε) (hD : 0 ≤ D) (defs : List Runner) (r : Nat) (d : Runner) (hd : defs[r]? = some d)
    (p as bs : List TLvAct) (t₀ t₁ : Time) (id : Int) (e : EnqueuableJob)
    (hbegin : (((Live.init defs).run defs p).act defs t₀ (.begin r)).1 = .begun r)
    (hc : (p.map (·.now) ++ t₀ :: (as.map (·.now) ++ t₁ :: bs.map (·.now))).Pairwise (· ≤ ·))
    (hp : PromptRunner ε D defs r t₀ t₀ ((Live.init defs).run defs (p ++ [⟨t₀, .begin r⟩])) (as ++ bs))
    (hins : ∃ x ∈ (Live.init defs).trace defs (p ++ ⟨t₀, .begin r⟩ :: as), x.ev = .client (.inserted id e))
    (hret : ∃ x ∈ (Live.init defs).trace defs (p ++ ⟨t₀, .begin r⟩ :: as), x.ev = .client (.woke id))
    (hx : e.executor = d.name)
    (hids : idsTaken (backHistory (Live.seen defs false (p ++ ⟨t₀, .begin r⟩ :: as ++ bs))) ≤ 4294967296)
    (hleave : ClientsLeave id (Live.seen defs false (p ++ ⟨t₀, .begin r⟩ :: as ++ bs)))
    (N : Nat) (hpass : ∀ l₁ b l₂, p ++ ⟨t₀, .begin r⟩ :: as ++ bs = l₁ ++ b :: l₂ →
      (∀ x ∈ (Live.init defs).trace defs l₁, x.ev.handsOut id = false) →
      ∀ k ∈ ((Live.init defs).run defs l₁).streams.conc.mem.jobs, k.job.id = id →
        (((Live.init defs).run defs l₁).act defs b.now b.act).1.LetsPass k.job b.now ∧
        ((Live.init defs).run defs l₁).streams.conc.mem.jobs.countP (fun a => decide (Ahead k.job a.job)) ≤ N)
    (hlate : ∃ b ∈ bs, max e.scheduledAt t₁ + 15000000 + 6 * ε + D + N * (3 * ε + D) < b.now) :
    ∃ l₁ b l₂, p ++ ⟨t₀, .begin r⟩ :: as ++ bs = l₁ ++ b :: l₂ ∧ b.now ≤ max e.scheduledAt t₁ + 15000000 + 6 * ε + D + N * (3 * ε + D) ∧
      ∃ r' d' i j, (((Live.init defs).run defs l₁).act defs b.now b.act).1 = .moved r' (.returned i j) (some (d'.start j)) ∧
        defs[r']? = some d' ∧ j.id = id := by
  have A : Alone defs id (p ++ ⟨t₀, .begin r⟩ :: as ++ bs) := ⟨hids, hleave⟩
  have hx0 : (0 : Int) ≤ 3 * ε + D := by simp only [Delta] at *; omega
  have hN0 : (0 : Int) ≤ N * (3 * ε + D) := Int.mul_nonneg (by omega) hx0
  have hmax : t₁ ≤ max e.scheduledAt t₁ := Int.le_max_right _ _
  have htime : ∀ a ∈ p ++ ⟨t₀, .begin r⟩ :: as, a.now ≤ t₁ := by
    intro a ha
    rw [show p.map (·.now) ++ t₀ :: (as.map (·.now) ++ t₁ :: bs.map (·.now)) =
      ((p ++ ⟨t₀, .begin r⟩ :: as).map (·.now)) ++ t₁ :: bs.map (·.now) by simp] at hc
    exact (List.pairwise_append.mp hc).2.2 _ (List.mem_map_of_mem ha) _ List.mem_cons_self
  have hc' : (t₀ :: (as.map (·.now) ++ t₁ :: bs.map (·.now))).Pairwise (· ≤ ·) := (List.pairwise_append.mp hc).2.1
  by_cases hany : ∃ x ∈ (Live.init defs).trace defs (p ++ ⟨t₀, .begin r⟩ :: as), x.ev.handsOut id = true
  · -- a runner has it already
    obtain ⟨l₁, b, l₂, h1, -, h3⟩ := first_event defs (fun v => v.handsOut id) _ _ hany
    refine ⟨l₁, b, l₂ ++ bs, by rw [h1]; simp, ?_, ?_⟩
    · have := htime b (by rw [h1]; simp)
      generalize (N : Int) * (3 * ε + D) = z at *
      generalize max e.scheduledAt t₁ = M at *
      simp only [Time, Delta] at *; omega
    · refine handsOut_moved (liveInv_run (liveInv_init defs false) l₁) h3 ?_
      intro ev hev
      refine lte_client (l := l₁) (m := b :: (l₂ ++ bs)) (e := ⟨b.now, _⟩) (by rw [h1] at A; simpa using A) List.mem_cons_self hev
  have hnone : ∀ x ∈ (Live.init defs).trace defs (p ++ ⟨t₀, .begin r⟩ :: as), x.ev.handsOut id = false := by
    intro x hxm
    cases h : x.ev.handsOut id with
    | true => exact absurd ⟨x, hxm, h⟩ hany
    | false => rfl
  -- it has been stored, and is still there
  obtain ⟨x, hxm, hxe⟩ := hins
  obtain ⟨es₁, es₂, hes⟩ := List.append_of_mem hxm
  obtain ⟨l₁, v, l₂, h1, h2, h3, h4⟩ := trace_split hes
  rw [h3] at hxe
  have hk := inserted_stores hxe
  have hst : ((Live.init defs).run defs l₁ |>.act defs v.now v.act).2 = (Live.init defs).run defs (l₁ ++ [v]) := by
    rw [live_run_append]; rfl
  rw [hst] at hk
  generalize hkk : e.intoJob v.now id = k at hk
  have kid : k.job.id = id := by rw [← hkk]; rfl
  have kx : k.job.executor = d.name := by rw [← hkk]; exact hx
  have ks : k.job.scheduledAt = e.scheduledAt := by rw [← hkk]; rfl
  have kw : k.job.available := by rw [← hkk]; exact .inl rfl
  have there : ∀ cs cs', bs = cs ++ cs' → (∀ x ∈ ((Live.init defs).run defs (p ++ ⟨t₀, .begin r⟩ :: as)).trace defs cs, x.ev.handsOut id = false) →
      k ∈ ((Live.init defs).run defs (p ++ ⟨t₀, .begin r⟩ :: as ++ cs)).streams.conc.mem.jobs := by
    rintro cs cs' rfl hno
    have hall : ∀ x ∈ (Live.init defs).trace defs (l₁ ++ [v] ++ (l₂ ++ cs)), x.ev.handsOut id = false := by
      intro x hx'
      rw [show l₁ ++ [v] ++ (l₂ ++ cs) = (p ++ ⟨t₀, .begin r⟩ :: as) ++ cs by rw [h1]; simp, lte_trace_append] at hx'
      exact (List.mem_append.mp hx').elim (hnone x) (hno x)
    rw [show p ++ ⟨t₀, .begin r⟩ :: as ++ cs = l₁ ++ [v] ++ (l₂ ++ cs) by rw [h1]; simp, live_run_append]
    rw [lte_trace_append] at hall
    refine passed_run (l₂ ++ cs) hk kw ?_ (by
      rw [kid]
      exact fun x hx' => hall x (List.mem_append_right _ hx'))
    intro m₁ b m₂ hm hk' hno'
    have := hpass (l₁ ++ [v] ++ m₁) b (m₂ ++ cs') (by
      rw [h1]
      have := congrArg (· ++ cs') hm
      simp only [List.append_assoc, List.cons_append, List.nil_append] at this ⊢
      rw [this]) (by
      intro x hx'
      rw [lte_trace_append] at hx'
      rw [kid] at hno'
      exact (List.mem_append.mp hx').elim (fun h => hall x (List.mem_append_left _ h)) (hno' x)) k (by rw [live_run_append]; exact hk') kid
    rw [live_run_append] at this
    exact this.1
  have hkn := there [] bs rfl (by simp [Live.trace])
  rw [List.append_nil] at hkn
  obtain ⟨b, hb, hlate⟩ := hlate
  have hcN : ((Live.init defs).run defs (p ++ ⟨t₀, .begin r⟩ :: as)).streams.conc.mem.jobs.countP (fun a => decide (Ahead k.job a.job)) ≤ N := by
    cases bs with
    | nil => cases hb
    | cons b₀ bs => exact (hpass (p ++ ⟨t₀, .begin r⟩ :: as) b₀ bs rfl hnone k hkn kid).2
  generalize hn : ((Live.init defs).run defs (p ++ ⟨t₀, .begin r⟩ :: as)).streams.conc.mem.jobs.countP (fun a => decide (Ahead k.job a.job)) = n at hcN
  have hle : (n : Int) * (3 * ε + D) ≤ N * (3 * ε + D) := Int.mul_le_mul_of_nonneg_right (by omega) hx0
  obtain ⟨xr, hxr, hxw⟩ := hret
  obtain ⟨bs₁, c, bs₂, g1, g2, g3⟩ := C124_in_memory hε hD defs r d hd p as bs t₀ t₁ k hbegin hc' hp hkn kw kx
    (woke_over A.front hxr hxw k.job kid) (by
      intro m₁ y m₂ hm hno
      obtain ⟨cs, c, cs', q1, q2, q3, q4⟩ := trace_split hm
      rw [kid] at hno ⊢
      have hk' := there cs (c :: cs') q1 (by rw [q2]; exact hno)
      have hl := hpass (p ++ ⟨t₀, .begin r⟩ :: as ++ cs) c cs' (by rw [q1]; simp) (by
        intro x hx'
        rw [lte_trace_append, q2] at hx'
        exact (List.mem_append.mp hx').elim (hnone x) (hno x)) k hk' kid
      rw [live_run_append] at hl
      refine ⟨by rw [q3]; exact hl.1, fun ev hev => ?_⟩
      exact lte_client A (by rw [hm]; simp) hev) n hn ⟨b, hb, by
      rw [ks]
      generalize (N : Int) * (3 * ε + D) = z at *
      generalize (n : Int) * (3 * ε + D) = z' at *
      generalize max e.scheduledAt t₁ = M at *
      simp only [Time, Delta] at *; omega⟩
  rw [kid] at g3
  refine ⟨p ++ ⟨t₀, .begin r⟩ :: as ++ bs₁, c, bs₂, by rw [g1]; simp, ?_, g3⟩
  rw [ks] at g2
  generalize (N : Int) * (3 * ε + D) = z at *
  generalize (n : Int) * (3 * ε + D) = z' at *
  generalize max e.scheduledAt t₁ = M at *
  simp only [Time, Delta] at *; omega

/-- **C129, in memory, to the end.** Runner `r` is as prompt as in C124. Action `v` of an enqueue call, made after the runner has subscribed,
stores job `id` of its executor, with at least one attempt, and by `t₁` the call has returned. With the hypotheses
of C126 from then on, the job is `Complete`, `Cancelled` or `Discarded`, or has been pruned, one round for every attempt it was given
and for every snooze after it was due – or after `t₁`, if that is later. -/
theorem C129_over_in_memory {ε D B Δ : Delta} (hε : 0 ≤ ε) (hD : 0 ≤ D) (hB : 0 ≤ B) (hΔ : 0 ≤ Δ) (defs : List Runner) (r : Nat) (d : Runner)
    (hd : defs[r]? = some d) (p as bs : List TLvAct) (v : TLvAct) (t₀ t₁ : Time) (id : Int) (e : EnqueuableJob)
    (hbegin : (((Live.init defs).run defs p).act defs t₀ (.begin r)).1 = .begun r)
    (hc : (t₀ :: (as.map (·.now) ++ v.now :: bs.map (·.now))).Pairwise (· ≤ ·))
    (hp : PromptRunner ε D defs r t₀ t₀ ((Live.init defs).run defs (p ++ [⟨t₀, .begin r⟩])) (as ++ v :: bs))
    (hins : (((Live.init defs).run defs (p ++ ⟨t₀, .begin r⟩ :: as)).act defs v.now v.act).1 = .client (.inserted id e))
    (hret : ∃ x ∈ ((Live.init defs).run defs (p ++ ⟨t₀, .begin r⟩ :: as ++ [v])).trace defs bs, x.ev = .client (.woke id) ∧ x.now ≤ t₁)
    (hx : e.executor = d.name) (hm : 0 < e.maxAttempts)
    (hids : idsTaken (backHistory (Live.seen defs false (p ++ ⟨t₀, .begin r⟩ :: as ++ [v] ++ bs))) ≤ 4294967296)
    (hleave : ClientsLeave id (Live.seen defs false (p ++ ⟨t₀, .begin r⟩ :: as ++ [v] ++ bs)))
    (N : Nat) (hpass : ∀ bs₁ b bs₂, bs = bs₁ ++ b :: bs₂ →
      ∀ k' ∈ ((Live.init defs).run defs (p ++ ⟨t₀, .begin r⟩ :: as ++ [v] ++ bs₁)).streams.conc.mem.jobs, k'.job.id = id → k'.job.available →
        (((Live.init defs).run defs (p ++ ⟨t₀, .begin r⟩ :: as ++ [v] ++ bs₁)).act defs b.now b.act).1.LetsPass k'.job b.now ∧
        ((Live.init defs).run defs (p ++ ⟨t₀, .begin r⟩ :: as ++ [v] ++ bs₁)).streams.conc.mem.jobs.countP
          (fun a => decide (Ahead k'.job a.job)) ≤ N)
    (hrun : ∀ es₁ e es₂, ((Live.init defs).run defs (p ++ ⟨t₀, .begin r⟩ :: as ++ [v])).trace defs bs = es₁ ++ e :: es₂ →
      ∀ r' i j st, e.ev = .moved r' (.returned i j) (some st) → j.id = id → ∃ t, st = .running t ∧
        ((∃ e' ∈ es₂, e.now + B < e'.now) → ∃ e' ∈ es₂, e'.now ≤ e.now + B ∧ ∃ ev, e'.ev = .reported r' t ev))
    (hdelay : ∀ e ∈ ((Live.init defs).run defs (p ++ ⟨t₀, .begin r⟩ :: as ++ [v])).trace defs bs, ∀ r' t ev next, e.ev = .reported r' t ev →
      (ev = .op (.snoozed id next) .unit ∨ ∃ x, ev = .op (.retryable id next x) .unit) → next ≤ e.now + Δ)
    (S : Nat) (hsnooze : (((Live.init defs).run defs (p ++ ⟨t₀, .begin r⟩ :: as ++ [v])).trace defs bs).countP (fun e => e.ev.snoozesJob id) ≤ S)
    (hlate : ∃ b ∈ bs, max e.scheduledAt t₁ + (e.maxAttempts + S) * (15000000 + 6 * ε + D + N * (3 * ε + D) + B + Δ) < b.now) :
    ∀ k' ∈ ((Live.init defs).run defs (p ++ ⟨t₀, .begin r⟩ :: as ++ [v] ++ bs)).streams.conc.mem.jobs, k'.job.id = id →
      k'.job.status = .complete ∨ k'.job.status = .cancelled ∨ k'.job.status = .discarded := by
  intro k' hk' hid'
  have eA : p ++ ⟨t₀, .begin r⟩ :: as ++ [v] = p ++ ⟨t₀, .begin r⟩ :: (as ++ [v]) := by simp
  have hk := inserted_stores hins
  rw [show (((Live.init defs).run defs (p ++ ⟨t₀, .begin r⟩ :: as)).act defs v.now v.act).2 =
    (Live.init defs).run defs (p ++ ⟨t₀, .begin r⟩ :: as ++ [v]) by rw [live_run_append _ _ _ [v]]; rfl] at hk
  have A : Alone defs id (p ++ ⟨t₀, .begin r⟩ :: as ++ [v] ++ bs) := ⟨hids, hleave⟩
  obtain ⟨x, hxm, hxe, hxt⟩ := hret
  obtain ⟨es₁, es₂, hes⟩ := List.append_of_mem hxm
  obtain ⟨c₁, c, c₂, h1, h2, h3, h4⟩ := trace_split hes
  have hct : c.now ≤ t₁ := by rw [h3] at hxt; exact hxt
  have hcs : (v.now :: bs.map (·.now)).Pairwise (· ≤ ·) := (List.pairwise_append.mp (List.Pairwise.of_cons hc)).2.1
  have hvc : v.now ≤ c.now := List.rel_of_pairwise_cons hcs (by rw [h1]; simp)
  have hc₁ : ∀ b ∈ c₁ ++ [c], b.now ≤ t₁ := by
    intro b hb
    rcases List.mem_append.mp hb with hb | hb
    · have h5 := List.Pairwise.of_cons hcs
      rw [h1, List.map_append] at h5
      exact Int.le_trans ((List.pairwise_append.mp h5).2.2 _ (List.mem_map_of_mem hb) c.now (by simp)) hct
    · rw [List.mem_singleton.mp hb]; exact hct
  have hmax : t₁ ≤ max e.scheduledAt t₁ := Int.le_max_right _ _
  have hen : ¬ ((Live.init defs).run defs (p ++ ⟨t₀, .begin r⟩ :: as ++ [v] ++ (c₁ ++ [c]))).streams.conc.enqueuing (e.intoJob v.now id).job := by
    refine woke_over (x := x) ?_ ?_ hxe _ rfl
    · refine Alone.front (m := c₂) ?_
      rw [h1] at A
      simpa using A
    · rw [lte_trace_append _ _ _ (c₁ ++ [c]), lte_trace_append _ _ c₁, h3]
      exact List.mem_append_right _ (List.mem_append_right _ List.mem_cons_self)
  have hn : ((e.maxAttempts + S : Nat) : Int) = e.maxAttempts + S := Int.natCast_add ..
  rw [eA] at hk hids hleave hpass hrun hdelay hsnooze hk' hen
  have := rounds hε hD hB hΔ defs r d hd p t₀ id N _ hbegin (e.maxAttempts + S) (as ++ [v]) bs v.now (max e.scheduledAt t₁) (e.intoJob v.now id)
    ?_ (by rw [show as ++ [v] ++ bs = as ++ v :: bs by simp]; exact hp) hk rfl (.inl rfl) hx
    ⟨c₁ ++ [c], c₂, by rw [h1]; simp, fun b hb => Int.le_trans (hc₁ b hb) hmax, hen⟩ (by show (0 : Int) < ((e.maxAttempts : Nat) : Int); omega) ⟨hids, hleave⟩ hpass hrun hdelay
    (by rw [hn]; show ((e.maxAttempts : Nat) : Int) - 0 + _ ≤ _; omega) (Int.le_max_left _ _) (Int.le_trans (Int.le_trans hvc hct) hmax) (by rw [hn]; exact Int.le_refl _)
    hlate k' hk' hid'
  · cases hst : k'.job.status <;> rw [hst] at this <;> simp_all [JobStatus.isOver]
  · have h5 : (t₀ :: as.map (·.now)) ++ v.now :: bs.map (·.now) = t₀ :: (as.map (·.now) ++ v.now :: bs.map (·.now)) := by simp
    rw [← h5] at hc
    have h6 := lte_dup hc
    have h7 : (t₀ :: as.map (·.now)) ++ v.now :: v.now :: bs.map (·.now) = t₀ :: ((as ++ [v]).map (·.now) ++ v.now :: bs.map (·.now)) := by simp
    rw [← h7]; exact h6

/-- The hypotheses of `C129_in_memory` are met by the job due at 7 s, with ε = 1 ms, D = 5 s and N = 1: it is stored, its enqueue call returns, … -/
example : ((([] : List TLvAct).map (·.now)) ++ (0 : Time) :: (liveStart.map (·.now) ++ 1 * sec :: liveRest.map (·.now))).Pairwise (· ≤ ·) ∧
    (((Live.init [eagerRunner (some 1)]).run [eagerRunner (some 1)] []).act [eagerRunner (some 1)] 0 (.begin 0)).1.handsOut 1 = false ∧
    PromptRunner ms (5 * sec) [eagerRunner (some 1)] 0 0 0 ((Live.init [eagerRunner (some 1)]).run [eagerRunner (some 1)] [⟨0, .begin 0⟩])
      (liveStart ++ liveRest) ∧
    (((Live.init [eagerRunner (some 1)]).trace [eagerRunner (some 1)] (⟨0, .begin 0⟩ :: liveStart)).filterMap fun x => match x.ev with
      | .client (.inserted id e) => some ("inserted", id, e.executor, e.scheduledAt)
      | .client (.woke id) => some ("returned", id, "", 0)
      | _ => none) = [("inserted", 0, "mail", 5 * sec), ("returned", 0, "", 0), ("inserted", 1, "mail", 7 * sec), ("returned", 1, "", 0)] ∧
    idsTaken (backHistory (Live.seen [eagerRunner (some 1)] false (⟨0, .begin 0⟩ :: liveStart ++ liveRest))) = 2 ∧
    (∀ x ∈ Live.seen [eagerRunner (some 1)] false (⟨0, .begin 0⟩ :: liveStart ++ liveRest), x.ev.clientTouches 1 = false) ∧
    ∃ b ∈ liveRest, max (7 * sec) (1 * sec) + 15000000 + 6 * ms + 5 * sec + 1 * (3 * ms + 5 * sec) < b.now := by
  decide +kernel

/-- … and until it is handed out nothing is put in front of it and at most one job is ahead of it. -/
example : ∀ n ∈ List.range (⟨0, .begin 0⟩ :: liveStart ++ liveRest).length,
    (∀ x ∈ (Live.init [eagerRunner (some 1)]).trace [eagerRunner (some 1)] ((⟨0, .begin 0⟩ :: liveStart ++ liveRest).take n), x.ev.handsOut 1 = false) →
    ∀ k ∈ ((Live.init [eagerRunner (some 1)]).run [eagerRunner (some 1)] ((⟨0, .begin 0⟩ :: liveStart ++ liveRest).take n)).streams.conc.mem.jobs,
      k.job.id = 1 →
      (∀ b ∈ ((⟨0, .begin 0⟩ :: liveStart ++ liveRest).drop n).head?, (((Live.init [eagerRunner (some 1)]).run [eagerRunner (some 1)]
        ((⟨0, .begin 0⟩ :: liveStart ++ liveRest).take n)).act [eagerRunner (some 1)] b.now b.act).1.LetsPass k.job b.now) ∧
      ((Live.init [eagerRunner (some 1)]).run [eagerRunner (some 1)] ((⟨0, .begin 0⟩ :: liveStart ++ liveRest).take n)).streams.conc.mem.jobs.countP
        (fun a => decide (Ahead k.job a.job)) ≤ 1 := by
  decide +kernel

/-- For `C129_over_in_memory`: in the schedule of `toEndRest` job 0 is stored by the eighth action after the runner subscribed, and its enqueue
call returns with the next one. The other hypotheses are those of `C126_in_memory`. -/
example : (match (((Live.init [eagerRunner (some 1)]).run [eagerRunner (some 1)] (⟨0, .begin 0⟩ :: liveStart.take 7)).act [eagerRunner (some 1)] (1 * sec)
      (.client (.advance 0))).1 with
    | .client (.inserted id e) => id == 0 && e.executor == "mail" && e.maxAttempts == 2 && e.scheduledAt == 5 * sec
    | _ => false) = true ∧
    (match (((Live.init [eagerRunner (some 1)]).run [eagerRunner (some 1)] (⟨0, .begin 0⟩ :: liveStart.take 8)).act [eagerRunner (some 1)] (1 * sec)
      (.client (.advance 0))).1 with
    | .client (.woke id) => id == 0
    | _ => false) = true ∧
    ((liveStart.drop 7).head?.map fun a => a.now) = some (1 * sec) ∧
    ∃ b ∈ toEndRest, max (5 * sec) (1 * sec) + (2 + 0) * (15000000 + 6 * ms + 5 * sec + 1 * (3 * ms + 5 * sec) + 4 * sec + 10 * sec) < b.now := by
  decide +kernel

end Rexecutor
