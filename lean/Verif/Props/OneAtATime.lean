import Verif.Props.Served
import Verif.Props.PgFate

/-! # C106: a job is not executed twice at the same time -/

namespace Rexecutor

/-! ## In memory -/

/-- The event makes job `id` one that waits to be handed out: a retry, a snooze, a rerun, an
`update_job` to such a status, or the write-back of such a copy by an enqueue with uniqueness
criteria. -/
def Ev.makesWaiting (id : Int) : Ev → Bool
  | .op (.retryable i _ _) .unit => i == id
  | .op (.snoozed i _) .unit => i == id
  | .op (.rerun i) .unit => i == id
  | .op (.update j) .unit => j.id == id && (j.status == .scheduled || j.status == .retryable)
  | .wrote j .unit => j.id == id && (j.status == .scheduled || j.status == .retryable)
  | _ => false

private def JobStatus.waits (s : JobStatus) : Prop := s = .scheduled ∨ s = .retryable

private theorem waiting_from {now : Time} {ev : Ev} {j : Job} (h : (applyEv now ev j).status.waits) :
    ev.makesWaiting j.id = true ∨ (j.status.waits ∧ ev.handsOut j.id = false) := by
  unfold applyEv at h
  split at h <;> (try split at h) <;>
    simp_all [Job.markComplete, Job.markRetryable, Job.markDiscarded, Job.markCancelled, Job.markSnoozed,
      Job.markRerunable, Job.markExecuting, Ev.makesWaiting, Ev.handsOut, JobStatus.waits] <;>
    omega

/-- at most one execution of the job is in flight, and while one is, the job does not wait -/
private structure Single (id : Int) (h : List TSEv) (s : Sys) : Prop where
  le : (s.flying id).length ≤ 1
  idle : s.flying id ≠ [] → ∀ k ∈ s.conc.mem.jobs, k.job.id = id → ¬ k.job.status.waits
  fresh : id ∉ insertedIds (backHistory h) → s.flying id = []

/-- a step that starts nothing and does not make the job wait -/
private theorem Single.quiet {id : Int} {h : List TSEv} {s s₁ : Sys} {now : Time} {ev : SEv} {b : Act} (S : Single id h s)
    (H : HistOk (backHistory h) s.conc)
    (hw : s₁.flying id ≠ [] → (s.conc.step now b).1.makesWaiting id = false) (hc : s₁.conc = (s.conc.step now b).2)
    (hf : (s₁.flying id).length ≤ (s.flying id).length) : Single id (h ++ [{ now := now, ev := ev }]) s₁ := by
  have hne : s₁.flying id ≠ [] → s.flying id ≠ [] := by
    intro h1 h2
    rw [h2] at hf
    exact h1 (List.eq_nil_of_length_eq_zero (by simpa using hf))
  refine ⟨Nat.le_trans hf S.le, ?_, ?_⟩
  · intro h1 k' hk' hid hx
    rw [hc] at hk'
    cases step_job H.ids_nodup hk' with
    | new e hev hk =>
      rw [hid] at hev
      exact hne h1 (S.fresh fun hin => absurd (inserted_waiting hev) (H.not_waiting hin))
    | old k hk _ hj =>
      have hkid : k.job.id = id := by
        have := applyEv_id now (s.conc.step now b).1 k.job
        rw [← hj] at this; rw [← this]; exact hid
      rw [hj] at hx
      rcases waiting_from hx with h2 | ⟨h2, -⟩
      · rw [hkid, hw h1] at h2; cases h2
      · exact S.idle (hne h1) k hk hkid h2
  · intro hn
    apply Classical.byContradiction
    intro h1
    exact hne h1 (S.fresh (inserted_mono hn))

private theorem Single.same {id : Int} {h : List TSEv} {s s₁ : Sys} {now : Time} {ev : SEv} (S : Single id h s)
    (hc : s₁.conc = s.conc) (hf : (s₁.flying id).length ≤ (s.flying id).length) :
    Single id (h ++ [{ now := now, ev := ev }]) s₁ := by
  have hne : s₁.flying id ≠ [] → s.flying id ≠ [] := by
    intro h1 h2
    rw [h2] at hf
    exact h1 (List.eq_nil_of_length_eq_zero (by simpa using hf))
  refine ⟨Nat.le_trans hf S.le, fun h1 => by rw [hc]; exact S.idle (hne h1), fun hn => ?_⟩
  apply Classical.byContradiction
  intro h1
  exact hne h1 (S.fresh (inserted_mono hn))

private theorem Single.step {defs : List Runner} {id : Int} {h : List TSEv} {s s' : Sys} {now : Time} {a : SAct} {ev : SEv}
    (S : Single id h s) (H : HistOk (backHistory h) s.conc) (R : AllReportable s)
    (hcl : s.flying id ≠ [] → ∀ e, ev = .client e → e.makesWaiting id = false)
    (hs : SStep defs now s a ev s') : Single id (h ++ [{ now := now, ev := ev }]) s' := by
  -- a hand-out of the job finds nothing in flight
  have none : ∀ (d : Runner) (j : Job), (s.conc.step now (.op (.load d.name))).1 = .op (.load d.name) (.job (some j)) →
      j.id = id → s.flying id = [] := by
    intro d j hev hj
    apply Classical.byContradiction
    intro hn
    obtain ⟨-, l, k, r, g1, g2, -, -, g5, -⟩ := handout_cases hev
    refine S.idle hn k (by rw [g1]; simp) (by rw [← hj, g5]; rfl) ?_
    rw [readyFor_iff] at g2
    exact g2.2.2
  cases hs with
  | client b => exact S.quiet H (fun h1 => hcl h1 _ rfl) rfl (Nat.le_refl _)
  | idle => exact S.same rfl (Nat.le_refl _)
  | shutdown => exact S.same rfl (by rw [flying_stop]; exact Nat.le_refl _)
  | empty r d rs hd hr hp hl hev =>
    exact S.quiet (b := .op (.load d.name)) H (fun _ => by rw [hev]; rfl) rfl (Nat.le_refl _)
  | undecodable r d rs j hd hr hp hl hev hst =>
    exact S.quiet (b := .op (.load d.name)) H (fun _ => by rw [hev]; rfl) rfl (Nat.le_refl _)
  | panicked r d rs j hd hr hp hl hev hst =>
    exact S.quiet (b := .op (.load d.name)) H (fun _ => by rw [hev]; rfl) rfl (fly_crash id _ hr).length_le
  | overflowed r i b d rs t j hd hr hfl hj ho => exact S.same rfl (fly_crash id _ hr).length_le
  | started r d rs j t hd hr hp hl hev hst =>
    obtain ⟨A, B, f1, f2⟩ := flying_set id hr
    obtain ⟨htid, -⟩ := start_running hst
    by_cases hj : j.id = id
    · have h1 := none d j hev hj
      rw [f1] at h1
      simp only [List.append_eq_nil_iff] at h1
      obtain ⟨⟨hA, hF⟩, hB⟩ := h1
      have hmem : id ∈ insertedIds (backHistory h) := by
        obtain ⟨-, l, k, r, g1, -, -, -, g5, -⟩ := handout_cases hev
        have := H.mem_inserted (k := k) (by rw [g1]; simp)
        rw [g5] at hj
        simp only [Job.markExecuting] at hj
        rw [hj] at this; exact this
      refine ⟨?_, ?_, fun hn => absurd hmem (inserted_mono hn)⟩
      · rw [f2, hA, hB]
        simp only [List.filter_append, hF, List.nil_append, List.append_nil]
        simp [htid, hj]
      · intro _ k' hk' hid hx
        cases step_job H.ids_nodup hk' with
        | new e hev' hk => rw [hev] at hev'; cases hev'
        | old k hk _ hjj =>
          have hkid : k.job.id = id := by
            have := applyEv_id now (s.conc.step now (.op (.load d.name))).1 k.job
            rw [← hjj] at this; rw [← this]; exact hid
          rw [hjj, hev] at hx
          rcases waiting_from hx with h2 | ⟨-, h2⟩
          · cases h2
          · simp [Ev.handsOut, hkid, hj] at h2
    · refine S.quiet (b := .op (.load d.name)) H (fun _ => by rw [hev]; rfl) rfl ?_
      rw [f2, f1]
      simp only [List.filter_append]
      have : ([⟨t, .running⟩] : List Flight).filter (fun f => f.task.id == id) = [] := by
        simp [htid, hj]
      rw [this]; simp
  | ended r i b d rs t j o hd hr hfl hjn ho =>
    obtain ⟨A, B, f1, f2⟩ := flying_set id hr
    refine S.same rfl ?_
    rw [f2, f1]
    by_cases hid : t.id = id
    · obtain ⟨a, b', e1, e2⟩ := filter_set_same (f := ⟨t, .running⟩) (g := ⟨t, .reporting o⟩) hfl
        (p := fun f => f.task.id == id) (by simp [hid]) (by simp [hid])
      simp only [e1, e2, List.length_append, List.length_cons]
      omega
    · simp only
      rw [filter_set_other hfl (by simp [hid]) (by simp [hid])]
      exact Nat.le_refl _
  | reported r i rs t o hr hfl =>
    obtain ⟨A, B, f1, f2⟩ := flying_set id hr
    obtain ⟨a, b, e1, e2⟩ := erase_split hfl
    have hrep : Reportable t o := R r ⟨t, .reporting o⟩ o
      (by rw [flightsOf_some hr]; exact List.mem_of_getElem? hfl) rfl
    refine S.quiet (b := .op o) H ?_ rfl ?_
    · intro hn
      have hne : t.id ≠ id := by
        intro hid
        apply hn
        have := S.le
        rw [f1, e1] at this
        rw [f2]
        simp only [e2, List.filter_append]
        simp only [List.filter_append, List.length_append, List.filter_cons, hid, beq_self_eq_true, if_true,
          List.length_cons] at this
        apply List.eq_nil_of_length_eq_zero
        simp only [List.length_append]
        omega
      rcases reportable_cases hrep with rfl | ⟨e, rfl⟩ | ⟨x, rfl⟩ | ⟨-, e, rfl⟩ | ⟨-, x, e, rfl⟩ <;>
      · simp only [Conc.step]
        unfold Ev.makesWaiting
        split <;> simp_all
    · rw [f2, f1]
      simp only [e2]
      rw [e1]
      simp only [List.filter_append, List.length_append, List.filter_cons]
      split <;> simp <;> omega

/-- A point of a history at which a client made job `id` wait although an execution of it was in
flight. -/
def RequeuedInFlight (defs : List Runner) (id : Int) (s : Sys) (as : List TSAct) : Prop :=
  ∃ bs a cs ev, as = bs ++ a :: cs ∧ (s.run defs bs).hasJob id ∧
    ((s.run defs bs).step defs a.now a.act).1 = .client ev ∧ ev.makesWaiting id = true

private theorem requeued_snoc {defs : List Runner} {id : Int} {s : Sys} {as : List TSAct} {a : TSAct}
    (h : RequeuedInFlight defs id s as) : RequeuedInFlight defs id s (as ++ [a]) := by
  obtain ⟨bs, b, cs, ev, rfl, h⟩ := h
  exact ⟨bs, b, cs ++ [a], ev, by simp, h⟩

/-- **C106, in memory.** Two executions of one job are in flight at the same time only if some
client made the job wait again while an execution of it was in flight: with `rerun_job`, or by
reporting a retry or a snooze itself, or with an `update_job` to a waiting status, or with an
enqueue that writes back a waiting copy. Runners on their own never do this, whatever other
clients do at other times: they may cancel the job while it is executed, discard it, complete it,
edit it and prune it. -/
theorem C106_in_memory_partial (defs : List Runner) (paused : Bool) (id : Int) (as : List TSAct)
    (hb : idsTaken (backHistory ((Sys.init defs paused).trace defs as)) ≤ 2 ^ 32)
    (h2 : 2 ≤ (((Sys.init defs paused).run defs as).flying id).length) :
    RequeuedInFlight defs id (Sys.init defs paused) as := by
  suffices h : RequeuedInFlight defs id (Sys.init defs paused) as ∨
      (Single id ((Sys.init defs paused).trace defs as) ((Sys.init defs paused).run defs as) ∧
        AllReportable ((Sys.init defs paused).run defs as)) by
    rcases h with h | ⟨h, -⟩
    · exact h
    · have := h.le; omega
  clear h2
  induction as using snocInduction with
  | nil =>
    right
    have : (Sys.init defs paused).flying id = [] := by simp [Sys.flying, Sys.init]
    exact ⟨⟨by rw [Sys.run, this]; simp, fun h => absurd this h, fun _ => this⟩,
      fun r f o hf => by rw [Sys.run, flightsOf_init] at hf; simp at hf⟩
  | snoc as a ih =>
    rw [Sys.trace_append] at hb ⊢
    rw [Sys.run_append]
    rw [backHistory_append] at hb
    have hb1 : idsTaken (backHistory ((Sys.init defs paused).trace defs as)) ≤ 4294967296 :=
      idsTaken_append_le (by simpa using hb)
    rcases ih (by simpa using hb1) with h | ⟨S, R⟩
    · exact .inl (requeued_snoc h)
    · have hs := step_sstep defs a.now ((Sys.init defs paused).run defs as) a.act
      by_cases hbad : ((Sys.init defs paused).run defs as).flying id ≠ [] ∧
          ∃ e, (((Sys.init defs paused).run defs as).step defs a.now a.act).1 = .client e ∧ e.makesWaiting id = true
      · obtain ⟨g1, e, g2, g3⟩ := hbad
        exact .inl ⟨as, a, [], e, rfl, hasJob_flying.mpr g1, g2, g3⟩
      · right
        refine ⟨S.step (histOk_sys defs paused as hb1) R ?_ hs, allReportable_step R hs⟩
        intro h1 e he
        cases hw : e.makesWaiting id with
        | false => rfl
        | true => exact absurd ⟨h1, e, he, hw⟩ hbad

/-- A job is rerun while it is executed, and handed out again. -/
def rerunInFlight : List TSAct :=
  (enqSteps 0 0 sampleEnq).map (fun a => ⟨a.now, .client a.act⟩) ++
  [⟨1, .pull 0⟩, ⟨2, .client (.op (.rerun 0))⟩, ⟨3, .pull 0⟩]

/-- **C106 fails: `rerun_job`.** Rerunning a job that is being executed starts a second execution
beside the first. -/
theorem C106_violated_rerun :
    idsTaken (backHistory ((Sys.init [sampleRunner]).trace [sampleRunner] rerunInFlight)) ≤ 2 ^ 32 ∧
    (((Sys.init [sampleRunner]).run [sampleRunner] rerunInFlight).flying 0).map
      (fun f => (f.task.id, match f.phase with | .running => true | _ => false)) = [(0, true), (0, true)] := by
  decide

/-- An enqueue with do-nothing uniqueness criteria finds the waiting job; the job is handed out;
the enqueue writes its copy back, and the job is handed out again. -/
def conflictInFlight : List TSAct :=
  (enqSteps 0 0 sampleEnq).map (fun a => ⟨a.now, .client a.act⟩) ++
  [⟨1, .client (.start sampleBusy)⟩, ⟨2, .client (.advance 1)⟩, ⟨3, .pull 0⟩, ⟨4, .client (.advance 1)⟩, ⟨5, .pull 0⟩]

/-- **C106 fails: uniqueness criteria.** One runner and two enqueue calls, the second of which is
told to do nothing if there is such a job already: two executions of the same job run side by
side, though nobody reran or updated anything. -/
theorem C106_violated_conflict :
    (∀ a ∈ conflictInFlight, (∃ e, a.act = .client (.start e)) ∨ (∃ i, a.act = .client (.advance i)) ∨ a.act = .pull 0) ∧
    (sampleBusy.criteria.map (·.onConflict) = some .doNothing) ∧
    (((Sys.init [sampleRunner]).run [sampleRunner] conflictInFlight).flying 0).map
      (fun f => (f.task.id, match f.phase with | .running => true | _ => false)) = [(0, true), (0, true)] := by
  refine ⟨?_, rfl, by decide⟩
  intro a ha
  simp only [conflictInFlight, enqSteps, List.map_cons, List.map_nil, List.cons_append, List.nil_append, List.mem_cons,
    List.not_mem_nil, or_false] at ha
  rcases ha with rfl | rfl | rfl | rfl | rfl | rfl | rfl | rfl | rfl <;> simp

/-- The job is cancelled and edited while it is executed and, with the execution still going
on, asked for again in vain: `C106_in_memory_partial` allows only one execution here. -/
example :
    let as : List TSAct := (enqSteps 0 0 sampleEnq).map (fun a => ⟨a.now, .client a.act⟩) ++
      [⟨1, .pull 0⟩, ⟨2, .client (.op (.cancelled 0 sampleErr))⟩,
       ⟨3, .client (.op (.update { sampleJob 0 with status := .cancelled, priority := 5 }))⟩, ⟨4, .pull 0⟩]
    (((Sys.init [sampleRunner]).run [sampleRunner] as).flying 0).length = 1 ∧
    ((Sys.init [sampleRunner]).run [sampleRunner] as).conc.mem.jobs.map (fun k => (k.job.status, k.job.priority)) =
      [(.cancelled, 5)] := by
  decide

/-! ## Postgres -/

/-- The event makes row `id` one that waits to be handed out. -/
def PgEv.makesWaiting (id : Int) (e : PgEv) : Bool := e.retries id || e.snoozes id || e.reruns id

/-- at most one runner has the job, and while one has it, it does not wait -/
private structure PSingle (id : Int) (h : List TPSEv) (s : PgSys) : Prop where
  seen : ∀ r x c, s.carrier r x = some c → c.id = id → id ∈ pgInserted (dbHistory h)
  one : ∀ r x c r' x' c', s.carrier r x = some c → c.id = id → s.carrier r' x' = some c' → c'.id = id → r = r' ∧ x = x'
  idle : ∀ r x c, s.carrier r x = some c → c.id = id → ∀ row ∈ s.conc.pg.rows, row.id = id → ¬ row.status.waits

private theorem PSingle.cstep {id : Int} {h : List TPSEv} {s s' : PgSys} (T : PSingle id h s)
    (I : PgSysInv h s) {hash : HashFn} {tie : Int → Nat} {now : Time} {ev : PSEv} (hs : CStep hash tie now id s ev s') :
    PSingle id (h ++ [⟨now, ev⟩]) s' := by
  cases hs with
  | away _ _ hsub hback hconc hend _ =>
    exact ⟨fun r x c hc hid => inserted_grow (T.seen r x c (hsub r x c hc hid) hid),
      fun r x c r' x' c' h1 h2 h3 h4 => T.one r x c r' x' c' (hsub _ _ _ h1 h2) h2 (hsub _ _ _ h3 h4) h4,
      fun r x c hc hid => by rw [hconc]; exact T.idle r x c (hsub r x c hc hid) hid⟩
  | other _ _ b hsub hback hconc ht =>
    refine ⟨fun r x c hc hid => inserted_grow (T.seen r x c (hsub r x c hc hid) hid),
      fun r x c r' x' c' h1 h2 h3 h4 => T.one r x c r' x' c' (hsub _ _ _ h1 h2) h2 (hsub _ _ _ h3 h4) h4,
      fun r x c hc hid row hrow hrid => ?_⟩
    rw [hconc] at hrow
    rcases untouched_row I.inv I.hist ht hrow hrid with h1 | ⟨-, hn, -⟩
    · exact T.idle r x c (hsub r x c hc hid) hid row h1 hrid
    · exact absurd (T.seen r x c (hsub r x c hc hid) hid) hn
  | handed k row res _ hev hid hconc hruns hnew =>
    obtain ⟨q, hq, hqid, hmem, y, t, -, hrd, he⟩ := handedOut_mem I.inv hev
    have new : ∀ r x c, s'.carrier r x = some c → c.id = id →
        x = none ∧ (∃ rs, s.runners[r]? = some rs ∧ rs.loading = some k) ∧ ∃ j, c = .loaded j ∧ row.decode = some j := by
      intro r x c hc hcid
      rcases hnew r x c hc hcid with h1 | h1
      · exact absurd (ready_iff'.mp hrd).waiting (T.idle r x c h1 hcid q hq (hqid.trans hid))
      · exact h1
    refine ⟨fun r x c hc hcid => inserted_grow ?_, ?_, ?_⟩
    · rw [← hid, ← hqid]; exact I.hist.ids q hq
    · intro r x c r' x' c' h1 h2 h3 h4
      obtain ⟨e1, ⟨rs, g1, g2⟩, -⟩ := new r x c h1 h2
      obtain ⟨e1', ⟨rs', g1', g2'⟩, -⟩ := new r' x' c' h3 h4
      exact ⟨I.own.inj r r' rs rs' k g1 g1' g2 g2', by rw [e1, e1']⟩
    · intro r x c hc hcid row' hrow' hrid hw
      rw [hconc] at hrow'
      have : row' = row := row_unique (I.inv.step hash tie now _).nodup hrow' hmem (by rw [hrid, hid])
      rw [this, he] at hw
      rcases hw with hw | hw <;> cases hw
  | taken r j st _ hid hhad hconc hnew =>
    have hone : ∀ q x c, s'.carrier q x = some c → c.id = id →
        q = r ∧ ∃ rs, s.runners[r]? = some rs ∧ x = some rs.flights.length := by
      intro q x c hc hcid
      rcases hnew q x c hc hcid with ⟨h1, h2⟩ | ⟨h1, -, t, h3, -, h4, h5⟩
      · have := T.one q x c r none (.loaded j) h1 hcid hhad hid
        exact absurd (by rw [this.1, this.2]) h2
      · exact ⟨h1, h5⟩
    refine ⟨fun q x c hc hcid => inserted_grow (T.seen r none _ hhad hid), ?_, ?_⟩
    · intro q x c q' x' c' h1 h2 h3 h4
      obtain ⟨e1, rs, e2, e3⟩ := hone q x c h1 h2
      obtain ⟨e1', rs', e2', e3'⟩ := hone q' x' c' h3 h4
      rw [e2] at e2'
      cases e2'
      exact ⟨by rw [e1, e1'], by rw [e3, e3']⟩
    · intro q x c hc hcid row hrow hrid
      rw [hconc] at hrow
      exact T.idle r none _ hhad hid row hrow hrid
  | ended r i t j d o _ hid ho hhad hconc hnew =>
    have hsub : ∀ q x c, s'.carrier q x = some c → ∃ c₀, s.carrier q x = some c₀ ∧ c₀.id = c.id := by
      intro q x c hc
      rw [hnew] at hc
      split at hc
      · rename_i hq
        cases hc
        exact ⟨.flight ⟨t, .running⟩, by rw [hq.1, hq.2]; exact hhad, rfl⟩
      · exact ⟨c, hc, rfl⟩
    refine ⟨fun q x c hc hcid => inserted_grow (T.seen r _ _ hhad hid), ?_, ?_⟩
    · intro q x c q' x' c' h1 h2 h3 h4
      obtain ⟨c₀, e1, e2⟩ := hsub q x c h1
      obtain ⟨c₁, e1', e2'⟩ := hsub q' x' c' h3
      exact T.one q x c₀ q' x' c₁ e1 (e2.trans h2) e1' (e2'.trans h4)
    · intro q x c hc hcid row hrow hrid
      obtain ⟨c₀, e1, e2⟩ := hsub q x c hc
      rw [hconc] at hrow
      exact T.idle q x c₀ e1 (e2.trans hcid) row hrow hrid
  | overflowed r i t j _ hid hhad hconc hsub =>
    have none : ∀ q x c, s'.carrier q x = some c → c.id ≠ id := by
      intro q x c hc hcid
      have := hsub q x c hc
      exact this.1 (T.one q x c r (some i) _ this.2 hcid hhad hid).1
    exact ⟨fun q x c hc hcid => absurd hcid (none q x c hc), fun q x c q' x' c' h1 h2 => absurd h2 (none q x c h1),
      fun q x c hc hcid => absurd hcid (none q x c hc)⟩
  | reported r i t o _ hid hhad hnb hconc hsub =>
    have none : ∀ q x c, s'.carrier q x = some c → c.id ≠ id := by
      intro q x c hc hcid
      have := hsub q x c hc
      have he := T.one q x c r (some i) _ this.1 hcid hhad hid
      exact this.2 (by rw [he.1, he.2])
    exact ⟨fun q x c hc hcid => absurd hcid (none q x c hc), fun q x c q' x' c' h1 h2 => absurd h2 (none q x c h1),
      fun q x c hc hcid => absurd hcid (none q x c hc)⟩

/-- a client does something to the row other than taking it, and does not make it wait -/
private theorem PSingle.edit {hash : HashFn} {tie : Int → Nat} {id : Int} {h : List TPSEv} {s : PgSys} {now : Time} {b : PgAct}
    (T : PSingle id h s) (I : PgSysInv h s) (ht : (s.conc.step hash tie now b).1.touches id = true)
    (hh : (s.conc.step hash tie now b).1.handsOut id = false)
    (hw : s.hasJob id → (s.conc.step hash tie now b).1.makesWaiting id = false) :
    PSingle id (h ++ [⟨now, .db (s.conc.step hash tie now b).1⟩]) ⟨(s.conc.step hash tie now b).2, s.runners⟩ := by
  have hsub : ∀ r x c, PgSys.carrier ⟨(s.conc.step hash tie now b).2, s.runners⟩ r x = some c → c.id = id →
      s.carrier r x = some c := by
    intro r x c hc hid
    rcases db_carrier I.own hc with h1 | ⟨k, rs, row, j, -, -, -, -, rfl, hd, hev⟩
    · exact h1
    · rw [hev] at hh
      simp only [PgEv.handsOut, beq_eq_false_iff_ne] at hh
      exact absurd ((decode_fields hd).1.symm.trans hid) hh
  refine ⟨fun r x c hc hid => inserted_grow (T.seen r x c (hsub r x c hc hid) hid),
    fun r x c r' x' c' h1 h2 h3 h4 => T.one r x c r' x' c' (hsub _ _ _ h1 h2) h2 (hsub _ _ _ h3 h4) h4, ?_⟩
  intro r x c hc hid row' hrow' hrid hx
  have hc' := hsub r x c hc hid
  have hw := hw (hasJob_iff.mpr ⟨r, x, c, hc', hid⟩)
  simp only [PgEv.makesWaiting, Bool.or_eq_false_iff] at hw
  obtain ⟨⟨w1, w2⟩, w3⟩ := hw
  rcases (table_step I.inv hash tie now b).back hrow' with ⟨uc, he, -⟩ | ⟨row, hrow, hid', hm, -⟩
  · rw [he] at ht; cases ht
  · have hrid' : row.id = id := hid'.trans hrid
    have old := T.idle r x c hc' hid row hrow hrid'
    cases hm with
    | keep _ e => subst e; exact old hx
    | handout y t res h' hr e => rw [h'] at hh; simp [PgEv.handsOut, hrid] at hh
    | replaced rep enq h' e => rw [e] at hx; exact old hx
    | update job hj h' e => rw [e] at hx; exact old hx
    | complete h' e => rw [e] at hx; rcases hx with hx | hx <;> cases hx
    | retryable next err h' e => rw [h'] at w1; simp [PgEv.retries, hrid'] at w1
    | discarded err h' e => rw [e] at hx; rcases hx with hx | hx <;> cases hx
    | cancelled err h' e => rw [e] at hx; rcases hx with hx | hx <;> cases hx
    | snoozed next h' e => rw [h'] at w2; simp [PgEv.snoozes, hrid'] at w2
    | rerun h' e => rw [h'] at w3; simp [PgEv.reruns, hrid'] at w3

/-- A point of a history at which a client made job `id` wait although a runner had it. -/
def PgRequeuedInFlight (hash : HashFn) (defs : List Runner) (id : Int) (s : PgSys) (as : List TPSAct) : Prop :=
  ∃ bs a cs ev, as = bs ++ a :: cs ∧ (s.run hash defs bs).hasJob id ∧
    ((s.run hash defs bs).step hash defs a.tie a.now a.act).1 = .db ev ∧ ev.makesWaiting id = true

/-- **C106, Postgres.** Two runners, on any nodes, have the same job at the same time, or one has
it twice, only if some client made the job wait again while a runner had it: with `rerun_job`, or
by reporting a retry or a snooze itself. Runners on their own never do this, whatever other
clients do at other times, and whether or not processes end and connections fail: clients may
cancel the job while it is executed, discard it, complete it, update it, replace parts of it and
prune it. -/
theorem C106_postgres_partial (hash : HashFn) (defs : List Runner) (id : Int) (as : List TPSAct) (r r' : Nat) (rs rs' : PgRunner)
    (hr : ((PgSys.init defs).run hash defs as).runners[r]? = some rs)
    (hr' : ((PgSys.init defs).run hash defs as).runners[r']? = some rs') (i : Nat) (f : Flight)
    (hf : rs.flights[i]? = some (some f)) (hid : f.task.id = id)
    (h2 : (∃ (i' : Nat) (f' : Flight), rs'.flights[i']? = some (some f') ∧ f'.task.id = id ∧ (r ≠ r' ∨ i ≠ i')) ∨
      ∃ (k : Nat) (j : Job), rs'.loading = some k ∧
        ((PgSys.init defs).run hash defs as).conc.sessions[k]? = some (.done (.job (some j))) ∧ j.id = id) :
    PgRequeuedInFlight hash defs id (PgSys.init defs) as := by
  suffices h : PgRequeuedInFlight hash defs id (PgSys.init defs) as ∨
      PSingle id ((PgSys.init defs).trace hash defs as) ((PgSys.init defs).run hash defs as) by
    rcases h with h | T
    · exact h
    · exfalso
      have hc : ((PgSys.init defs).run hash defs as).carrier r (some i) = some (.flight f) := by
        rw [carrier_of hr]; simp [PgRunner.slot, hf]
      rcases h2 with ⟨i', f', g1, g2, g3⟩ | ⟨k, j, g1, g2, g3⟩
      · have hc' : ((PgSys.init defs).run hash defs as).carrier r' (some i') = some (.flight f') := by
          rw [carrier_of hr']; simp [PgRunner.slot, g1]
        have := T.one r (some i) _ r' (some i') _ hc hid hc' g2
        rcases g3 with g3 | g3
        · exact g3 this.1
        · exact g3 (Option.some.inj this.2)
      · have hc' : ((PgSys.init defs).run hash defs as).carrier r' none = some (.loaded j) := by
          rw [carrier_of hr']; exact slot_loaded g1 g2
        have := T.one r (some i) _ r' none _ hc hid hc' g3
        cases this.2
  clear h2 hf hr hr'
  induction as using snoc_induction with
  | nil =>
    right
    have T := PTrackBy.init (fun _ _ => True) id defs
    refine ⟨T.seen, T.one, fun r x c hc hcid => ?_⟩
    have := T.seen r x c hc hcid
    simp [dbHistory, pgInserted] at this
  | snoc as a ih =>
    have I := pgSysInv hash defs as
    rw [PgSys.trace_append, PgSys.run_append]
    rcases ih with h | T
    · left
      obtain ⟨bs, b, cs, ev, rfl, h⟩ := h
      exact ⟨bs, b, cs ++ [a], ev, by simp, h⟩
    · by_cases hbad : ((PgSys.init defs).run hash defs as).hasJob id ∧
          ∃ e, (((PgSys.init defs).run hash defs as).step hash defs a.tie a.now a.act).1 = .db e ∧ e.makesWaiting id = true
      · obtain ⟨g1, e, g2, g3⟩ := hbad
        exact .inl ⟨as, a, [], e, rfl, g1, g2, g3⟩
      · right
        by_cases hq : ∀ ev, (((PgSys.init defs).run hash defs as).step hash defs a.tie a.now a.act).1 = .db ev →
            ev.touches id = true → ev.handsOut id = true
        · exact T.cstep I (c_step I.own I.reps.reportable hash defs a.tie a.now a.act id hq)
        · have hq' : ∃ ev, (((PgSys.init defs).run hash defs as).step hash defs a.tie a.now a.act).1 = .db ev ∧
              ev.touches id = true ∧ ev.handsOut id = false := by
            apply Classical.byContradiction
            intro hn
            refine hq fun ev h1 h2 => ?_
            cases h3 : ev.handsOut id with
            | true => rfl
            | false => exact absurd ⟨ev, h1, h2, h3⟩ hn
          obtain ⟨ev, h1, h2, h3⟩ := hq'
          obtain ⟨b, hab⟩ := step_db h1
          obtain ⟨now, tie, act⟩ := a
          subst hab
          have hev : ev = (((PgSys.init defs).run hash defs as).conc.step hash tie now b).1 := by
            simp only [PgSys.step] at h1
            cases h1; rfl
          subst hev
          refine T.edit I h2 h3 ?_
          intro hb
          cases hw : (((PgSys.init defs).run hash defs as).conc.step hash tie now b).1.makesWaiting id with
          | false => rfl
          | true => exact absurd ⟨hb, _, h1, hw⟩ hbad

/-- The job is rerun while node 0 executes it, and node 1 is given it. -/
def pgRerunInFlight : List TPSAct :=
  [psAct 5000 (.db (.plain sampleEnq))] ++ psPull sec 0 0 ++ [psAct (2 * sec) (.db (.stmt (.rerun 1)))] ++ psPull (3 * sec) 1 1

/-- **C106 fails on Postgres: `rerun_job`.** Rerunning a job that one node executes makes a second
node execute it at the same time. -/
theorem C106_violated_postgres :
    ((PgSys.init [sampleRunner, sampleRunner]).run sampleHash [sampleRunner, sampleRunner] pgRerunInFlight).runners.map
      (fun rs => rs.flights.map fun f => f.map fun f => (f.task.id, match f.phase with | .running => true | _ => false)) =
        [[some (1, true)], [some (1, true)]] := by
  decide

/-- While node 0 executes the job, others cancel it and update it, and node 1 asks: nothing is
handed out. -/
example :
    let ds := [sampleRunner, sampleRunner]
    let as := [psAct 5000 (.db (.plain sampleEnq))] ++ psPull sec 0 0 ++
      [psAct (2 * sec) (.db (.stmt (.cancelled 1 sampleErr))), psAct (2 * sec) (.db (.stmt (.update { sampleJob 1 with priority := 5 })))] ++
      psPull (3 * sec) 1 1
    ((PgSys.init ds).run sampleHash ds as).runners.map (fun rs => rs.flights.map fun f => f.map (·.task.id)) = [[some 1], []] ∧
    ((PgSys.init ds).run sampleHash ds as).conc.pg.rows.map (fun r => (r.status, r.priority)) = [(.cancelled, 5)] := by
  decide

end Rexecutor
