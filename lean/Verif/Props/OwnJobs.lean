import Verif.Props.Dispatch
import Verif.Props.PgDispatch
import Verif.Props.PgLifecycle
import Verif.Props.Limits

/-! # C89: an executor is given its own jobs only -/

namespace Rexecutor

/-- **C89, in memory.** In every history of any number of runners, a runner that is handed a
job asked for jobs of its own executor, and the job is one of these, due (up to 100 ms
early) and marked as executing; if an execution is started it is of this job. -/
theorem C89_own_jobs (defs : List Runner) (paused : Bool) (as : List TSAct) (e : TSEv)
    (he : e ∈ (Sys.init defs paused).trace defs as) (r : Nat) (d : Runner) (o : Op) (j : Job) (st : Option Started)
    (hd : defs[r]? = some d) (hev : e.ev = .pulled r (.op o (.job (some j))) st) :
    o = .load d.name ∧ j.executor = d.name ∧ j.status = .executing ∧ j.scheduledAt < e.now + 100 * ms ∧
    ∀ t, st = some (.running t) → t.id = j.id := by
  generalize Sys.init defs paused = s at *
  induction as generalizing s with
  | nil => simp [Sys.trace] at he
  | cons a as ih =>
    simp only [Sys.trace, List.mem_cons] at he
    rcases he with rfl | he
    · have hs := step_sstep defs a.now s a.act
      simp only at hev
      rw [hev] at hs
      have key : ∀ d', defs[r]? = some d' →
          (s.conc.step a.now (.op (.load d'.name))).1 = .op (.load d'.name) (.job (some j)) →
          j.executor = d.name ∧ j.status = .executing ∧ j.scheduledAt < a.now + 100 * ms := by
        intro d' hd' hl
        rw [hd, Option.some.injEq] at hd'; subst hd'
        simp only [Conc.step, Mem.step, Ev.op.injEq, Res.job.injEq, true_and] at hl
        obtain ⟨i, k, hk, h1, rfl, h3⟩ := (C04_only_due_jobs a.now d.name s.conc.mem).1 j hl
        exact ⟨h1.executor, rfl, h1.due⟩
      generalize a.act = act at hs
      generalize (s.step defs a.now act).2 = s' at hs
      cases hs with
      | started _ d' rs _ t hd' hr hp hl hl' hst =>
        obtain ⟨h1, h2, h3⟩ := key d' hd' hl'
        rw [hd, Option.some.injEq] at hd'; subst hd'
        refine ⟨rfl, h1, h2, h3, fun t' ht => ?_⟩
        cases ht
        exact (start_running hst).1
      | undecodable _ d' rs _ hd' hr hp hl hl' hst =>
        obtain ⟨h1, h2, h3⟩ := key d' hd' hl'
        rw [hd, Option.some.injEq] at hd'; subst hd'
        exact ⟨rfl, h1, h2, h3, fun t' ht => by cases ht⟩
      | panicked _ d' rs _ hd' hr hp hl hl' hst =>
        obtain ⟨h1, h2, h3⟩ := key d' hd' hl'
        rw [hd, Option.some.injEq] at hd'; subst hd'
        exact ⟨rfl, h1, h2, h3, fun t' ht => by cases ht⟩
    · exact ih _ he

/-- What is known of a session opened to hand out a job of executor `x`. -/
private def HandsOutFor (h : List TPSEv) (x : String) : Session → Prop
  | .handout y => y = x
  | .looking y _ _ => y = x
  | .locked y _ _ => y = x
  | .done (.job (some j)) => ∃ e ∈ h, ∃ row, e.ev = .db (.handedOut row (.job (some j))) ∧ row.decode = some j ∧ row.executor = x ∧ row.status = .executing
  | .done _ => True
  | _ => False

private theorem HandsOutFor.grow {h : List TPSEv} {x : String} {s : Session} (e : TPSEv) (hs : HandsOutFor h x s) :
    HandsOutFor (h ++ [e]) x s := by
  cases s with
  | done res =>
    cases res with
    | job o =>
      cases o with
      | none => exact trivial
      | some j => obtain ⟨e', he', hh⟩ := hs; exact ⟨e', List.mem_append_left _ he', hh⟩
    | _ => exact hs
  | _ => exact hs

private theorem handsOutFor_advance {h : List TPSEv} {hash : HashFn} {tie : Int → Nat} {now : Time} {c : PgConc} {k : Nat} {x : String} {ss : Session}
    (I : PgInv c) (hk : c.sessions[k]? = some ss) (hs : HandsOutFor h x ss) :
    HandsOutFor (h ++ [⟨now, .db (c.step hash tie now (.advance k)).1⟩]) x (c.advance hash tie now ss).2.1 := by
  have hstep : (c.step hash tie now (.advance k)).1 = (c.advance hash tie now ss).1 := by simp only [PgConc.step, hk]
  rw [hstep]
  cases ss with
  | handout y => exact hs
  | looking y t snap =>
    simp only [PgConc.advance]
    split
    · exact trivial
    · exact hs
  | locked y t id =>
    have hy : y = x := hs
    subst hy
    obtain ⟨q, hq, hid, hrdy⟩ := I.lockedReady k y t id hk
    simp only [PgConc.advance]
    split
    · exact trivial
    · rename_i r hr
      have hrq : r = q := row_unique I.nodup (List.mem_of_find?_eq_some hr) hq (by
        have := List.find?_some hr
        rw [hid]; simpa using this)
      subst hrq
      cases hd : (r.markExecuting t).decode with
      | none => exact trivial
      | some j =>
        refine ⟨_, List.mem_append_right _ (List.mem_singleton.mpr rfl), _, rfl, hd, ?_⟩
        exact ⟨(ready_iff'.mp hrdy).1, rfl⟩
  | done res => exact hs.grow _
  | _ => exact hs.elim

private theorem handsOutFor_step {h : List TPSEv} {hash : HashFn} {tie : Int → Nat} {now : Time} {c : PgConc} {k : Nat} {x : String} {ss ss' : Session}
    (b : PgAct) (I : PgInv c) (hk : c.sessions[k]? = some ss) (hk' : (c.step hash tie now b).2.sessions[k]? = some ss')
    (hs : HandsOutFor h x ss) : HandsOutFor (h ++ [⟨now, .db (c.step hash tie now b).1⟩]) x ss' := by
  rcases session_at hk hk' with rfl | ⟨rfl, rfl⟩ | rfl
  · exact hs.grow _
  · exact handsOutFor_advance I hk hs
  · exact trivial

private def OwnInv (defs : List Runner) (h : List TPSEv) (s : PgSys) : Prop :=
  ∀ (r : Nat) (d : Runner) (rs : PgRunner) (k : Nat) (ss : Session), defs[r]? = some d → s.runners[r]? = some rs →
    rs.loading = some k → s.conc.sessions[k]? = some ss → HandsOutFor h d.name ss

private theorem ownInv_step {defs : List Runner} {h : List TPSEv} {s : PgSys} (hash : HashFn) (tie : Int → Nat) (now : Time) (a : PSAct)
    (O : PgOwn s) (I : PgInv s.conc) (H : OwnInv defs h s) :
    OwnInv defs (h ++ [⟨now, (s.step hash defs tie now a).1⟩]) (s.step hash defs tie now a).2 := by
  have same : ∀ e, OwnInv defs (h ++ [e]) s := fun e r d rs k ss h1 h2 h3 h4 => (H r d rs k ss h1 h2 h3 h4).grow e
  -- runner `q` keeps what its stream waits for, or drops it
  have keep : ∀ (q : Nat) (qs qs' : PgRunner) (c : PgConc) (e : TPSEv), s.runners[q]? = some qs → c.sessions = s.conc.sessions →
      (qs'.loading = qs.loading ∨ qs'.loading = none) → OwnInv defs (h ++ [e]) ⟨c, s.runners.set q qs'⟩ := by
    intro q qs qs' c e hq hc hl r d rs k ss h1 h2 h3 h4
    simp only [hc] at h4
    simp only [List.getElem?_set] at h2
    split at h2
    · rename_i hqr; subst hqr
      split at h2
      · cases h2
        rcases hl with hl | hl
        · exact (H q d qs k ss h1 hq (hl ▸ h3) h4).grow e
        · rw [hl] at h3; cases h3
      · cases h2
    · exact (H r d rs k ss h1 h2 h3 h4).grow e
  cases a with
  | db b =>
    intro r d rs k ss' h1 h2 h3 h4
    have hlt := O.lt r rs k h2 h3
    have hk : s.conc.sessions[k]? = some s.conc.sessions[k] := List.getElem?_eq_getElem hlt
    exact handsOutFor_step b I hk h4 (H r d rs k _ h1 h2 h3 hk)
  | pull q =>
    simp only [PgSys.step]
    split
    · rename_i d' qs hd' hq
      split
      · intro r d rs k ss h1 h2 h3 h4
        simp only [PgConc.step] at h4
        simp only [List.getElem?_set] at h2
        split at h2
        · rename_i hqr; subst hqr
          split at h2
          · cases h2
            cases h3
            rw [hd', Option.some.injEq] at h1; subst h1
            simp only [List.getElem?_concat_length, Option.some.injEq] at h4
            subst h4
            exact rfl
          · cases h2
        · have hlt := O.lt r rs k h2 h3
          rw [List.getElem?_append_left hlt] at h4
          exact (H r d rs k ss h1 h2 h3 h4).grow _
      · exact same _
    · exact same _
  | take q =>
    simp only [PgSys.step]
    split
    · rename_i d' qs hd' hq
      split
      · rename_i j hj
        cases hst : d'.start j with
        | running t => refine keep q qs _ _ _ hq rfl (.inr ?_); rfl
        | undecodable => refine keep q qs _ _ _ hq rfl (.inr ?_); rfl
        | runnerPanics => refine keep q qs _ _ _ hq rfl (.inr ?_); rfl
      · refine keep q qs _ _ _ hq rfl (.inr ?_); rfl
      · exact same _
    · exact same _
  | drop q =>
    simp only [PgSys.step]
    split
    · rename_i qs hq; refine keep q qs _ _ _ hq rfl (.inr ?_); rfl
    · exact same _
  | finish q i b =>
    simp only [PgSys.step]
    split
    · rename_i d' qs hd' hq
      split
      · split
        · exact same _
        · split
          · refine keep q qs _ _ _ hq rfl (.inl ?_); rfl
          · refine keep q qs _ _ _ hq rfl (.inr ?_); rfl
      · exact same _
    · exact same _
  | report q i =>
    simp only [PgSys.step]
    split
    · rename_i qs hq
      split
      · rename_i t o hf
        have hsess : (s.conc.step hash tie now (.stmt o)).2.sessions = s.conc.sessions := by
          cases o <;> simp only [PgConc.step] <;> (first | rfl | (split <;> rfl))
        split
        · exact same _
        · rename_i ev c _ hst
          refine keep q qs _ _ _ hq ?_ (.inl ?_)
          · rw [hst] at hsess; exact hsess
          · rfl
      · exact same _
    · exact same _
  | lose q i =>
    simp only [PgSys.step]
    split
    · rename_i qs hq
      split
      · refine keep q qs _ _ _ hq rfl (.inl ?_); rfl
      · exact same _
    · exact same _
  | stop q =>
    simp only [PgSys.step]
    split
    · rename_i qs hq; refine keep q qs _ _ _ hq rfl (.inr ?_); rfl
    · exact same _
  | kill q =>
    simp only [PgSys.step]
    split
    · rename_i qs hq; refine keep q qs _ _ _ hq rfl (.inr ?_); rfl
    · exact same _

private theorem ownInv (hash : HashFn) (defs : List Runner) (as : List TPSAct) :
    PgOwn ((PgSys.init defs).run hash defs as) ∧ PgInv ((PgSys.init defs).run hash defs as).conc ∧
    OwnInv defs ((PgSys.init defs).trace hash defs as) ((PgSys.init defs).run hash defs as) := by
  induction as using snoc_induction with
  | nil =>
    refine ⟨PgOwn.init defs, pgInv hash [], ?_⟩
    intro r d rs k ss h1 h2 h3 h4
    simp [PgSys.run, PgSys.init] at h4
  | snoc as a ih =>
    obtain ⟨O, I, H⟩ := ih
    have I' : PgInv ((PgSys.init defs).run hash defs (as ++ [a])).conc := by
      obtain ⟨bs, h1, -⟩ := psys_schedule hash defs (as ++ [a])
      rw [h1]; exact pgInv hash bs
    refine ⟨?_, I', ?_⟩
    · rw [PgSys.run_append]; exact O.step hash defs a.tie a.now a.act
    · rw [PgSys.run_append, PgSys.trace_append]
      exact ownInv_step hash a.tie a.now a.act O I H

private theorem psys_split {hash : HashFn} {defs : List Runner} {s : PgSys} {as : List TPSAct} {pre post : List TPSEv} {e : TPSEv}
    (h : s.trace hash defs as = pre ++ e :: post) :
    ∃ as₁ a as₂, as = as₁ ++ a :: as₂ ∧ s.trace hash defs as₁ = pre ∧
      e = ⟨a.now, ((s.run hash defs as₁).step hash defs a.tie a.now a.act).1⟩ := by
  induction pre generalizing s as with
  | nil =>
    cases as with
    | nil => simp [PgSys.trace] at h
    | cons a as =>
      simp only [PgSys.trace, List.nil_append, List.cons.injEq] at h
      exact ⟨[], a, as, rfl, rfl, h.1.symm⟩
  | cons p pre ih =>
    cases as with
    | nil => simp [PgSys.trace] at h
    | cons a as =>
      simp only [PgSys.trace, List.cons_append, List.cons.injEq] at h
      obtain ⟨as₁, b, as₂, rfl, h2, h3⟩ := ih h.2
      exact ⟨a :: as₁, b, as₂, rfl, by simp only [PgSys.trace]; rw [h.1, h2], h3⟩

/-- **C89, Postgres.** In every history of any number of runners on one database, a job a
runner receives is of its own executor and was handed out before by a committed statement,
which marked the row as it is received; if an execution is started it is of this job. -/
theorem C89_own_jobs_postgres (hash : HashFn) (defs : List Runner) (as : List TPSAct) (pre post : List TPSEv) (e : TPSEv)
    (h : (PgSys.init defs).trace hash defs as = pre ++ e :: post) (r : Nat) (d : Runner) (j : Job) (st : Option Started)
    (hd : defs[r]? = some d) (hev : e.ev = .took r (.job (some j)) st) :
    j.executor = d.name ∧ j.status = .executing ∧
    (∃ e₀ ∈ pre, ∃ row, e₀.ev = .db (.handedOut row (.job (some j))) ∧ row.id = j.id ∧ row.executor = d.name) ∧
    ∀ t, st = some (.running t) → t.id = j.id := by
  obtain ⟨as₁, a, as₂, rfl, hpre, rfl⟩ := psys_split h
  obtain ⟨O, I, H⟩ := ownInv hash defs as₁
  rw [hpre] at H
  generalize (PgSys.init defs).run hash defs as₁ = s at *
  clear hpre h
  obtain ⟨now, tie, act⟩ := a
  simp only at hev
  have key : ∃ rs k, s.runners[r]? = some rs ∧ rs.loading = some k ∧ s.conc.sessions[k]? = some (.done (.job (some j))) ∧
      st = some (d.start j) := by
    cases act with
    | take q =>
      simp only [PgSys.step] at hev
      split at hev
      · rename_i d' qs hd' hq
        split at hev
        · rename_i j' hj
          obtain ⟨k, hl, hk⟩ := Option.bind_eq_some_iff.mp hj
          simp only [PSEv.took.injEq, Res.job.injEq, Option.some.injEq] at hev
          obtain ⟨rfl, rfl, rfl⟩ := hev
          rw [hd, Option.some.injEq] at hd'; subst hd'
          exact ⟨qs, k, hq, hl, hk, rfl⟩
        · rename_i res hne hj
          simp only [PSEv.took.injEq] at hev
          obtain ⟨-, rfl, -⟩ := hev
          exact absurd rfl (hne j)
        · cases hev
      · cases hev
    | db b => cases hev
    | pull q => simp only [PgSys.step] at hev; (repeat' split at hev) <;> cases hev
    | drop q => simp only [PgSys.step] at hev; (repeat' split at hev) <;> cases hev
    | finish q i b => simp only [PgSys.step] at hev; (repeat' split at hev) <;> cases hev
    | report q i => simp only [PgSys.step] at hev; (repeat' split at hev) <;> cases hev
    | lose q i => simp only [PgSys.step] at hev; (repeat' split at hev) <;> cases hev
    | stop q => simp only [PgSys.step] at hev; (repeat' split at hev) <;> cases hev
    | kill q => simp only [PgSys.step] at hev; (repeat' split at hev) <;> cases hev
  obtain ⟨rs, k, hr, hl, hk, rfl⟩ := key
  obtain ⟨e₀, he₀, row, h1, h2, h3, h4⟩ := H r d rs k _ hd hr hl hk
  obtain ⟨g1, -, -, g4⟩ := decode_fields h2
  have hstat : j.status = row.status := by
    unfold Row.decode at h2
    split at h2
    · cases h2
    · cases h2; rfl
  refine ⟨by rw [g4, h3], by rw [hstat, h4], ⟨e₀, he₀, row, h1, g1.symm, h3⟩, ?_⟩
  intro t ht
  exact (start_running (Option.some.inj ht)).1

/-- An executor of another name. -/
def otherRunner : Runner := { eagerRunner none with name := "sms" }

/-- One job for each is enqueued; both ask, and receive their own. -/
example :
    let defs := [eagerRunner none, otherRunner]
    ((Sys.init defs).trace defs ((enqSteps 0 0 { sampleEnq with executor := "sms" } ++ enqSteps 0 1 sampleEnq).map
        (fun a => ⟨a.now, .client a.act⟩) ++ [⟨1, .pull 0⟩, ⟨1, .pull 1⟩])).filterMap (fun e => match e.ev with
      | .pulled r (.op _ (.job (some j))) _ => some (r, j.id, j.executor)
      | _ => none) = [(0, 1, "mail"), (1, 0, "sms")] ∧
    ((PgSys.init defs).trace sampleHash defs ([psAct 5000 (.db (.plain { sampleEnq with executor := "sms" })),
        psAct 5000 (.db (.plain sampleEnq))] ++ psPull 6000 0 0 ++ psPull 6000 1 1)).filterMap (fun e => match e.ev with
      | .took r (.job (some j)) _ => some (r, j.id, j.executor)
      | _ => none) = [(0, 2, "mail"), (1, 1, "sms")] := by decide

end Rexecutor
