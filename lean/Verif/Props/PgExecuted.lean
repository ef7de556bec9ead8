import Verif.Props.PgProgress
import Verif.Props.PgLifecycle

/-! # C85, at the level of runners -/

namespace Rexecutor

/-! ## The schedule of the database -/

private theorem psys_back' (hash : HashFn) (defs : List Runner) (tie : Int → Nat) (now : Time) (s : PgSys) (a : PSAct) :
    ((s.step hash defs tie now a).1.back = none ∧ (s.step hash defs tie now a).2.conc = s.conc) ∨
    ∃ b, (s.step hash defs tie now a).1.back = some (s.conc.step hash tie now b).1 ∧
      (s.step hash defs tie now a).2.conc = (s.conc.step hash tie now b).2 ∧
      ∀ i, b = .abort i → a = .db (.abort i) := by
  cases a with
  | db b => exact .inr ⟨b, rfl, rfl, fun i h => by rw [h]⟩
  | pull r =>
    simp only [PgSys.step]
    split
    · rename_i d _ _ _
      split
      · exact .inr ⟨.handout d.name, rfl, rfl, fun i h => by cases h⟩
      · exact .inl ⟨rfl, rfl⟩
    · exact .inl ⟨rfl, rfl⟩
  | take r =>
    simp only [PgSys.step]
    split
    · split <;> exact .inl ⟨rfl, rfl⟩
    · exact .inl ⟨rfl, rfl⟩
  | finish r i b =>
    simp only [PgSys.step]
    split
    · split
      · split
        · exact .inl ⟨rfl, rfl⟩
        · split <;> exact .inl ⟨rfl, rfl⟩
      · exact .inl ⟨rfl, rfl⟩
    · exact .inl ⟨rfl, rfl⟩
  | report r i =>
    simp only [PgSys.step]
    split
    · split
      · rename_i t o _
        split
        · exact .inl ⟨rfl, rfl⟩
        · rename_i ev c _ he
          exact .inr ⟨.stmt o, by rw [he]; rfl, by rw [he], fun i h => by cases h⟩
      · exact .inl ⟨rfl, rfl⟩
    · exact .inl ⟨rfl, rfl⟩
  | lose r i =>
    simp only [PgSys.step]
    split
    · split <;> exact .inl ⟨rfl, rfl⟩
    · exact .inl ⟨rfl, rfl⟩
  | stop r => simp only [PgSys.step]; split <;> exact .inl ⟨rfl, rfl⟩
  | drop r => simp only [PgSys.step]; split <;> exact .inl ⟨rfl, rfl⟩
  | kill r => simp only [PgSys.step]; split <;> exact .inl ⟨rfl, rfl⟩

/-- The database of the system goes through a schedule of its own, whose actions belong to
actions of the system. -/
private theorem psys_acts (hash : HashFn) (defs : List Runner) (s : PgSys) (as : List TPSAct) :
    ∃ bs : List TPgAct, (s.run hash defs as).conc = s.conc.run hash bs ∧
      dbHistory (s.trace hash defs as) = s.conc.history hash bs ∧
      (bs.map (·.now)).Sublist (as.map (·.now)) ∧
      ∀ (n : Nat) (b : TPgAct), bs[n]? = some b → ∃ (m : Nat) (a : TPSAct), as[m]? = some a ∧ b.now = a.now ∧
        (s.run hash defs (as.take m)).conc = s.conc.run hash (bs.take n) ∧
        ((s.run hash defs (as.take m)).step hash defs a.tie a.now a.act).1.back =
          some ((s.conc.run hash (bs.take n)).step hash b.tie b.now b.act).1 ∧
        ∀ i, b.act = .abort i → a.act = .db (.abort i) := by
  induction as generalizing s with
  | nil => exact ⟨[], rfl, rfl, List.Sublist.refl _, by simp⟩
  | cons a as ih =>
    obtain ⟨bs, h1, h2, h3, h4⟩ := ih (s.step hash defs a.tie a.now a.act).2
    rcases psys_back' hash defs a.tie a.now s a.act with ⟨hb, hc⟩ | ⟨b, hb, hc, hab⟩
    · rw [hc] at h1 h2 h4
      refine ⟨bs, h1, ?_, List.Sublist.cons _ h3, ?_⟩
      · simp only [PgSys.trace, dbHistory, List.filterMap_cons, hb]
        exact h2
      · intro n b hn
        obtain ⟨m, a', k1, k2, k3, k4, k5⟩ := h4 n b hn
        exact ⟨m + 1, a', k1, k2, k3, k4, k5⟩
    · rw [hc] at h1 h2 h4
      refine ⟨⟨a.now, a.tie, b⟩ :: bs, h1, ?_, List.Sublist.cons_cons _ h3, ?_⟩
      · simp only [PgSys.trace, dbHistory, List.filterMap_cons, hb, PgConc.history]
        exact congrArg _ h2
      · intro n b' hn
        cases n with
        | zero =>
          cases hn
          exact ⟨0, a, rfl, rfl, rfl, hb, hab⟩
        | succ n =>
          obtain ⟨m, a', k1, k2, k3, k4, k5⟩ := h4 n b' hn
          exact ⟨m + 1, a', k1, k2, k3, k4, k5⟩

/-- where in the schedule an event happens -/
private theorem trace_at (hash : HashFn) (defs : List Runner) (s : PgSys) (as : List TPSAct) {e : TPSEv}
    (he : e ∈ s.trace hash defs as) : ∃ (m : Nat) (a : TPSAct), as[m]? = some a ∧
      e = ⟨a.now, ((s.run hash defs (as.take m)).step hash defs a.tie a.now a.act).1⟩ := by
  induction as generalizing s with
  | nil => simp [PgSys.trace] at he
  | cons a as ih =>
    rcases List.mem_cons.mp he with rfl | he
    · exact ⟨0, a, rfl, rfl⟩
    · obtain ⟨m, a', h1, h2⟩ := ih _ he
      exact ⟨m + 1, a', h1, h2⟩

private theorem at_trace (hash : HashFn) (defs : List Runner) (s : PgSys) (as : List TPSAct) {m : Nat} {a : TPSAct}
    (hm : as[m]? = some a) :
    (⟨a.now, ((s.run hash defs (as.take m)).step hash defs a.tie a.now a.act).1⟩ : TPSEv) ∈ s.trace hash defs as := by
  induction as generalizing s m with
  | nil => simp at hm
  | cons a' as ih =>
    cases m with
    | zero => cases hm; exact List.mem_cons_self
    | succ m => exact List.mem_cons_of_mem _ (ih _ hm)

/-! ## Until the job is executed -/

def NoFlightOf (id : Int) (s : PgSys) : Prop := ∀ r i c, s.carrier r (some i) = some c → c.id ≠ id

/-- As long as the job is not executed nobody has an execution of it, and only hand-outs touch it. -/
theorem noFlightOf_step {id : Int} {s : PgSys} (N : NoFlightOf id s) {hash : HashFn} {tie : Int → Nat} {now : Time} {ev : PSEv}
    {s' : PgSys} (hc : CStep hash tie now id s ev s') (hx : ev.executes id = false) :
    NoFlightOf id s' ∧ ∀ b, ev.back = some b → b.touches id = true → b.handsOut id = true := by
  cases hc with
  | away _ _ hs hback => exact ⟨fun r i c h hid => N r i c (hs r _ c h hid) hid, fun b hb => by rw [hback] at hb; cases hb⟩
  | other _ _ b hs hback hconc ht =>
    refine ⟨fun r i c h hid => N r i c (hs r _ c h hid) hid, fun b' hb htt => ?_⟩
    rw [hback] at hb
    cases hb
    rw [ht] at htt; cases htt
  | handed k row res _ he hid hconc hruns hnew =>
    refine ⟨fun r i c h hcid => ?_, fun b hb _ => ?_⟩
    · rcases hnew r _ c h hcid with h1 | ⟨h1, -⟩
      · exact N r i c h1 hcid
      · cases h1
    · cases hb
      simp [PgEv.handsOut, hid]
  | taken r j st _ hid hhad hconc hnew =>
    refine ⟨fun q i c h hcid => ?_, fun b hb => by cases hb⟩
    rcases hnew q _ c h hcid with ⟨h1, -⟩ | ⟨-, -, t, rfl, rfl, -⟩
    · exact N q i c h1 hcid
    · simp only [Carrier.id] at hcid
      simp [PSEv.executes, hcid] at hx
  | ended r i t j d o _ hid ho hhad => exact absurd hid (N r i _ hhad)
  | overflowed r i t j _ hid hhad => exact absurd hid (N r i _ hhad)
  | reported r i t o _ hid hhad => exact absurd hid (N r i _ hhad)

/-- A job a stream has received stays there until it is executed. -/
theorem stream_keeps {id : Int} {s : PgSys} {r k : Nat} {rs : PgRunner} {j : Job} (hr : s.runners[r]? = some rs)
    (hl : rs.loading = some k) (hs : s.conc.sessions[k]? = some (.done (.job (some j)))) (hid : j.id = id)
    (hash : HashFn) (defs : List Runner) (tie : Int → Nat) (now : Time) (a : PSAct)
    (hsm : (s.step hash defs tie now a).1.smooth = true) (hx : (s.step hash defs tie now a).1.executes id = false) :
    ∃ rs', (s.step hash defs tie now a).2.runners[r]? = some rs' ∧ rs'.loading = some k ∧
      (s.step hash defs tie now a).2.conc.sessions[k]? = some (.done (.job (some j))) := by
  have hlt : r < s.runners.length := (List.getElem?_eq_some_iff.mp hr).1
  have put : ∀ (q : Nat) (qs qs' : PgRunner), s.runners[q]? = some qs → (q = r → qs'.loading = some k) →
      ∃ rs', (s.runners.set q qs')[r]? = some rs' ∧ rs'.loading = some k := by
    intro q qs qs' hq hk
    by_cases hqr : q = r
    · subst hqr
      exact ⟨qs', by rw [List.getElem?_set_self hlt], hk rfl⟩
    · exact ⟨rs, by rw [List.getElem?_set_ne hqr]; exact hr, hl⟩
  have same : ∀ {q : Nat} {qs : PgRunner}, s.runners[q]? = some qs → q = r → qs = rs := by
    intro q qs hq hqr
    subst hqr
    rw [hr] at hq
    exact (Option.some.inj hq).symm
  cases a with
  | db b => exact ⟨rs, hr, hl, done_stays hs⟩
  | pull q =>
    simp only [PgSys.step]
    split
    · rename_i d qs _ hq
      split
      · rename_i hif
        obtain ⟨rs', h1, h2⟩ := put q qs _ hq (fun e => by
          have := same hq e
          subst this
          simp [hl] at hif)
        exact ⟨rs', h1, h2, done_stays hs⟩
      · exact ⟨rs, hr, hl, hs⟩
    · exact ⟨rs, hr, hl, hs⟩
  | take q =>
    simp only [PgSys.step] at hsm hx ⊢
    split
    · rename_i d qs hd hq
      simp only [hd, hq] at hsm hx
      split
      · rename_i j' hj'
        simp only [hj'] at hsm hx
        by_cases hqr : q = r
        · exfalso
          have := same hq hqr
          subst this
          rw [hl] at hj'
          simp only [Option.bind_some, hs, Option.some.injEq, Session.done.injEq, Res.job.injEq] at hj'
          subst hj'
          cases hst : d.start j with
          | running t =>
            rw [hst] at hx
            simp only [PSEv.executes, (start_running hst).1, hid, beq_self_eq_true] at hx
            cases hx
          | undecodable => rw [hst] at hsm; cases hsm
          | runnerPanics => rw [hst] at hsm; cases hsm
        · obtain ⟨rs', h1, h2⟩ := put q qs _ hq (fun e => absurd e hqr)
          exact ⟨rs', h1, h2, hs⟩
      · rename_i res hnj hj'
        by_cases hqr : q = r
        · exfalso
          have := same hq hqr
          subst this
          rw [hl] at hj'
          simp only [Option.bind_some, hs, Option.some.injEq, Session.done.injEq] at hj'
          exact hnj j hj'.symm
        · obtain ⟨rs', h1, h2⟩ := put q qs _ hq (fun e => absurd e hqr)
          exact ⟨rs', h1, h2, hs⟩
      · exact ⟨rs, hr, hl, hs⟩
    · exact ⟨rs, hr, hl, hs⟩
  | drop q =>
    simp only [PgSys.step] at hsm ⊢
    split
    · rename_i qs hq
      simp only [hq] at hsm
      obtain ⟨rs', h1, h2⟩ := put q qs _ hq (fun e => by
        have := same hq e
        subst this
        simp [PSEv.smooth, hl] at hsm)
      exact ⟨rs', h1, h2, hs⟩
    · exact ⟨rs, hr, hl, hs⟩
  | finish q i b =>
    simp only [PgSys.step] at hsm ⊢
    split
    · rename_i d qs hd hq
      simp only [hd, hq] at hsm
      split
      · rename_i t hf
        simp only [hf] at hsm
        split
        · exact ⟨rs, hr, hl, hs⟩
        · rename_i jn hjn
          simp only [hjn] at hsm
          split
          · rename_i o ho
            obtain ⟨rs', h1, h2⟩ := put q qs { qs with flights := qs.flights.set i (some ⟨t, .reporting o⟩) } hq (fun e => by
              have := same hq e
              subst this
              exact hl)
            exact ⟨rs', h1, h2, hs⟩
          · rename_i ho
            simp only [ho] at hsm
            cases hsm
      · exact ⟨rs, hr, hl, hs⟩
    · exact ⟨rs, hr, hl, hs⟩
  | report q i =>
    simp only [PgSys.step] at hsm ⊢
    split
    · rename_i qs hq
      split
      · rename_i t o hf
        split
        · exact ⟨rs, hr, hl, hs⟩
        · rename_i ev c hnb he
          obtain ⟨rs', h1, h2⟩ := put q qs { qs with flights := qs.flights.set i none } hq (fun e => by
            have := same hq e
            subst this
            exact hl)
          refine ⟨rs', h1, h2, ?_⟩
          have : c = (s.conc.step hash tie now (.stmt o)).2 := by rw [he]
          rw [this]
          exact done_stays hs
      · exact ⟨rs, hr, hl, hs⟩
    · exact ⟨rs, hr, hl, hs⟩
  | lose q i =>
    simp only [PgSys.step] at hsm ⊢
    split
    · rename_i qs hq
      simp only [hq] at hsm
      split
      · rename_i t o hf
        simp only [hf] at hsm
        cases hsm
      · exact ⟨rs, hr, hl, hs⟩
    · exact ⟨rs, hr, hl, hs⟩
  | stop q =>
    simp only [PgSys.step] at hsm ⊢
    split
    · rename_i qs hq
      simp only [hq] at hsm
      obtain ⟨rs', h1, h2⟩ := put q qs _ hq (fun e => by
        have := same hq e
        subst this
        simp [PSEv.smooth, hl] at hsm)
      exact ⟨rs', h1, h2, hs⟩
    · exact ⟨rs, hr, hl, hs⟩
  | kill q =>
    simp only [PgSys.step] at hsm ⊢
    split
    · rename_i qs hq
      simp only [hq] at hsm
      cases hsm
    · exact ⟨rs, hr, hl, hs⟩

private theorem loaded_run {id : Int} {r k : Nat} {j : Job} (hid : j.id = id) (hash : HashFn) (defs : List Runner)
    (as : List TPSAct) {s : PgSys} {rs : PgRunner} (hr : s.runners[r]? = some rs)
    (hl : rs.loading = some k) (hs : s.conc.sessions[k]? = some (.done (.job (some j))))
    (hsm : ∀ e ∈ s.trace hash defs as, e.ev.smooth = true) (hx : ∀ e ∈ s.trace hash defs as, e.ev.executes id = false) :
    ∃ rs' ∈ (s.run hash defs as).runners, rs'.loading = some k := by
  induction as generalizing s rs with
  | nil => exact ⟨rs, List.mem_of_getElem? hr, hl⟩
  | cons a as ih =>
    simp only [PgSys.trace] at hsm hx
    obtain ⟨rs', h1, h2, h3⟩ := stream_keeps hr hl hs hid hash defs a.tie a.now a.act (hsm _ List.mem_cons_self) (hx _ List.mem_cons_self)
    exact ih h1 h2 h3 (fun e he => hsm e (List.mem_cons_of_mem _ he)) (fun e he => hx e (List.mem_cons_of_mem _ he))

/-- **C85, at the level of runners.** Start from any reachable state of runners on Postgres
in which job `j` is waiting. Let the clock go forward, let `j` be due all the time, let
other clients leave it alone and not ask for jobs to execute, let nothing be queued in
front of it, let no transaction be given up, and let everything go smoothly (no process
ends, no runner panics, no stream is stopped while it waits). When more hand-outs for its
executor have been committed than there were waiting rows ahead of `j` and hand-outs
under way at the start, and no stream is waiting any more, and no transaction has `j`
locked, then an execution of `j` has been started. -/
theorem C85_executed (hash : HashFn) (defs : List Runner) (as₁ as₂ : List TPSAct) (j : Row)
    (hj : j ∈ ((PgSys.init defs).run hash defs as₁).conc.pg.rows) (hw : j.status = .scheduled ∨ j.status = .retryable)
    (hmono : as₂.Pairwise fun a b => a.now ≤ b.now)
    (hdue : ∀ a ∈ as₂, j.scheduledAt < pgTime a.now + 100000000)
    (hleave : OthersLeave j.id ((PgSys.init defs).trace hash defs (as₁ ++ as₂)))
    (hno : ∀ a ∈ as₁ ++ as₂, ∀ x, a.act ≠ .db (.handout x))
    (habort : ∀ a ∈ as₂, ∀ i, a.act ≠ .db (.abort i))
    (hbehind : ∀ (n : Nat) (a : TPSAct), as₂[n]? = some a → ∀ ev,
      (((PgSys.init defs).run hash defs (as₁ ++ as₂.take n)).step hash defs a.tie a.now a.act).1.back = some ev →
        ev.QueuesBehind j a.now ((PgSys.init defs).run hash defs (as₁ ++ as₂.take n)).conc.pg.rows)
    (hsm : ∀ e ∈ (PgSys.init defs).trace hash defs (as₁ ++ as₂), e.ev.smooth = true)
    (hmany : ((PgSys.init defs).run hash defs as₁).conc.pg.rows.countP (fun a => decide (RowAhead j a))
        + ((PgSys.init defs).run hash defs as₁).conc.sessions.countP (fun s => s.takesFor j.executor)
      < (dbHistory (((PgSys.init defs).run hash defs as₁).trace hash defs as₂)).countP (fun e => e.ev.handsOutFor j.executor))
    (hidle : ∀ rs ∈ ((PgSys.init defs).run hash defs (as₁ ++ as₂)).runners, rs.loading = none)
    (hend : ((PgSys.init defs).run hash defs (as₁ ++ as₂)).conc.rowLocked j.id = false) :
    ∃ e ∈ ((PgSys.init defs).run hash defs as₁).trace hash defs as₂, e.ev.executes j.id = true := by
  apply Classical.byContradiction
  intro hcontra
  have hx : ∀ e ∈ ((PgSys.init defs).run hash defs as₁).trace hash defs as₂, e.ev.executes j.id = false := by
    intro e he
    cases h : e.ev.executes j.id with
    | false => rfl
    | true => exact absurd ⟨e, he, h⟩ hcontra
  rw [PgSys.trace_append] at hleave
  have T := pTrack j.id hash defs as₁ hleave.left
  -- nobody has an execution of `j`, and nothing but hand-outs touches it
  have N0 : NoFlightOf j.id ((PgSys.init defs).run hash defs as₁) := by
    intro r i c h hid
    have := (T.exec r (some i) c h hid j hj rfl).1
    rcases hw with h | h <;> rw [this] at h <;> cases h
  have hcs : ∀ (n : Nat) (a : TPSAct), as₂[n]? = some a →
      CStep hash a.tie a.now j.id ((PgSys.init defs).run hash defs (as₁ ++ as₂.take n))
        (((PgSys.init defs).run hash defs (as₁ ++ as₂.take n)).step hash defs a.tie a.now a.act).1
        (((PgSys.init defs).run hash defs (as₁ ++ as₂.take n)).step hash defs a.tie a.now a.act).2 := by
    intro n a ha
    have I := pgSysInv hash defs (as₁ ++ as₂.take n)
    refine c_step I.own I.reps.reportable hash defs a.tie a.now a.act j.id fun ev he ht => ?_
    have hm := at_trace hash defs ((PgSys.init defs).run hash defs as₁) as₂ ha
    rw [← PgSys.run_append] at hm
    exact hleave _ (List.mem_append_right _ hm) ev he ht
  have hxn : ∀ (n : Nat) (a : TPSAct), as₂[n]? = some a →
      (((PgSys.init defs).run hash defs (as₁ ++ as₂.take n)).step hash defs a.tie a.now a.act).1.executes j.id = false := by
    intro n a ha
    have hm := at_trace hash defs ((PgSys.init defs).run hash defs as₁) as₂ ha
    rw [← PgSys.run_append] at hm
    exact hx _ hm
  have hsucc : ∀ (n : Nat) (a : TPSAct), as₂[n]? = some a →
      (PgSys.init defs).run hash defs (as₁ ++ as₂.take (n + 1)) =
        (((PgSys.init defs).run hash defs (as₁ ++ as₂.take n)).step hash defs a.tie a.now a.act).2 := by
    intro n a ha
    rw [List.take_add_one, ha, ← List.append_assoc, PgSys.run_append]
    rfl
  have N : ∀ n, NoFlightOf j.id ((PgSys.init defs).run hash defs (as₁ ++ as₂.take n)) := by
    intro n
    induction n with
    | zero => simpa using N0
    | succ n ih =>
      cases ha : as₂[n]? with
      | none =>
        have : as₂.take (n + 1) = as₂.take n := by
          rw [List.take_add_one, ha]; simp
        rw [this]; exact ih
      | some a =>
        rw [hsucc n a ha]
        exact (noFlightOf_step ih (hcs n a ha) (hxn n a ha)).1
  -- the database alone
  obtain ⟨bs₁, c1, -⟩ := psys_schedule hash defs as₁
  obtain ⟨bs₂, d1, d2, d3, d4⟩ := psys_acts hash defs ((PgSys.init defs).run hash defs as₁) as₂
  have hrun : ∀ n, PgConc.run hash {} (bs₁ ++ bs₂.take n) = ((PgSys.init defs).run hash defs as₁).conc.run hash (bs₂.take n) := by
    intro n; rw [PgConc.run_append, c1]
  have hsub := d3.subset
  have hnow : ∀ b ∈ bs₂, ∃ a ∈ as₂, a.now = b.now := by
    intro b hb
    exact List.mem_map.mp (hsub (List.mem_map.mpr ⟨b, hb, rfl⟩))
  have hfull : PgConc.run hash {} (bs₁ ++ bs₂) = ((PgSys.init defs).run hash defs (as₁ ++ as₂)).conc := by
    rw [PgConc.run_append, ← c1, ← d1, PgSys.run_append]
  have hhand := C85_handed_out hash bs₁ bs₂ j (by rw [← c1]; exact hj) hw
    (List.pairwise_map.mp ((List.pairwise_map.mpr hmono).sublist d3))
    (fun b hb => by obtain ⟨a, ha, he⟩ := hnow b hb; rw [← he]; exact hdue a ha)
    (by
      rw [← c1, ← d2]
      intro e he ht
      obtain ⟨te, hte, h1⟩ := List.mem_filterMap.mp he
      obtain ⟨m, a, hm, rfl⟩ := trace_at hash defs _ _ hte
      rw [Option.map_eq_some_iff] at h1
      obtain ⟨ev, hback, rfl⟩ := h1
      rw [← PgSys.run_append] at hback
      exact (noFlightOf_step (N m) (hcs m a hm) (hxn m a hm)).2 ev hback ht)
    (by
      intro n hn
      obtain ⟨m, a, k1, k2, k3, k4, -⟩ := d4 n bs₂[n] (List.getElem?_eq_getElem hn)
      rw [← PgSys.run_append] at k3 k4
      rw [hrun, k2, ← k3]
      rw [k2, ← k3] at k4
      exact hbehind m a k1 _ k4)
    (by rw [← c1, ← d2]; exact hmany)
    (by
      intro b hb i hi
      obtain ⟨n, hn⟩ := List.mem_iff_getElem?.mp hb
      obtain ⟨m, a, k1, -, -, -, k5⟩ := d4 n b hn
      exact habort a (List.mem_of_getElem? k1) i (k5 i hi))
    (by rw [hfull]; exact hend)
  -- the hand-out reaches a stream
  rw [← c1, ← d2] at hhand
  obtain ⟨e, he, hho⟩ := hhand
  obtain ⟨te, hte, h1⟩ := List.mem_filterMap.mp he
  obtain ⟨m, a, hm, rfl⟩ := trace_at hash defs _ _ hte
  rw [Option.map_eq_some_iff] at h1
  obtain ⟨ev, hback, rfl⟩ := h1
  rw [← PgSys.run_append] at hback
  dsimp only at hback hho
  obtain ⟨row, res, rfl⟩ : ∃ row res, ev = .handedOut row res := by
    cases ev <;> simp [PgEv.handsOut] at hho
    exact ⟨_, _, rfl⟩
  have hrid : row.id = j.id := by simpa [PgEv.handsOut] using hho
  have I := pgSysInv hash defs (as₁ ++ as₂.take m)
  have hexec : row.status = .executing ∧ row ∈ ((PgSys.init defs).run hash defs (as₁ ++ as₂.take (m + 1))).conc.pg.rows := by
    rw [hsucc m a hm]
    rcases psys_back hash defs a.tie a.now ((PgSys.init defs).run hash defs (as₁ ++ as₂.take m)) a.act with ⟨hb, -⟩ | ⟨b, hb, hc⟩
    · rw [hback] at hb; cases hb
    · rw [hback, Option.some.injEq] at hb
      obtain ⟨k, rfl⟩ := handedOut_advance hb.symm
      obtain ⟨t, -, -, h3, h4⟩ := handedOut_at I.inv hb.symm
      rw [hc]
      exact ⟨h3, h4⟩
  have hpre : ∀ e ∈ (PgSys.init defs).trace hash defs (as₁ ++ as₂.take (m + 1)), e.ev.smooth = true := by
    intro e he
    refine hsm e ?_
    rw [← List.take_append_drop (m + 1) as₂, ← List.append_assoc, PgSys.trace_append]
    exact List.mem_append_left _ he
  have hhas := C69_executing_has_executor_partial hash defs (as₁ ++ as₂.take (m + 1))
    (fun b hb x => by
      refine hno b ?_ x
      rcases List.mem_append.mp hb with h | h
      · exact List.mem_append_left _ h
      · exact List.mem_append_right _ (List.mem_of_mem_take h))
    hpre row hexec.2 hexec.1
  obtain ⟨r, x, c, hc, hcid⟩ := hasJob_iff.mp hhas
  cases x with
  | some i => exact N (m + 1) r i c hc (by rw [hcid, hrid])
  | none =>
    obtain ⟨rs, hr, hsl⟩ := Option.bind_eq_some_iff.mp hc
    obtain ⟨k, jb, hl, hs, rfl⟩ := slot_loaded_inv hsl
    have hsplit : ((PgSys.init defs).run hash defs as₁).trace hash defs as₂ =
        ((PgSys.init defs).run hash defs as₁).trace hash defs (as₂.take (m + 1)) ++
          ((PgSys.init defs).run hash defs (as₁ ++ as₂.take (m + 1))).trace hash defs (as₂.drop (m + 1)) := by
      rw [PgSys.run_append, ← PgSys.trace_append, List.take_append_drop]
    obtain ⟨rs', h1, h2⟩ := loaded_run (id := j.id) (by rw [← hrid]; exact hcid) hash defs (as₂.drop (m + 1)) hr hl hs
      (fun e he => hsm e (by
        rw [PgSys.trace_append, hsplit]
        exact List.mem_append_right _ (List.mem_append_right _ he)))
      (fun e he => hx e (by rw [hsplit]; exact List.mem_append_right _ he))
    rw [← PgSys.run_append, List.append_assoc, List.take_append_drop] at h1
    rw [hidle rs' h1] at h2
    cases h2

/-- Two jobs wait, and two runners ask once each: the second job is executed. -/
example :
    let ds := [sampleRunner, sampleRunner]
    let as₁ := [psAct 5000 (.db (.plain sampleEnq)), psAct 5500 (.db (.plain sampleEnq))]
    let as₂ := psPull 6000 0 0 ++ psPull 7000 1 1
    let start := (PgSys.init ds).run sampleHash ds as₁
    ∃ j ∈ start.conc.pg.rows, j.id = 2 ∧ j.status = .scheduled ∧
    (as₂.Pairwise fun a b => a.now ≤ b.now) ∧
    (∀ a ∈ as₂, j.scheduledAt < pgTime a.now + 100000000) ∧
    (∀ e ∈ (PgSys.init ds).trace sampleHash ds (as₁ ++ as₂), (match e.ev with
      | .db ev => !ev.touches 2 || ev.handsOut 2
      | _ => true) = true) ∧
    ((as₁ ++ as₂).all fun a => match a.act with | .db (.handout _) => false | .db (.abort _) => false | _ => true) = true ∧
    (∀ (n : Nat) (h : n < as₂.length),
      (match (((PgSys.init ds).run sampleHash ds (as₁ ++ as₂.take n)).step sampleHash ds as₂[n].tie as₂[n].now as₂[n].act).1.back with
        | some ev => decide (ev.QueuesBehind j as₂[n].now ((PgSys.init ds).run sampleHash ds (as₁ ++ as₂.take n)).conc.pg.rows)
        | none => true) = true) ∧
    (∀ e ∈ (PgSys.init ds).trace sampleHash ds (as₁ ++ as₂), e.ev.smooth = true) ∧
    start.conc.pg.rows.countP (fun a => decide (RowAhead j a)) = 1 ∧
    start.conc.sessions.countP (fun s => s.takesFor j.executor) = 0 ∧
    (dbHistory (start.trace sampleHash ds as₂)).countP (fun e => e.ev.handsOutFor j.executor) = 2 ∧
    (∀ rs ∈ ((PgSys.init ds).run sampleHash ds (as₁ ++ as₂)).runners, rs.loading = none) ∧
    ((PgSys.init ds).run sampleHash ds (as₁ ++ as₂)).conc.rowLocked 2 = false := by
  refine ⟨_, List.getElem_mem (n := 1) (by decide), by decide, by decide, by decide, by decide, by decide, by decide,
    by decide, by decide, by decide, by decide, by decide, by decide, by decide⟩

end Rexecutor
